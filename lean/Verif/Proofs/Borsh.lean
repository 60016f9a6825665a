import Verif.Model.Borsh
/-!
# The borsh codecs are lawful
-/
namespace Jmt.Borsh

/-- Reading gives back what was written, and what can be read has been written exactly so. -/
structure Lawful {α : Type} (c : Codec α) : Prop where
  read : ∀ a bs rest, c.enc a = some bs → c.dec (bs ++ rest) = some (a, rest)
  write : ∀ bs a rest, c.dec bs = some (a, rest) → ∃ pre, c.enc a = some pre ∧ bs = pre ++ rest

theorem leBytes_length (n x : Nat) : (leBytes n x).length = n := by
  induction n generalizing x with
  | zero => rfl
  | succ n ih => simp [leBytes, ih]

theorem leValue_leBytes (n x : Nat) (h : x < 256 ^ n) : leValue (leBytes n x) = x := by
  induction n generalizing x with
  | zero => simp at h; subst h; rfl
  | succ n ih =>
    have hx : x / 256 < 256 ^ n := by
      rw [Nat.pow_succ] at h
      exact Nat.div_lt_of_lt_mul (by rw [Nat.mul_comm]; exact h)
    have h8 : (UInt8.ofNat (x % 256)).toNat = x % 256 := by
      rw [UInt8.toNat_ofNat']
      exact Nat.mod_eq_of_lt (Nat.mod_lt _ (by decide))
    simp only [leBytes, leValue, ih _ hx, h8]
    omega

theorem leValue_lt (bs : List UInt8) : leValue bs < 256 ^ bs.length := by
  induction bs with
  | nil => decide
  | cons b bs ih =>
    have := b.toNat_lt
    simp only [leValue, List.length_cons, Nat.pow_succ]
    omega

theorem leBytes_leValue (bs : List UInt8) : leBytes bs.length (leValue bs) = bs := by
  induction bs with
  | nil => rfl
  | cons b bs ih =>
    have hb := b.toNat_lt
    simp only [List.length_cons, leBytes, leValue]
    have e1 : (b.toNat + 256 * leValue bs) % 256 = b.toNat := by omega
    have e2 : (b.toNat + 256 * leValue bs) / 256 = leValue bs := by omega
    rw [e1, e2, ih, UInt8.ofNat_toNat]

theorem takeBytes_append (l rest : List UInt8) : takeBytes l.length (l ++ rest) = some (l, rest) := by
  unfold takeBytes
  rw [if_pos (by simp)]
  simp

theorem takeBytes_some {n : Nat} {bs l rest : List UInt8} (h : takeBytes n bs = some (l, rest)) :
    l.length = n ∧ bs = l ++ rest := by
  unfold takeBytes at h
  split at h
  · rename_i hle
    simp only [Option.some.injEq, Prod.mk.injEq] at h
    obtain ⟨rfl, rfl⟩ := h
    exact ⟨by rw [List.length_take]; omega, (List.take_append_drop n bs).symm⟩
  · cases h

theorem uint_lawful (n : Nat) : Lawful (uint n) where
  read x bs rest h := by
    simp only [uint] at h ⊢
    split at h
    · rename_i hx
      cases h
      have := takeBytes_append (leBytes n x) rest
      rw [leBytes_length] at this
      rw [this]
      simp [leValue_leBytes n x hx]
    · cases h
  write bs x rest h := by
    simp only [uint] at h ⊢
    cases ht : takeBytes n bs with
    | none => rw [ht] at h; cases h
    | some r =>
      rw [ht] at h
      simp only [Option.map_some, Option.some.injEq, Prod.mk.injEq] at h
      obtain ⟨rfl, rfl⟩ := h
      obtain ⟨h1, h2⟩ := takeBytes_some (l := r.1) (rest := r.2) ht
      refine ⟨r.1, ?_, h2⟩
      rw [if_pos (h1 ▸ leValue_lt r.1)]
      have := leBytes_leValue r.1
      rw [h1] at this
      rw [this]

theorem u8_lawful : Lawful u8 where
  read b bs rest h := by simp only [u8, Option.some.injEq] at h; subst h; rfl
  write bs b rest h := by
    cases bs with
    | nil => cases h
    | cons x xs => simp only [u8, Option.some.injEq, Prod.mk.injEq] at h; obtain ⟨rfl, rfl⟩ := h; exact ⟨_, rfl, rfl⟩

theorem bytes32_lawful : Lawful bytes32 where
  read b bs rest h := by
    simp only [bytes32, Option.some.injEq] at h
    subst h
    have hb := b.property
    have e1 : (b.val ++ rest).take 32 = b.val := by
      rw [List.take_append_of_le_length (by rw [hb]; exact Nat.le_refl _), List.take_of_length_le (by rw [hb]; exact Nat.le_refl _)]
    have e2 : (b.val ++ rest).drop 32 = rest := by
      exact List.drop_left' hb
    simp only [bytes32]
    rw [dif_pos (by rw [e1]; exact hb)]
    simp only [Option.some.injEq, Prod.mk.injEq]
    exact ⟨Subtype.ext e1, e2⟩
  write bs b rest h := by
    simp only [bytes32] at h ⊢
    split at h
    · simp only [Option.some.injEq, Prod.mk.injEq] at h
      obtain ⟨rfl, rfl⟩ := h
      exact ⟨_, rfl, (List.take_append_drop 32 bs).symm⟩
    · cases h

theorem pair_lawful {α β : Type} {c : Codec α} {d : Codec β} (hc : Lawful c) (hd : Lawful d) : Lawful (pair c d) where
  read p bs rest h := by
    simp only [pair] at h ⊢
    obtain ⟨x, hx, h⟩ := Option.bind_eq_some_iff.1 h
    obtain ⟨y, hy, h⟩ := Option.bind_eq_some_iff.1 h
    cases h
    rw [List.append_assoc, hc.read _ _ _ hx]
    simp only [Option.bind_eq_bind, Option.bind_some]
    rw [hd.read _ _ _ hy]
    rfl
  write bs p rest h := by
    simp only [pair] at h ⊢
    obtain ⟨⟨a, bs'⟩, ha, h⟩ := Option.bind_eq_some_iff.1 h
    obtain ⟨⟨b, bs''⟩, hb, h⟩ := Option.bind_eq_some_iff.1 h
    cases h
    obtain ⟨x, hx, rfl⟩ := hc.write _ _ _ ha
    obtain ⟨y, hy, rfl⟩ := hd.write _ _ _ hb
    refine ⟨x ++ y, ?_, (List.append_assoc ..).symm⟩
    rw [hx, hy]; rfl

theorem iso_lawful {α β : Type} {c : Codec α} (hc : Lawful c) {f : α → β} {g : β → α} (hfg : ∀ b, f (g b) = b)
    (hgf : ∀ a, g (f a) = a) : Lawful (iso c f g) where
  read b bs rest h := by
    simp only [iso] at h ⊢
    rw [hc.read _ _ _ h]
    simp [hfg]
  write bs b rest h := by
    simp only [iso] at h ⊢
    cases hd : c.dec bs with
    | none => rw [hd] at h; cases h
    | some r =>
      rw [hd] at h
      simp only [Option.map_some, Option.some.injEq, Prod.mk.injEq] at h
      obtain ⟨rfl, rfl⟩ := h
      rw [hgf]
      exact hc.write _ _ _ hd

theorem map_some_inv {α β : Type} {o : Option α} {f : α → β} {b : β} (h : o.map f = some b) : ∃ a, o = some a ∧ f a = b := by
  cases o with
  | none => cases h
  | some a => exact ⟨a, rfl, Option.some.inj h⟩

theorem option_lawful {α : Type} {c : Codec α} (hc : Lawful c) : Lawful (option c) where
  read a bs rest h := by
    cases a with
    | none => cases h; rfl
    | some a =>
      obtain ⟨x, hx, rfl⟩ := map_some_inv (show (c.enc a).map (1 :: ·) = some bs from h)
      show (c.dec (x ++ rest)).map _ = _
      rw [hc.read _ _ _ hx]; rfl
  write bs a rest h := by
    match bs, h with
    | 0 :: bs, h => cases h; exact ⟨[0], rfl, rfl⟩
    | 1 :: bs, h =>
      obtain ⟨r, hr, he⟩ := map_some_inv (show (c.dec bs).map (fun r => (some r.1, r.2)) = some (a, rest) from h)
      cases he
      obtain ⟨p, hp, rfl⟩ := hc.write _ _ _ hr
      exact ⟨1 :: p, by show (c.enc r.1).map _ = _; rw [hp]; rfl, rfl⟩
    | [], h => cases h
    | (b : UInt8) :: bs, h =>
      simp only [option] at h
      split at h
      · rename_i he; cases he; cases h; exact ⟨[0], rfl, rfl⟩
      · rename_i bs' he
        cases he
        obtain ⟨r, hr, he⟩ := map_some_inv h
        cases he
        obtain ⟨p, hp, rfl⟩ := hc.write _ _ _ hr
        exact ⟨1 :: p, by show (c.enc r.1).map _ = _; rw [hp]; rfl, rfl⟩
      · cases h

theorem decSeq_encSeq {α : Type} {c : Codec α} (hc : Lawful c) : ∀ l bs rest, encSeq c l = some bs →
    decSeq c l.length (bs ++ rest) = some (l, rest)
  | [], bs, rest, h => by cases h; rfl
  | a :: l, bs, rest, h => by
    simp only [encSeq] at h
    obtain ⟨x, hx, h⟩ := Option.bind_eq_some_iff.1 h
    obtain ⟨y, hy, h⟩ := Option.bind_eq_some_iff.1 h
    cases h
    simp only [List.length_cons, decSeq]
    rw [List.append_assoc, hc.read _ _ _ hx]
    simp only [Option.bind_eq_bind, Option.bind_some]
    rw [decSeq_encSeq hc l y rest hy]
    rfl

theorem encSeq_decSeq {α : Type} {c : Codec α} (hc : Lawful c) : ∀ n bs l rest, decSeq c n bs = some (l, rest) →
    l.length = n ∧ ∃ pre, encSeq c l = some pre ∧ bs = pre ++ rest
  | 0, bs, l, rest, h => by cases h; exact ⟨rfl, [], rfl, rfl⟩
  | n + 1, bs, l, rest, h => by
    simp only [decSeq] at h
    obtain ⟨⟨a, bs'⟩, ha, h⟩ := Option.bind_eq_some_iff.1 h
    obtain ⟨⟨as, bs''⟩, hb, h⟩ := Option.bind_eq_some_iff.1 h
    cases h
    obtain ⟨x, hx, rfl⟩ := hc.write _ _ _ ha
    obtain ⟨hl, y, hy, rfl⟩ := encSeq_decSeq hc n _ _ _ hb
    refine ⟨by simp [hl], x ++ y, ?_, (List.append_assoc ..).symm⟩
    simp only [encSeq]
    rw [hx, hy]; rfl

theorem vec_lawful {α : Type} {c : Codec α} (hc : Lawful c) : Lawful (vec c) where
  read l bs rest h := by
    simp only [vec] at h ⊢
    obtain ⟨x, hx, h⟩ := Option.bind_eq_some_iff.1 h
    obtain ⟨y, hy, h⟩ := Option.bind_eq_some_iff.1 h
    cases h
    rw [List.append_assoc, (uint_lawful 4).read _ _ _ hx]
    simp only [Option.bind_eq_bind, Option.bind_some]
    exact decSeq_encSeq hc l y rest hy
  write bs l rest h := by
    simp only [vec] at h ⊢
    obtain ⟨⟨n, bs'⟩, ha, h'⟩ := Option.bind_eq_some_iff.1 h
    clear h
    obtain ⟨x, hx, rfl⟩ := (uint_lawful 4).write _ _ _ ha
    obtain ⟨hl, y, hy, hb⟩ := encSeq_decSeq hc n bs' l rest h'
    subst hb
    refine ⟨x ++ y, ?_, (List.append_assoc ..).symm⟩
    rw [hl, hx, hy]; rfl

theorem array_lawful {α : Type} {c : Codec α} (n : Nat) (hc : Lawful c) : Lawful (array n c) where
  read f bs rest h := by
    simp only [array] at h ⊢
    have := decSeq_encSeq hc _ _ rest h
    rw [List.length_ofFn] at this
    rw [this]
    simp only [Option.bind_eq_bind, Option.bind_some]
    rw [dif_pos (List.length_ofFn ..)]
    simp
  write bs f rest h := by
    simp only [array] at h ⊢
    obtain ⟨⟨l, bs'⟩, ha, h'⟩ := Option.bind_eq_some_iff.1 h
    clear h
    obtain ⟨hl, y, hy, rfl⟩ := encSeq_decSeq hc n _ _ _ ha
    have h2 : (if h : l.length = n then some ((fun i : Fin n => l[i.val]'(h ▸ i.isLt)), bs') else none) = some (f, rest) := h'
    rw [dif_pos hl] at h2
    simp only [Option.some.injEq, Prod.mk.injEq] at h2
    obtain ⟨h3, rfl⟩ := h2
    rw [← h3]
    refine ⟨y, ?_, rfl⟩
    have e : List.ofFn (fun i : Fin n => l[i.val]'(hl ▸ i.isLt)) = l := by
      subst hl
      exact List.ofFn_getElem
    rw [e]; exact hy

theorem sorted_lawful {α : Type} {c : Codec α} (lt : α → α → Bool) (hc : Lawful c) : Lawful (sorted lt c) where
  read l bs rest h := by
    simp only [sorted] at h ⊢
    split at h
    · rename_i ha
      rw [(vec_lawful hc).read _ _ _ h]
      simp only [Option.bind_eq_bind, Option.bind_some]
      rw [if_pos ha]
    · cases h
  write bs l rest h := by
    simp only [sorted] at h ⊢
    obtain ⟨⟨l', bs'⟩, ha, h⟩ := Option.bind_eq_some_iff.1 h
    split at h
    · rename_i hs
      cases h
      rw [if_pos hs]
      exact (vec_lawful hc).write _ _ _ ha
    · cases h

theorem nodeType_lawful : Lawful nodeType where
  read a bs rest h := by
    cases a with
    | leaf => cases h; rfl
    | internal n =>
      obtain ⟨x, hx, rfl⟩ := map_some_inv (show (usize.enc n).map (1 :: ·) = some bs from h)
      show (usize.dec (x ++ rest)).map _ = _
      rw [show usize.dec (x ++ rest) = some (n, rest) from (uint_lawful 8).read _ _ _ hx]; rfl
  write bs a rest h := by
    simp only [nodeType] at h
    split at h
    · cases h; exact ⟨[0], rfl, rfl⟩
    · obtain ⟨r, hr, he⟩ := map_some_inv h
      cases he
      obtain ⟨p, hp, rfl⟩ := (uint_lawful 8).write _ _ _ hr
      exact ⟨1 :: p, by show (usize.enc r.1).map _ = _; rw [show usize.enc r.1 = some p from hp]; rfl, rfl⟩
    · cases h

theorem nibblePath_lawful : Lawful nibblePath :=
  iso_lawful (pair_lawful (uint_lawful 8) (vec_lawful u8_lawful)) (fun _ => rfl) (fun _ => rfl)

theorem nodeKey_lawful : Lawful nodeKey :=
  iso_lawful (pair_lawful (uint_lawful 8) nibblePath_lawful) (fun _ => rfl) (fun _ => rfl)

theorem child_lawful : Lawful child :=
  iso_lawful (pair_lawful bytes32_lawful (pair_lawful (uint_lawful 8) nodeType_lawful)) (fun _ => rfl) (fun _ => rfl)

theorem children_lawful : Lawful children :=
  iso_lawful (pair_lawful (array_lawful 16 (option_lawful child_lawful)) (uint_lawful 8)) (fun _ => rfl) (fun _ => rfl)

theorem internalNode_lawful : Lawful internalNode :=
  iso_lawful (pair_lawful children_lawful (uint_lawful 8)) (fun _ => rfl) (fun _ => rfl)

theorem leafNode_lawful : Lawful leafNode :=
  iso_lawful (pair_lawful bytes32_lawful bytes32_lawful) (fun _ => rfl) (fun _ => rfl)

theorem node_lawful : Lawful node where
  read a bs rest h := by
    cases a with
    | null => cases h; rfl
    | internal n =>
      obtain ⟨x, hx, rfl⟩ := map_some_inv (show (internalNode.enc n).map (1 :: ·) = some bs from h)
      show (internalNode.dec (x ++ rest)).map _ = _
      rw [internalNode_lawful.read _ _ _ hx]; rfl
    | leaf n =>
      obtain ⟨x, hx, rfl⟩ := map_some_inv (show (leafNode.enc n).map (2 :: ·) = some bs from h)
      show (leafNode.dec (x ++ rest)).map _ = _
      rw [leafNode_lawful.read _ _ _ hx]; rfl
  write bs a rest h := by
    simp only [node] at h
    split at h
    · cases h; exact ⟨[0], rfl, rfl⟩
    · obtain ⟨r, hr, he⟩ := map_some_inv h
      cases he
      obtain ⟨p, hp, rfl⟩ := internalNode_lawful.write _ _ _ hr
      exact ⟨1 :: p, by show (internalNode.enc r.1).map _ = _; rw [hp]; rfl, rfl⟩
    · obtain ⟨r, hr, he⟩ := map_some_inv h
      cases he
      obtain ⟨p, hp, rfl⟩ := leafNode_lawful.write _ _ _ hr
      exact ⟨2 :: p, by show (leafNode.enc r.1).map _ = _; rw [hp]; rfl, rfl⟩
    · cases h

theorem two_lawful : Lawful (pair bytes32 bytes32) := pair_lawful bytes32_lawful bytes32_lawful

theorem smNode_lawful : Lawful smNode where
  read a bs rest h := by
    cases a with
    | null => cases h; rfl
    | internal l r =>
      obtain ⟨x, hx, rfl⟩ := map_some_inv (show ((pair bytes32 bytes32).enc (l, r)).map (1 :: ·) = some bs from h)
      show ((pair bytes32 bytes32).dec (x ++ rest)).map _ = _
      rw [two_lawful.read _ _ _ hx]; rfl
    | leaf l r =>
      obtain ⟨x, hx, rfl⟩ := map_some_inv (show ((pair bytes32 bytes32).enc (l, r)).map (2 :: ·) = some bs from h)
      show ((pair bytes32 bytes32).dec (x ++ rest)).map _ = _
      rw [two_lawful.read _ _ _ hx]; rfl
  write bs a rest h := by
    simp only [smNode] at h
    split at h
    · cases h; exact ⟨[0], rfl, rfl⟩
    · obtain ⟨r, hr, he⟩ := map_some_inv h
      cases he
      obtain ⟨p, hp, rfl⟩ := two_lawful.write _ _ _ hr
      exact ⟨1 :: p, by show ((pair bytes32 bytes32).enc r.1).map _ = _; rw [hp]; rfl, rfl⟩
    · obtain ⟨r, hr, he⟩ := map_some_inv h
      cases he
      obtain ⟨p, hp, rfl⟩ := two_lawful.write _ _ _ hr
      exact ⟨2 :: p, by show ((pair bytes32 bytes32).enc r.1).map _ = _; rw [hp]; rfl, rfl⟩
    · cases h

theorem smProof_lawful : Lawful smProof :=
  iso_lawful (pair_lawful (option_lawful two_lawful) (vec_lawful smNode_lawful)) (fun _ => rfl) (fun _ => rfl)

theorem updateProof_lawful : Lawful updateProof := vec_lawful smProof_lawful

theorem rangeProof_lawful : Lawful rangeProof := iso_lawful (vec_lawful smNode_lawful) (fun _ => rfl) (fun _ => rfl)

theorem nodeStats_lawful : Lawful nodeStats :=
  iso_lawful (pair_lawful (uint_lawful 8) (pair_lawful (uint_lawful 8) (pair_lawful (uint_lawful 8) (uint_lawful 8))))
    (fun _ => rfl) (fun _ => rfl)

theorem nodeBatch_lawful : Lawful nodeBatch :=
  pair_lawful (sorted_lawful _ (pair_lawful nodeKey_lawful node_lawful))
    (sorted_lawful _ (pair_lawful (pair_lawful (uint_lawful 8) bytes32_lawful) (option_lawful (vec_lawful u8_lawful))))

theorem staleNodeIndex_lawful : Lawful staleNodeIndex := pair_lawful (uint_lawful 8) nodeKey_lawful

theorem treeUpdateBatch_lawful : Lawful treeUpdateBatch :=
  pair_lawful nodeBatch_lawful (pair_lawful (sorted_lawful _ staleNodeIndex_lawful) (vec_lawful nodeStats_lawful))

/-- What lawfulness means for `from_slice` and for injectivity. -/
theorem Lawful.fromSlice {α : Type} {c : Codec α} (hc : Lawful c) (a : α) (bs : List UInt8) :
    c.fromSlice bs = some a ↔ c.enc a = some bs := by
  constructor
  · intro h
    unfold Codec.fromSlice at h
    split at h
    · rename_i a' hd
      cases h
      obtain ⟨p, hp, rfl⟩ := hc.write _ _ _ hd
      rw [List.append_nil]; exact hp
    · cases h
  · intro h
    unfold Codec.fromSlice
    have := hc.read _ _ [] h
    rw [List.append_nil] at this
    rw [this]

theorem Lawful.inj {α : Type} {c : Codec α} (hc : Lawful c) {a b : α} {bs : List UInt8} (ha : c.enc a = some bs)
    (hb : c.enc b = some bs) : a = b := by
  have h1 := (hc.fromSlice a bs).2 ha
  have h2 := (hc.fromSlice b bs).2 hb
  rw [h1] at h2
  exact Option.some.inj h2

end Jmt.Borsh

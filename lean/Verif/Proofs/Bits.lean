import Verif.Spec.Tree
import Verif.Model.Types
/-!
# Bits and nibbles of keys; entries below a bit prefix
-/
namespace Jmt
open Spec (Entry)

/-- The four bits of a nibble, most significant first. -/
def nibbleBits (n : Nibble) : List Bool :=
  [n.val.testBit 3, n.val.testBit 2, n.val.testBit 1, n.val.testBit 0]

def pathBits (p : List Nibble) : List Bool := p.flatMap nibbleBits

def keyBits (k : KeyHash) : List Bool := pathBits k.nibbles

@[simp] theorem nibbleBits_length (n : Nibble) : (nibbleBits n).length = 4 := rfl

theorem nibbleBits_inj : ∀ a b : Nibble, nibbleBits a = nibbleBits b → a = b := by decide

@[simp] theorem pathBits_nil : pathBits [] = [] := rfl
@[simp] theorem pathBits_cons (n : Nibble) (p) : pathBits (n :: p) = nibbleBits n ++ pathBits p := rfl
@[simp] theorem pathBits_append (p q) : pathBits (p ++ q) = pathBits p ++ pathBits q := by
  simp [pathBits]

@[simp] theorem pathBits_length (p) : (pathBits p).length = 4 * p.length := by
  induction p with
  | nil => rfl
  | cons n p ih => simp [ih]; omega

@[simp] theorem nibbles_length (k : KeyHash) : k.nibbles.length = 64 := by
  unfold KeyHash.nibbles
  have : ∀ l : List UInt8, (l.flatMap byteNibbles).length = 2 * l.length := by
    intro l; induction l with
    | nil => rfl
    | cons b l ih => simp [byteNibbles, ih]; omega
  rw [this, k.property]

@[simp] theorem keyBits_length (k : KeyHash) : (keyBits k).length = 256 := by
  simp [keyBits]

theorem pathBits_prefix {p q : List Nibble} : pathBits p <+: pathBits q ↔ p <+: q := by
  induction p generalizing q with
  | nil => simp
  | cons a p ih =>
    cases q with
    | nil => simp [nibbleBits]
    | cons b q =>
      simp only [pathBits_cons, List.cons_prefix_cons]
      constructor
      · intro h
        have h1 : nibbleBits a = nibbleBits b := by
          have ha : nibbleBits a <+: nibbleBits b ++ pathBits q := (List.prefix_append _ _).trans h
          have := List.prefix_of_prefix_length_le ha (List.prefix_append _ _) (by simp)
          exact this.eq_of_length (by simp)
        have hab := nibbleBits_inj _ _ h1
        subst hab
        exact ⟨rfl, ih.1 ((List.prefix_append_right_inj _).1 h)⟩
      · rintro ⟨rfl, h⟩
        exact (List.prefix_append_right_inj _).2 (ih.2 h)

theorem pathBits_inj {p q : List Nibble} (h : pathBits p = pathBits q) : p = q := by
  have h1 : p <+: q := pathBits_prefix.1 (h ▸ List.prefix_refl _)
  have h2 : q <+: p := pathBits_prefix.1 (h ▸ List.prefix_refl _)
  exact h1.eq_of_length (Nat.le_antisymm h1.length_le h2.length_le)

/-! ## Packing nibbles back into bytes -/

theorem packNibbles_byte (b : UInt8) (rest : List Nibble) :
    packNibbles (byteNibbles b ++ rest) = (packNibbles rest).map (b :: ·) := by
  simp only [byteNibbles, List.cons_append, List.nil_append, packNibbles]
  have : UInt8.ofNat (16 * ((b.toNat >>> 4) % 16) + b.toNat % 16) = b := by
    have hlt : b.toNat < 256 := b.toNat_lt
    have : 16 * ((b.toNat >>> 4) % 16) + b.toNat % 16 = b.toNat := by
      rw [Nat.shiftRight_eq_div_pow]; omega
    rw [this]; simp
  rw [this]

theorem packNibbles_flatMap (l : List UInt8) : packNibbles (l.flatMap byteNibbles) = some l := by
  induction l with
  | nil => rfl
  | cons b l ih => simp [packNibbles_byte, ih]

@[simp] theorem ofNibbles_nibbles (k : KeyHash) : KeyHash.ofNibbles? k.nibbles = some k := by
  unfold KeyHash.ofNibbles? KeyHash.nibbles
  simp [packNibbles_flatMap, k.property]

theorem nibbles_inj {k k' : KeyHash} (h : k.nibbles = k'.nibbles) : k = k' := by
  have := congrArg KeyHash.ofNibbles? h
  simpa using this

theorem keyBits_inj {k k' : KeyHash} (h : keyBits k = keyBits k') : k = k' :=
  nibbles_inj (pathBits_inj h)

/-! ## `keyBits` are the specification's bits -/

theorem getElem?_flatMap_const {α β : Type} (f : α → List β) (c : Nat) (hc : 0 < c)
    (hf : ∀ a, (f a).length = c) (l : List α) (i : Nat) :
    (l.flatMap f)[i]? = l[i / c]?.bind (fun a => (f a)[i % c]?) := by
  induction l generalizing i with
  | nil => simp
  | cons a l ih =>
    rw [List.flatMap_cons]
    by_cases h : i < c
    · rw [List.getElem?_append_left (by rw [hf]; exact h)]
      simp [Nat.div_eq_of_lt h, Nat.mod_eq_of_lt h]
    · have h' : c ≤ i := Nat.le_of_not_lt h
      rw [List.getElem?_append_right (by rw [hf]; exact h'), hf, ih]
      have e1 : i / c = (i - c) / c + 1 := by
        rw [Nat.div_eq_sub_div hc h']
      have e2 : (i - c) % c = i % c := by
        rw [Nat.mod_eq_sub_mod h']
      rw [e1, e2, List.getElem?_cons_succ]

def byteBits (b : UInt8) : List Bool := pathBits (byteNibbles b)

theorem byteBits_spec (b : UInt8) : byteBits b = (List.range 8).map (fun j => b.toNat.testBit (7 - j)) := by
  have h : ∀ n : Fin 256, pathBits [(⟨(n.val >>> 4) % 16, Nat.mod_lt _ (by decide)⟩ : Nibble),
      ⟨n.val % 16, Nat.mod_lt _ (by decide)⟩]
      = (List.range 8).map (fun j => n.val.testBit (7 - j)) := by decide +kernel
  exact h ⟨b.toNat, b.toNat_lt⟩

theorem keyBits_eq (k : KeyHash) : keyBits k = k.val.flatMap byteBits := by
  unfold keyBits KeyHash.nibbles pathBits byteBits
  rw [List.flatMap_assoc]
  rfl

theorem keyBits_getElem? (k : KeyHash) (i : Nat) (h : i < 256) :
    (keyBits k)[i]? = some (Spec.bit k i) := by
  rw [keyBits_eq, getElem?_flatMap_const byteBits 8 (by decide) (fun _ => rfl)]
  have hk := k.property
  have h8 : i / 8 < k.val.length := by rw [hk]; omega
  have hm : i % 8 < 8 := Nat.mod_lt _ (by decide)
  simp only [List.getElem?_eq_getElem h8, Option.bind_some, byteBits_spec]
  simp [Spec.bit, List.getElem?_eq_getElem h8, hm]

theorem prefix_snoc_iff {b l : List Bool} {x : Bool} :
    b ++ [x] <+: l ↔ b <+: l ∧ l[b.length]? = some x := by
  constructor
  · rintro ⟨t, rfl⟩
    refine ⟨⟨[x] ++ t, by simp⟩, by simp⟩
  · rintro ⟨⟨t, rfl⟩, h⟩
    cases t with
    | nil => simp at h
    | cons y t =>
      simp at h
      subst h
      exact ⟨t, by simp⟩

theorem prefix_keyBits_snoc {b : List Bool} {k : KeyHash} {x : Bool} (hb : b.length < 256) :
    b ++ [x] <+: keyBits k ↔ b <+: keyBits k ∧ Spec.bit k b.length = x := by
  rw [prefix_snoc_iff, keyBits_getElem? k _ hb]; simp

/-! ## Entries below a bit prefix -/

/-- The entries whose key starts with the bits `b`. -/
def ub (b : List Bool) (m : List Entry) : List Entry := m.filter (fun e => b.isPrefixOf (keyBits e.1))

/-- The entries whose key starts with the nibbles `p`. -/
def under (p : List Nibble) (m : List Entry) : List Entry := ub (pathBits p) m

theorem mem_ub {b m e} : e ∈ ub b m ↔ e ∈ m ∧ b <+: keyBits e.1 := by simp [ub]

theorem mem_under {p m} {e : Entry} : e ∈ under p m ↔ e ∈ m ∧ p <+: e.1.nibbles := by
  simp [under, mem_ub, keyBits, pathBits_prefix]

@[simp] theorem ub_nil_prefix (m) : ub [] m = m := by simp [ub]
@[simp] theorem under_nil_prefix (m) : under [] m = m := by simp [under]
@[simp] theorem ub_nil (b) : ub b [] = [] := rfl
@[simp] theorem under_nil (p) : under p [] = [] := rfl

theorem ub_snoc {b : List Bool} (hb : b.length < 256) (x : Bool) (m) :
    ub (b ++ [x]) m = (ub b m).filter (fun e => Spec.bit e.1 b.length == x) := by
  unfold ub
  rw [List.filter_filter]
  congr 1
  funext e
  rw [Bool.eq_iff_iff]
  simp only [Bool.and_eq_true, beq_iff_eq, List.isPrefixOf_iff_prefix]
  rw [prefix_keyBits_snoc hb]
  exact And.comm

theorem ub_ub {b b' : List Bool} (h : b <+: b') (m) : ub b' (ub b m) = ub b' m := by
  unfold ub
  rw [List.filter_filter]
  congr 1
  funext e
  rw [Bool.eq_iff_iff]
  simp only [Bool.and_eq_true, List.isPrefixOf_iff_prefix]
  constructor
  · exact fun h => h.1
  · intro h'
    exact ⟨h', h.trans h'⟩

/-- Keys occur once. -/
def NodupE (m : List Entry) : Prop := (m.map Prod.fst).Nodup

theorem NodupE.filter {m : List Entry} (h : NodupE m) (p) : NodupE (m.filter p) :=
  h.sublist (List.Sublist.map _ List.filter_sublist)

theorem NodupE.ub {m : List Entry} (h : NodupE m) (b) : NodupE (ub b m) := h.filter _

theorem NodupE.eq_of_mem {m : List Entry} (h : NodupE m) {k v v'} (h1 : (k, v) ∈ m)
    (h2 : (k, v') ∈ m) : v = v' := by
  induction m with
  | nil => simp at h1
  | cons e m ih =>
    simp only [NodupE, List.map_cons, List.nodup_cons] at h
    rcases List.mem_cons.1 h1 with rfl | h1' <;> rcases List.mem_cons.1 h2 with h2 | h2'
    · cases h2; rfl
    · exact absurd (List.mem_map.2 ⟨_, h2', rfl⟩) h.1
    · subst h2; exact absurd (List.mem_map.2 ⟨_, h1', rfl⟩) h.1
    · exact ih h.2 h1' h2'

theorem ub_length_le_one {m : List Entry} (h : NodupE m) {b : List Bool} (hb : 256 ≤ b.length) :
    (ub b m).length ≤ 1 := by
  match hu : ub b m with
  | [] => simp
  | [_] => simp
  | e₁ :: e₂ :: es =>
    exfalso
    have h1 : e₁ ∈ ub b m := by simp [hu]
    have h2 : e₂ ∈ ub b m := by simp [hu]
    have hn := h.ub b
    rw [hu] at hn
    rw [mem_ub] at h1 h2
    have e1 : b = keyBits e₁.1 := h1.2.eq_of_length (by
      have := h1.2.length_le; simp at this ⊢; omega)
    have e2 : b = keyBits e₂.1 := h2.2.eq_of_length (by
      have := h2.2.length_le; simp at this ⊢; omega)
    have : e₁.1 = e₂.1 := keyBits_inj (e1.symm.trans e2)
    simp [NodupE, this] at hn

theorem length_lt_of_two {m : List Entry} (h : NodupE m) {b : List Bool} (hl : 2 ≤ (ub b m).length) :
    b.length < 256 := by
  apply Decidable.byContradiction
  intro hc
  have := ub_length_le_one h (b := b) (by omega)
  omega

theorem under_length_lt_of_two {m : List Entry} (h : NodupE m) {p : List Nibble}
    (hl : 2 ≤ (under p m).length) : p.length < 64 := by
  have := length_lt_of_two h hl
  simp at this; omega

/-! ## Canonical subtree hashes -/

theorem subtree_perm (H : Hasher) (f d : Nat) {es es' : List Entry} (h : es.Perm es') :
    Spec.subtree H f d es = Spec.subtree H f d es' := by
  induction f generalizing d es es' with
  | zero =>
    match es, es' with
    | [], [] => rfl
    | [], _ :: _ => simp at h
    | _ :: _, [] => simp at h
    | [e], [e'] => simp at h; rw [h]
    | [_], _ :: _ :: _ => have := h.length_eq; simp at this
    | _ :: _ :: _, [_] => have := h.length_eq; simp at this
    | _ :: _ :: _, _ :: _ :: _ => simp [Spec.subtree]
  | succ f ih =>
    match es, es' with
    | [], [] => rfl
    | [], _ :: _ => simp at h
    | _ :: _, [] => simp at h
    | [e], [e'] => simp at h; rw [h]
    | [_], _ :: _ :: _ => have := h.length_eq; simp at this
    | _ :: _ :: _, [_] => have := h.length_eq; simp at this
    | _ :: _ :: _, _ :: _ :: _ =>
      simp only [Spec.subtree]
      rw [ih _ (h.filter _), ih _ (h.filter _)]

/-- Hash of the canonical subtree of `m` below the bit prefix `b`. -/
def sh (H : Hasher) (m : List Entry) (b : List Bool) : Digest :=
  Spec.subtree H (256 - b.length) b.length (ub b m)

theorem sh_perm (H : Hasher) {m m' : List Entry} {b : List Bool} (h : (ub b m).Perm (ub b m')) :
    sh H m b = sh H m' b := subtree_perm H _ _ h

theorem sh_zero (H : Hasher) {m : List Entry} {b : List Bool} (h : ub b m = []) :
    sh H m b = placeholder := by
  unfold sh; rw [h]; unfold Spec.subtree; rfl

theorem sh_one (H : Hasher) {m : List Entry} {b : List Bool} {e : Entry} (h : ub b m = [e]) :
    sh H m b = H.leafHash e.1 e.2 := by
  unfold sh; rw [h]; unfold Spec.subtree; rfl

theorem sh_two (H : Hasher) {m : List Entry} {b : List Bool} (hb : b.length < 256)
    (h : 2 ≤ (ub b m).length) :
    sh H m b = H.internalHash (sh H m (b ++ [false])) (sh H m (b ++ [true])) := by
  unfold sh
  rw [ub_snoc hb, ub_snoc hb]
  match hu : ub b m with
  | [] => simp [hu] at h
  | [_] => simp [hu] at h
  | e₁ :: e₂ :: es =>
    obtain ⟨f, hf⟩ : ∃ f, 256 - b.length = f + 1 := ⟨256 - b.length - 1, by omega⟩
    have hf2 : 256 - (b.length + 1) = f := by omega
    simp only [List.length_append, List.length_cons, List.length_nil, Nat.zero_add, hf, hf2]
    simp only [Spec.subtree]

theorem root_eq_sh (H : Hasher) (m : List Entry) : Spec.root H m = sh H m [] := by
  simp [Spec.root, sh]

end Jmt

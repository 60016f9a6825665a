import Verif.Spec.NibblePath
import Verif.Proofs.Order
import Verif.Proofs.InsertAt
/-!
# Packed nibble paths
-/
namespace Jmt
open Spec (pack)

theorem pack_length : ∀ l : List Nibble, (pack l).length = (l.length + 1) / 2
  | [] => rfl
  | [_] => by simp [pack]
  | _ :: _ :: rest => by simp only [pack, List.length_cons, pack_length rest]; omega

theorem byte_shl : ∀ n : Nibble, NibblePath.ofNibble n <<< 4 = UInt8.ofNat (16 * n.val) := by decide
theorem byte_or : ∀ a n : Nibble, UInt8.ofNat (16 * a.val) ||| NibblePath.ofNibble n = UInt8.ofNat (16 * a.val + n.val) := by
  decide
theorem byte_lo : ∀ a b : Nibble, UInt8.ofNat (16 * a.val + b.val) &&& 0x0f = UInt8.ofNat b.val := by decide
theorem byte_lo0 : ∀ a : Nibble, UInt8.ofNat (16 * a.val) &&& 0x0f = 0 := by decide
theorem byte_hi_mask : ∀ a b : Nibble, UInt8.ofNat (16 * a.val + b.val) &&& 0xf0 = UInt8.ofNat (16 * a.val) := by decide
theorem byte_hi : ∀ a b : Nibble, UInt8.ofNat (16 * a.val + b.val) >>> 4 = UInt8.ofNat a.val := by decide
theorem byte_hi0 : ∀ a : Nibble, UInt8.ofNat (16 * a.val) >>> 4 = UInt8.ofNat a.val := by decide
theorem toNibble_ofNat : ∀ a : Nibble, Nibble.ofNat? (UInt8.ofNat a.val).toNat = some a := by decide

theorem toNibble_ok (a : Nibble) : NibblePath.toNibble (UInt8.ofNat a.val) = .ok a := by
  unfold NibblePath.toNibble; rw [toNibble_ofNat]

/-- Appending a nibble to the packed form. -/
theorem pack_snoc_even : ∀ (l : List Nibble) (n : Nibble), l.length % 2 = 0 →
    pack (l ++ [n]) = pack l ++ [UInt8.ofNat (16 * n.val)]
  | [], _, _ => rfl
  | [_], _, h => by simp at h
  | a :: b :: rest, n, h => by
    simp only [List.cons_append, pack]
    rw [pack_snoc_even rest n (by simp only [List.length_cons] at h; omega)]

theorem pack_snoc_odd : ∀ (l : List Nibble) (n : Nibble), l.length % 2 = 1 →
    ∃ l' a, l = l' ++ [a] ∧ l'.length % 2 = 0 ∧ pack l = pack l' ++ [UInt8.ofNat (16 * a.val)] ∧
      pack (l ++ [n]) = pack l' ++ [UInt8.ofNat (16 * a.val + n.val)]
  | [], _, h => by simp at h
  | [a], n, _ => ⟨[], a, rfl, rfl, rfl, rfl⟩
  | a :: b :: rest, n, h => by
    obtain ⟨l', c, h1, h2, h3, h4⟩ := pack_snoc_odd rest n (by simp only [List.length_cons] at h; omega)
    refine ⟨a :: b :: l', c, by rw [h1]; rfl, by simp only [List.length_cons]; omega, ?_, ?_⟩
    · simp only [pack, h3, List.cons_append]
    · simp only [pack, List.cons_append, h4]

theorem push_ofList (l : List Nibble) (n : Nibble) (h : l.length < 64) :
    (NibblePath.ofList l).push n = .ok (NibblePath.ofList (l ++ [n])) := by
  unfold NibblePath.push NibblePath.ofList
  simp only [rootNibbleHeight, List.length_append, List.length_singleton]
  rw [if_neg (by omega)]
  by_cases hp : l.length % 2 = 0
  · rw [if_pos hp, pack_snoc_even l n hp, byte_shl]
  · rw [if_neg hp]
    obtain ⟨l', a, h1, h2, h3, h4⟩ := pack_snoc_odd l n (by omega)
    have hl : l.length / 2 = (pack l').length := by rw [pack_length, h1]; simp only [List.length_append, List.length_singleton]
    rw [h4, h3, hl]
    rw [List.getElem?_append_right (Nat.le_refl _), Nat.sub_self]
    simp only [List.getElem?_cons_zero]
    rw [List.set_append_right _ _ (Nat.le_refl _), Nat.sub_self]
    simp only [List.set_cons_zero, byte_or]

theorem push_full (l : List Nibble) (n : Nibble) (h : 64 ≤ l.length) : ∃ e, (NibblePath.ofList l).push n = .error (.panic e) := by
  unfold NibblePath.push NibblePath.ofList
  simp only [rootNibbleHeight]
  rw [if_pos h]
  exact ⟨_, rfl⟩

theorem pop_ofList (l : List Nibble) :
    (NibblePath.ofList l).pop = .ok (l.getLast?, NibblePath.ofList l.dropLast) := by
  rcases List.eq_nil_or_concat l with rfl | ⟨l, n, rfl⟩
  · rfl
  · rw [List.concat_eq_append]
    unfold NibblePath.pop NibblePath.ofList
    simp only [List.getLast?_append, List.getLast?_singleton, Option.some_or, List.dropLast_append_of_ne_nil,
      ne_eq, List.cons_ne_self, not_false_eq_true, List.dropLast_singleton, List.append_nil, List.length_append,
      List.length_singleton]
    by_cases hp : l.length % 2 = 0
    · rw [pack_snoc_even l n hp]
      simp only [List.getLast?_append, List.getLast?_singleton, Option.some_or]
      rw [if_neg (by omega), byte_hi0]
      simp [toNibble_ok, ok_bind]
    · obtain ⟨l', a, h1, h2, h3, h4⟩ := pack_snoc_odd l n (by omega)
      rw [h4, h3]
      simp only [List.getLast?_append, List.getLast?_singleton, Option.some_or]
      rw [if_pos (by omega), byte_lo]
      rw [toNibble_ok, ok_bind, if_neg (by omega), byte_hi_mask]
      simp

theorem last_ofList (l : List Nibble) : (NibblePath.ofList l).last = .ok l.getLast? := by
  rcases List.eq_nil_or_concat l with rfl | ⟨l, n, rfl⟩
  · rfl
  · rw [List.concat_eq_append]
    unfold NibblePath.last NibblePath.ofList
    simp only [List.getLast?_append, List.getLast?_singleton, Option.some_or, List.length_append,
      List.length_singleton]
    by_cases hp : l.length % 2 = 0
    · rw [if_neg (by omega), pack_snoc_even l n hp]
      simp only [List.getLast?_append, List.getLast?_singleton, Option.some_or]
      rw [byte_hi0, toNibble_ok, ok_bind]
    · obtain ⟨l', a, h1, h2, h3, h4⟩ := pack_snoc_odd l n (by omega)
      rw [if_pos (by omega), h4]
      simp only [List.getLast?_append, List.getLast?_singleton, Option.some_or]
      rw [byte_lo, toNibble_ok, ok_bind]

/-- The bytes of the packed form. -/
theorem pack_get : ∀ (l : List Nibble) (i : Nat) (h : 2 * i < l.length),
    (pack l)[i]? = some (UInt8.ofNat (16 * (l[2 * i]).val + (l[2 * i + 1]?.map Fin.val).getD 0))
  | [], _, h => by simp at h
  | [a], 0, _ => by simp [pack]
  | [a], _ + 1, h => by simp at h
  | a :: b :: rest, 0, _ => by simp [pack]
  | a :: b :: rest, i + 1, h => by
    have := pack_get rest i (by simp only [List.length_cons] at h; omega)
    simp only [pack, List.getElem?_cons_succ]
    rw [this]
    have e1 : 2 * (i + 1) = 2 * i + 1 + 1 := by omega
    simp only [e1, List.getElem_cons_succ, List.getElem?_cons_succ]

theorem byte_hi_and : ∀ a b : Nibble, (UInt8.ofNat (16 * a.val + b.val) >>> 4) &&& 0xf = UInt8.ofNat a.val := by decide
theorem byte_lo_and : ∀ a b : Nibble, (UInt8.ofNat (16 * a.val + b.val) >>> 0) &&& 0xf = UInt8.ofNat b.val := by decide

theorem getNibble_ofList (l : List Nibble) (i : Nat) (h : i < l.length) :
    (NibblePath.ofList l).getNibble i = .ok l[i] := by
  unfold NibblePath.getNibble NibblePath.ofList
  simp only
  rw [if_neg (by omega), pack_get l (i / 2) (by omega)]
  simp only
  by_cases hp : i % 2 = 1
  · rw [if_pos hp]
    have h2 : 2 * (i / 2) + 1 = i := by omega
    have e : l[2 * (i / 2) + 1]? = some l[i] := by rw [h2]; exact List.getElem?_eq_getElem h
    rw [e]
    simp only [Option.map_some, Option.getD_some]
    rw [byte_lo_and, toNibble_ok]
  · rw [if_neg hp]
    have h2 : 2 * (i / 2) = i := by omega
    simp only [h2]
    cases l[i + 1]? with
    | none =>
      have := byte_hi_and l[i] 0
      simp only [Option.map_none, Option.getD_none]
      simp at this ⊢
      rw [this, toNibble_ok]
    | some b =>
      simp only [Option.map_some, Option.getD_some]
      rw [byte_hi_and, toNibble_ok]

theorem getNibble_out (l : List Nibble) (i : Nat) (h : l.length ≤ i) :
    ∃ e, (NibblePath.ofList l).getNibble i = .error (.panic e) := by
  unfold NibblePath.getNibble NibblePath.ofList
  simp only
  rw [if_pos h]
  exact ⟨_, rfl⟩

theorem byte_bit : ∀ a b : Nibble, ∀ j : Fin 8,
    ((UInt8.ofNat (16 * a.val + b.val) >>> UInt8.ofNat (7 - j.val)) &&& 1 != 0) =
      (nibbleBits a ++ nibbleBits b)[j.val]'(by simp) := by decide +kernel

theorem getBit_ofList (l : List Nibble) (i : Nat) (h : i < 4 * l.length) :
    (NibblePath.ofList l).getBit i = .ok ((pathBits l)[i]'(by rw [pathBits_length]; exact h)) := by
  unfold NibblePath.getBit NibblePath.ofList
  simp only
  rw [if_neg (by omega), pack_get l (i / 8) (by omega)]
  simp only
  congr 1
  have hb : (pathBits l)[i]? = l[i / 4]?.bind (fun a => (nibbleBits a)[i % 4]?) :=
    getElem?_flatMap_const nibbleBits 4 (by decide) (fun _ => rfl) l i
  have hi4 : i / 4 < l.length := by omega
  rw [List.getElem?_eq_getElem hi4, Option.bind_some] at hb
  apply Option.some.inj
  rw [← List.getElem?_eq_getElem, hb]
  by_cases hp : i / 4 % 2 = 0
  · have e : 2 * (i / 8) = i / 4 := by omega
    simp only [e]
    have hj : i % 8 < 4 := by omega
    have e4 : i % 4 = i % 8 := by omega
    have key : ∀ b : Nibble, ((UInt8.ofNat (16 * (l[i / 4]).val + b.val) >>> UInt8.ofNat (7 - i % 8)) &&& 1 != 0)
        = (nibbleBits l[i / 4])[i % 8]'(by simpa using hj) := by
      intro b
      have := byte_bit l[i / 4] b ⟨i % 8, by omega⟩
      simp only at this
      rw [this, List.getElem_append_left]
    rw [e4, List.getElem?_eq_getElem (l := nibbleBits l[i / 4]) (by simpa using hj)]
    cases l[i / 4 + 1]? with
    | none => exact congrArg some (key 0)
    | some b => exact congrArg some (key b)
  · have e : 2 * (i / 8) + 1 = i / 4 := by omega
    have hlt : 2 * (i / 8) < l.length := by omega
    have e2 : l[2 * (i / 8) + 1]? = some l[i / 4] := by rw [e]; exact List.getElem?_eq_getElem hi4
    rw [e2]
    simp only [Option.map_some, Option.getD_some]
    have := byte_bit l[2 * (i / 8)] l[i / 4] ⟨i % 8, by omega⟩
    simp only at this
    rw [this, List.getElem_append_right (by simp; omega), List.getElem?_eq_getElem (by simp; omega)]
    simp only [nibbleBits_length]
    congr 2
    omega

theorem pack_inj : ∀ {l l' : List Nibble}, l.length = l'.length → pack l = pack l' → l = l'
  | [], [], _, _ => rfl
  | [], _ :: _, h, _ => by simp at h
  | _ :: _, [], h, _ => by simp at h
  | [a], [b], _, h => by
    have : ∀ a b : Nibble, UInt8.ofNat (16 * a.val) = UInt8.ofNat (16 * b.val) → a = b := by decide
    simp only [pack, List.cons.injEq, and_true] at h
    rw [this a b h]
  | [_], _ :: _ :: _, h, _ => by simp at h
  | _ :: _ :: _, [_], h, _ => by simp at h
  | a :: b :: l, c :: d :: l', h, hp => by
    have : ∀ a b c d : Nibble, UInt8.ofNat (16 * a.val + b.val) = UInt8.ofNat (16 * c.val + d.val) → a = c ∧ b = d := by
      decide +kernel
    simp only [pack, List.cons.injEq] at hp
    obtain ⟨rfl, rfl⟩ := this a b c d hp.1
    rw [pack_inj (by simpa using h) hp.2]

theorem ofList_inj {l l' : List Nibble} (h : NibblePath.ofList l = NibblePath.ofList l') : l = l' := by
  unfold NibblePath.ofList at h
  simp only [NibblePath.mk.injEq] at h
  exact pack_inj h.1 h.2

theorem foldlM_push (l : List Nibble) : ∀ (a : List Nibble), a.length + l.length ≤ 64 →
    l.foldlM NibblePath.push (NibblePath.ofList a) = .ok (NibblePath.ofList (a ++ l)) := by
  induction l with
  | nil => intro a _; simp [pure, Except.pure]
  | cons n l ih =>
    intro a h
    simp only [List.length_cons] at h
    rw [List.foldlM_cons, push_ofList a n (by omega), ok_bind, ih (a ++ [n]) (by simp; omega)]
    simp

theorem collect_ofList (l : List Nibble) (h : l.length ≤ 64) : NibblePath.collect l = .ok (NibblePath.ofList l) :=
  foldlM_push l [] (by simpa using h)

theorem pack_flatMap (bytes : List UInt8) : pack (bytes.flatMap byteNibbles) = bytes := by
  induction bytes with
  | nil => rfl
  | cons b bs ih =>
    have hb := b.toNat_lt
    simp only [List.flatMap_cons, byteNibbles, List.cons_append, List.nil_append, pack, ih]
    congr 1
    have : 16 * ((b.toNat >>> 4) % 16) + b.toNat % 16 = b.toNat := by
      rw [Nat.shiftRight_eq_div_pow]; omega
    rw [this]; simp

theorem new_ofList (bytes : List UInt8) : NibblePath.new bytes = NibblePath.ofList (bytes.flatMap byteNibbles) := by
  unfold NibblePath.new NibblePath.ofList
  rw [pack_flatMap]
  congr 1
  induction bytes with
  | nil => rfl
  | cons b bs ih => simp [byteNibbles] at ih ⊢; omega

/-! ### Order -/

theorem pack_lt : ∀ {l l' : List Nibble}, l.length = l'.length → (pack l < pack l' ↔ l < l')
  | [], [], _ => by simp [pack]
  | [], _ :: _, h => by simp at h
  | _ :: _, [], h => by simp at h
  | [a], [b], _ => by
    have : ∀ a b : Nibble, UInt8.ofNat (16 * a.val) < UInt8.ofNat (16 * b.val) ↔ a < b := by decide
    simp only [pack, List.cons_lt_cons_iff, this]
    simp
  | [_], _ :: _ :: _, h => by simp at h
  | _ :: _ :: _, [_], h => by simp at h
  | a :: b :: l, c :: d :: l', h => by
    have h1 : ∀ a b c d : Nibble, UInt8.ofNat (16 * a.val + b.val) < UInt8.ofNat (16 * c.val + d.val) ↔
        a < c ∨ a = c ∧ b < d := by decide +kernel
    have h2 : ∀ a b c d : Nibble, UInt8.ofNat (16 * a.val + b.val) = UInt8.ofNat (16 * c.val + d.val) ↔
        a = c ∧ b = d := by decide +kernel
    simp only [pack, List.cons_lt_cons_iff, h1, h2, pack_lt (l := l) (l' := l') (by simpa using h)]
    constructor
    · rintro ((h | ⟨h, h'⟩) | ⟨⟨h, h'⟩, h''⟩)
      · exact .inl h
      · exact .inr ⟨h, .inl h'⟩
      · exact .inr ⟨h, .inr ⟨h', h''⟩⟩
    · rintro (h | ⟨h, h' | ⟨h', h''⟩⟩)
      · exact .inl (.inl h)
      · exact .inl (.inr ⟨h, h'⟩)
      · exact .inr ⟨⟨h, h'⟩, h''⟩

/-! ### Iterators -/

section
variable {it : NibbleIter} {l : List Nibble}

theorem NibbleIter.At.remaining_cons (h : it.At l) (hp : it.pos < it.stop) :
    it.remaining l = l[it.pos]'(by have := h.stop_le; omega) :: (({ it with pos := it.pos + 1 } : NibbleIter).remaining l) := by
  unfold NibbleIter.remaining
  have hs := h.stop_le
  rw [List.drop_eq_getElem_cons (by simp; omega)]
  simp

theorem NibbleIter.At.remaining_nil (h : ¬ it.pos < it.stop) : it.remaining l = [] := by
  unfold NibbleIter.remaining
  apply List.drop_eq_nil_of_le
  simp; omega

theorem NibbleIter.At.next (h : it.At l) :
    ∃ it', it.next = .ok ((it.remaining l).head?, it') ∧ it'.At l ∧
      it'.remaining l = (it.remaining l).tail ∧
      it'.visited l = it.visited l ++ (it.remaining l).head?.toList ∧ it'.start = it.start ∧ it'.stop = it.stop := by
  by_cases hp : it.pos < it.stop
  · have hs := h.stop_le
    have hst := h.start_le
    refine ⟨{ it with pos := it.pos + 1 }, ?_, ⟨h.path, by simp only; omega, by simp only; omega, hs⟩, ?_, ?_, rfl, rfl⟩
    · unfold NibbleIter.next
      rw [if_pos hp, h.path, getNibble_ofList l it.pos (by omega), ok_bind, h.remaining_cons hp]
      rfl
    · rw [h.remaining_cons hp]; rfl
    · rw [h.remaining_cons hp]
      unfold NibbleIter.visited
      simp only [List.head?_cons, Option.toList_some]
      rw [List.take_add_one, List.getElem?_eq_getElem (by omega)]
      rw [List.drop_append_of_le_length (by simp; omega)]
      simp
  · have hr : it.remaining l = [] := NibbleIter.At.remaining_nil hp
    refine ⟨it, ?_, h, by rw [hr]; rfl, by rw [hr]; simp, rfl, rfl⟩
    unfold NibbleIter.next
    rw [if_neg hp, hr]
    rfl

theorem NibbleIter.At.peek (h : it.At l) : it.peek = .ok (it.remaining l).head? := by
  have hs := h.stop_le
  unfold NibbleIter.peek
  by_cases hp : it.pos < it.stop
  · rw [if_pos hp, h.path, getNibble_ofList l it.pos (by omega), ok_bind, h.remaining_cons hp]; rfl
  · rw [if_neg hp, NibbleIter.At.remaining_nil hp]; rfl

theorem NibbleIter.At.drain : ∀ {f : Nat} {it : NibbleIter}, it.At l → it.stop - it.pos < f →
    NibbleIter.drain f it = .ok (it.remaining l) := by
  intro f
  induction f with
  | zero => intro it _ h; omega
  | succ f ih =>
    intro it h hf
    unfold NibbleIter.drain NibbleIter.next
    have hs := h.stop_le
    have hst := h.start_le
    by_cases hp : it.pos < it.stop
    · rw [if_pos hp, h.path, getNibble_ofList l it.pos (by omega)]
      simp only [ok_bind]
      have h' : ({ it with pos := it.pos + 1 } : NibbleIter).At l :=
        ⟨h.path, by simp only; omega, by simp only; omega, hs⟩
      have := ih h' (by simp only; omega)
      rw [← h.path]
      simp only [this, ok_bind, h.remaining_cons hp]
    · rw [if_neg hp, NibbleIter.At.remaining_nil hp]
      rfl

theorem NibbleIter.At.visitedIter (h : it.At l) : it.visitedNibbles.At l ∧ it.visitedNibbles.remaining l = it.visited l :=
  ⟨⟨h.path, Nat.le_refl _, h.start_le, Nat.le_trans h.pos_le h.stop_le⟩, rfl⟩

theorem NibbleIter.At.remainingIter (h : it.At l) :
    it.remainingNibbles.At l ∧ it.remainingNibbles.remaining l = it.remaining l ∧ it.remainingNibbles.visited l = [] :=
  ⟨⟨h.path, Nat.le_refl _, h.pos_le, h.stop_le⟩, rfl, by
    unfold NibbleIter.visited NibbleIter.remainingNibbles
    apply List.drop_eq_nil_of_le; simp; omega⟩

theorem NibbleIter.At.getNibblePath (h : it.At l) (hl : it.stop - it.start ≤ 64) :
    it.getNibblePath = .ok (NibblePath.ofList (it.visited l ++ it.remaining l)) := by
  unfold NibbleIter.getNibblePath
  have h1 := h.visitedIter
  have h2 := h.remainingIter
  rw [h1.1.drain (by omega), ok_bind, h2.1.drain (by omega), ok_bind, h1.2, h2.2.1]
  apply collect_ofList
  have := h.start_le
  have := h.pos_le
  simp [NibbleIter.visited, NibbleIter.remaining]
  omega

end
end Jmt

import Verif.Model.Print
import Verif.Spec.Print
import Verif.Props.Bytes
/-!
# C62: printed forms
-/
namespace Jmt
open Print Spec

theorem hexDigit_value : ∀ n : Fin 16, hexValue (hexDigit n.val) = some n.val := by decide

theorem hexDigit_printable : ∀ n : Fin 16, 0x20 ≤ (hexDigit n.val).toNat ∧ (hexDigit n.val).toNat < 0x7f := by decide

theorem hexDigit_inj {a b : Nat} (ha : a < 16) (hb : b < 16) (h : hexDigit a = hexDigit b) : a = b := by
  have h1 := hexDigit_value ⟨a, ha⟩
  have h2 := hexDigit_value ⟨b, hb⟩
  simp only at h1 h2
  rw [h, h2] at h1
  exact (Option.some.inj h1).symm

theorem char_toNat {n : Nat} (h : n < 256) : (Char.ofNat n).toNat = n := by
  have hv : n.isValidChar := Or.inl (by omega)
  unfold Char.ofNat
  rw [dif_pos hv]
  show (UInt32.ofNatLT n _).toNat = n
  rfl

theorem char_ne {n m : Nat} (hn : n < 256) (hm : m < 256) (h : n ≠ m) : Char.ofNat n ≠ Char.ofNat m := by
  intro hc
  have := congrArg Char.toNat hc
  rw [char_toNat hn, char_toNat hm] at this
  exact h this

theorem readItem_escape (b : UInt8) (rest : List Char) : readItem (escapeByte b ++ rest) = some (b, rest) := by
  unfold escapeByte
  split
  · next h => subst h; rfl
  split
  · next h => subst h; rfl
  split
  · next h => subst h; rfl
  split
  · next h => rcases h with h | h <;> subst h <;> rfl
  split
  · next h => subst h; rfl
  split
  · next h1 h2 h3 h4 h5 h =>
    have hb : b.toNat < 256 := b.toNat_lt
    have e : ∀ m : Nat, m < 256 → b ≠ UInt8.ofNat m → Char.ofNat b.toNat ≠ Char.ofNat m := by
      intro m hm hne
      refine char_ne hb hm fun hc => hne ?_
      rw [← hc, UInt8.ofNat_toNat]
    have h127 : b.toNat < 127 := by have := UInt8.lt_iff_toNat_lt.1 h.2; simpa using this
    show (if Char.ofNat b.toNat = Char.ofNat 92 then readEscape rest
      else if Char.ofNat b.toNat = Char.ofNat 34 ∨ Char.ofNat b.toNat = Char.ofNat 13 ∨ 128 ≤ (Char.ofNat b.toNat).toNat then none
      else some (UInt8.ofNat (Char.ofNat b.toNat).toNat, rest)) = _
    rw [if_neg (e 92 (by omega) (fun hc => h4 (.inl hc))), if_neg, char_toNat hb, UInt8.ofNat_toNat]
    rintro (hc | hc | hc)
    · exact e 34 (by omega) (fun hc => h4 (.inr hc)) hc
    · exact e 13 (by omega) h2 hc
    · rw [char_toNat hb] at hc; omega
  · have hb : b.toNat < 256 := b.toNat_lt
    have e1 := hexDigit_value ⟨b.toNat / 16, by omega⟩
    have e2 := hexDigit_value ⟨b.toNat % 16, by omega⟩
    simp only at e1 e2
    show (match hexValue (hexDigit (b.toNat / 16)), hexValue (hexDigit (b.toNat % 16)) with
      | some a, some b => some (UInt8.ofNat (16 * a + b), rest)
      | _, _ => none) = _
    rw [e1, e2]
    show some (UInt8.ofNat (16 * (b.toNat / 16) + b.toNat % 16), rest) = _
    rw [show 16 * (b.toNat / 16) + b.toNat % 16 = b.toNat by omega, UInt8.ofNat_toNat]

theorem inside_escaped (bs : List UInt8) : Inside (bs.flatMap escapeByte ++ ['"']) bs := by
  induction bs with
  | nil => exact .stop
  | cons b bs ih =>
    rw [List.flatMap_cons, List.append_assoc]
    exact .item (readItem_escape b _) ih

theorem readItem_quote (cs : List Char) : readItem ('"' :: cs) = none := rfl

theorem inside_unique {cs : List Char} {bs bs' : List UInt8} (h : Inside cs bs) (h' : Inside cs bs') : bs = bs' := by
  induction h generalizing bs' with
  | stop =>
    cases h' with
    | stop => rfl
    | item h _ => rw [readItem_quote] at h; cases h
  | item h1 _ ih =>
    cases h' with
    | stop => rw [readItem_quote] at h1; cases h1
    | item h2 h3 =>
      rw [h1] at h2
      cases h2
      rw [ih h3]

theorem escapeByte_printable (b : UInt8) : ∀ c ∈ escapeByte b, Printable c := by
  have hb : b.toNat < 256 := b.toNat_lt
  unfold escapeByte
  split
  · unfold Printable; decide
  split
  · unfold Printable; decide
  split
  · unfold Printable; decide
  split
  · next h => unfold Printable; rcases h with h | h <;> subst h <;> decide
  split
  · unfold Printable; decide
  split
  · next h =>
    intro c hc
    cases List.mem_singleton.1 hc
    unfold Printable
    rw [char_toNat hb]
    exact ⟨by have := UInt8.le_iff_toNat_le.1 h.1; simpa using this, by have := UInt8.lt_iff_toNat_lt.1 h.2; simpa using this⟩
  · intro c hc
    rcases List.mem_cons.1 hc with rfl | hc
    · exact ⟨by decide, by decide⟩
    rcases List.mem_cons.1 hc with rfl | hc
    · exact ⟨by decide, by decide⟩
    unfold hexByte at hc
    rcases List.mem_cons.1 hc with rfl | hc
    · exact hexDigit_printable ⟨b.toNat / 16, by omega⟩
    · cases List.mem_singleton.1 hc
      exact hexDigit_printable ⟨b.toNat % 16, by omega⟩

/-- C62: the log form of a key is a byte string literal denoting exactly the key, on one line of printable ASCII; a literal
denotes one byte string only, so different keys are logged differently. -/
theorem C62_key_literal (key : List UInt8) :
    ByteStringLiteral (escaped key) key ∧ (∀ key', ByteStringLiteral (escaped key) key' → key' = key) ∧
    (∀ c ∈ escaped key, Printable c) := by
  refine ⟨⟨_, rfl, inside_escaped key⟩, ?_, ?_⟩
  · rintro key' ⟨body, h1, h2⟩
    unfold escaped at h1
    cases h1
    exact inside_unique h2 (inside_escaped key)
  · intro c hc
    rcases List.mem_cons.1 hc with rfl | hc
    · exact ⟨by decide, by decide⟩
    rcases List.mem_cons.1 hc with rfl | hc
    · exact ⟨by decide, by decide⟩
    rcases List.mem_append.1 hc with hc | hc
    · obtain ⟨b, -, h⟩ := List.mem_flatMap.1 hc
      exact escapeByte_printable b c h
    · cases List.mem_singleton.1 hc
      exact ⟨by decide, by decide⟩

theorem C62_key_form_injective {a b : List UInt8} (h : escaped a = escaped b) : a = b :=
  (C62_key_literal b).2.1 a (h ▸ (C62_key_literal a).1)

theorem hexBytes_inj : ∀ {a b : List UInt8}, a.flatMap hexByte = b.flatMap hexByte → a = b
  | [], [], _ => rfl
  | [], _ :: _, h => by simp [hexByte] at h
  | _ :: _, [], h => by simp [hexByte] at h
  | x :: a, y :: b, h => by
    have hx : x.toNat < 256 := x.toNat_lt
    have hy : y.toNat < 256 := y.toNat_lt
    have h' : hexDigit (x.toNat / 16) :: hexDigit (x.toNat % 16) :: a.flatMap hexByte =
        hexDigit (y.toNat / 16) :: hexDigit (y.toNat % 16) :: b.flatMap hexByte := h
    injection h' with h1 h2
    injection h2 with h2 h3
    have e1 := hexDigit_inj (by omega) (by omega) h1
    have e2 := hexDigit_inj (by omega) (by omega) h2
    rw [hexBytes_inj h3, UInt8.toNat_inj.1 (show x.toNat = y.toNat by omega)]

/-- C62: two hashes of the same kind print alike only if they are the same; the form is the kind's name and 64 digits. -/
theorem C62_hash_form (name : List Char) (a b : Digest) :
    (debugHash name a = debugHash name b ↔ a = b) ∧ (debugHash name a).length = name.length + 68 := by
  refine ⟨⟨fun h => ?_, fun h => by rw [h]⟩, ?_⟩
  · unfold debugHash at h
    have h := List.append_cancel_left h
    injection h with _ h
    injection h with _ h
    exact Subtype.ext (hexBytes_inj (List.append_cancel_right h))
  · have hl : ∀ l : List UInt8, (l.flatMap hexByte).length = 2 * l.length := by
      intro l
      induction l with
      | nil => rfl
      | cons x l ih => rw [List.flatMap_cons, List.length_append, ih, List.length_cons]; simp [hexByte]; omega
    have := a.property
    simp [debugHash, hl, this]

/-- C62: a path prints as its nibbles, one hexadecimal digit each (so the printed length is the depth), and two paths print
alike only if they are the same. -/
theorem C62_path_form (l : List Nibble) :
    (∃ cs, debugPath (NibblePath.ofList l) = .ok cs ∧ cs.map hexValue = l.map (fun n => some n.val)) ∧
    ∀ l', debugPath (NibblePath.ofList l) = debugPath (NibblePath.ofList l') → NibblePath.ofList l = NibblePath.ofList l' := by
  have hp : ∀ l : List Nibble, debugPath (NibblePath.ofList l) = .ok (l.map (fun n => hexDigit n.val)) := by
    intro l
    obtain ⟨⟨h1, h2, -⟩, -⟩ := C33_iter l
    unfold debugPath
    rw [h1.drain (by show l.length - 0 < l.length + 1; omega), ok_bind, h2]
  have hv : ∀ l : List Nibble, (l.map (fun n => hexDigit n.val)).map hexValue = l.map (fun n => some n.val) := by
    intro l
    rw [List.map_map]
    exact List.map_congr_left fun n _ => hexDigit_value n
  refine ⟨⟨_, hp l, hv l⟩, fun l' h => ?_⟩
  rw [hp, hp] at h
  have h := congrArg (List.map hexValue) (Except.ok.inj h)
  rw [hv, hv] at h
  have : l = l' := by
    refine List.map_inj_right (f := fun n : Nibble => some n.val) ?_ |>.1 h
    intro a b hab
    exact Fin.ext (Option.some.inj hab)
  rw [this]

/-- A key with a quote, a newline, a high byte and a letter. -/
example : escaped [34, 10, 200, 97] = ['b', '"', '\\', '"', '\\', 'n', '\\', 'x', 'c', '8', 'a', '"'] := by decide

end Jmt

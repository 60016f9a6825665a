import Verif.Proofs.NibbleRange
import Verif.Proofs.Insert
/-!
# The nibbles of a key by index
-/
namespace Jmt

/-- The `i`-th nibble of a key. -/
def nib (k : KeyHash) (i : Nat) : Nibble := k.nibbles.getD i 0

theorem nib_get? {k : KeyHash} {i : Nat} (hi : i < 64) : k.nibbles[i]? = some (nib k i) := by
  unfold nib
  rw [List.getD_eq_getElem?_getD, List.getElem?_eq_getElem (by simpa using hi)]; rfl

theorem nib_get {k : KeyHash} {i : Nat} (hi : i < 64) : k.nibbles[i]'(by simpa using hi) = nib k i := by
  have := nib_get? (k := k) hi
  rw [List.getElem?_eq_getElem (by simpa using hi)] at this
  exact Option.some.inj this

theorem take_succ_nib {k : KeyHash} {i : Nat} (hi : i < 64) :
    k.nibbles.take (i + 1) = k.nibbles.take i ++ [nib k i] := by
  rw [List.take_succ_eq_append_getElem (by simpa using hi), nib_get hi]

theorem drop_nib {k : KeyHash} {i : Nat} (hi : i < 64) :
    k.nibbles.drop i = nib k i :: k.nibbles.drop (i + 1) := by
  rw [List.drop_eq_getElem_cons (by simpa using hi), nib_get hi]

theorem take_length_nib {k : KeyHash} {i : Nat} (hi : i ≤ 64) : (k.nibbles.take i).length = i := by
  simp; omega

theorem take_prefix_nib (k : KeyHash) (i : Nat) : k.nibbles.take i <+: k.nibbles := List.take_prefix _ _

theorem take_take_nib {k k' : KeyHash} {i c : Nat} (h : k.nibbles.take c = k'.nibbles.take c) (hi : i ≤ c) :
    k.nibbles.take i = k'.nibbles.take i := by
  have := congrArg (List.take i) h
  rwa [List.take_take, List.take_take, Nat.min_eq_left hi] at this

theorem nib_eq_of_take {k k' : KeyHash} {i c : Nat} (h : k.nibbles.take c = k'.nibbles.take c) (hi : i < c) :
    nib k i = nib k' i := by
  unfold nib
  have : (k.nibbles.take c)[i]? = (k'.nibbles.take c)[i]? := by rw [h]
  rw [List.getElem?_take_of_lt hi, List.getElem?_take_of_lt hi] at this
  rw [List.getD_eq_getElem?_getD, List.getD_eq_getElem?_getD, this]

/-- `q` is a prefix of the nibbles of `k` iff it is one of the initial segments. -/
theorem prefix_nib_iff {k : KeyHash} {q : List Nibble} : q <+: k.nibbles ↔ q.length ≤ 64 ∧ q = k.nibbles.take q.length := by
  constructor
  · intro h
    exact ⟨by have := h.length_le; simpa using this, List.prefix_iff_eq_take.1 h⟩
  · intro h; rw [h.2]; exact take_prefix_nib _ _

theorem snoc_prefix_nib {k : KeyHash} {i : Nat} {j : Nibble} (hi : i < 64) {k' : KeyHash} :
    k.nibbles.take i ++ [j] <+: k'.nibbles ↔ k.nibbles.take i <+: k'.nibbles ∧ nib k' i = j := by
  have hl := take_length_nib (k := k) (Nat.le_of_lt hi)
  constructor
  · intro h
    have h1 := (List.prefix_append (k.nibbles.take i) [j]).trans h
    refine ⟨h1, ?_⟩
    have h2 := (prefix_nib_iff.1 h).2
    have h3 := (prefix_nib_iff.1 h1).2
    rw [List.length_append, hl, List.length_singleton, take_succ_nib hi] at h2
    rw [hl] at h3
    rw [← h3] at h2
    have := List.append_cancel_left h2
    simpa using this.symm
  · rintro ⟨h1, h2⟩
    have h3 := (prefix_nib_iff.1 h1).2
    rw [hl] at h3
    rw [h3, ← h2, ← take_succ_nib hi]
    exact take_prefix_nib _ _

theorem nibbleAt_ok {k : KeyHash} {i : Nat} (hi : i < 64) : nibbleAt k i = .ok (nib k i) := by
  unfold nibbleAt
  rw [if_pos hi]
  obtain ⟨n, h1, -, h3⟩ := nibbles_get k i hi
  rw [nib_get? hi] at h1
  cases h1
  rw [h3]
  have : (UInt8.ofNat (nib k i).val).toNat = (nib k i).val := by
    have := (nib k i).isLt
    simp [UInt8.toNat_ofNat']; omega
  rw [this]
  simp [Nibble.ofNat?]

end Jmt

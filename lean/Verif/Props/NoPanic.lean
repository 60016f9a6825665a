import Verif.Spec.NoPanic
import Verif.Proofs.UpdateStep
import Verif.Props.Update
import Verif.Props.Overwrite
import Verif.Props.RestoreSample
/-!
# C46: verifiers and panics
-/
namespace Jmt
open Spec (Panics WellShaped)

section
variable {H : Hasher} {P : SMProof} {k : KeyHash}

theorem not_panics_ok {α : Type} {a : α} : ¬ Panics (.ok a : Except Err α) := by rintro ⟨m, h⟩; cases h
theorem not_panics_bail {α : Type} {s : String} : ¬ Panics (.error (.bail s) : Except Err α) := by rintro ⟨m, h⟩; cases h
theorem panics_bind {α β : Type} {x : Except Err α} {f : α → Except Err β} :
    Panics (x >>= f) ↔ Panics x ∨ ∃ a, x = .ok a ∧ Panics (f a) := by
  cases x with
  | error e =>
    constructor
    · rintro ⟨m, h⟩
      have h : (Except.error e : Except Err β) = .error (.panic m) := h
      cases h; exact .inl ⟨m, rfl⟩
    · rintro (⟨m, h⟩ | ⟨a, h, -⟩)
      · cases h; exact ⟨m, rfl⟩
      · cases h
  | ok a =>
    rw [ok_bind]
    constructor
    · intro h; exact .inr ⟨a, rfl, h⟩
    · rintro (⟨m, h⟩ | ⟨a', h, h'⟩)
      · cases h
      · cases h; exact h'

theorem panics_usub {checked : Bool} {a b : Nat} : Panics (usub checked a b) ↔ checked = true ∧ a < b := by
  unfold usub
  split
  · constructor
    · intro h; exact absurd h not_panics_ok
    · omega
  · split
    · next h1 h2 => exact ⟨fun _ => ⟨h2, by omega⟩, fun _ => ⟨_, rfl⟩⟩
    · next h1 h2 =>
      constructor
      · intro h; exact absurd h not_panics_ok
      · intro h; exact absurd h.1 h2

/-- C46: `verify`, `verify_existence` and `verify_nonexistence` never panic, whatever the proof, root, key and value. -/
theorem C46_verify_never_panics (H : Hasher) (P : SMProof) (root : Digest) (k : KeyHash) (value : Option Value) (x : Value) :
    ¬ Panics (P.verify H root k value) ∧ ¬ Panics (P.verifyExistence H root k x) ∧ ¬ Panics (P.verifyNonexistence H root k) := by
  have key : ∀ value, ¬ Panics (P.verify H root k value) := by
    intro value
    unfold SMProof.verify
    split
    · exact not_panics_bail
    · rw [panics_bind]
      rintro (h | ⟨a, -, h⟩)
      · revert h
        unfold SMProof.checkLeaf
        split <;> (try split) <;> (try split) <;> first | exact not_panics_bail | exact not_panics_ok
      · revert h
        split
        · exact not_panics_bail
        · exact not_panics_ok
  exact ⟨key _, key _, key _⟩

theorem verifyLoop_no_panic (bits : List Bool) : ∀ ls rs cur, ¬ Panics (RangeProof.verifyLoop H bits ls rs cur) := by
  induction bits with
  | nil => intro ls rs cur; exact not_panics_ok
  | cons b bits ih =>
    intro ls rs cur
    cases b with
    | true =>
      cases ls with
      | nil => exact not_panics_bail
      | cons l ls => exact ih _ _ _
    | false =>
      cases rs with
      | nil => exact not_panics_bail
      | cons r rs => exact ih _ _ _

/-- C46: the verification of a range proof panics exactly if overflow checks are on and there are more than 256 siblings in all. -/
theorem C46_range_verify_panics_iff (H : Hasher) (checked : Bool) (P : RangeProof) (root : Digest) (leaf : KeyHash × ValueHash)
    (left : List Digest) :
    Panics (P.verify H checked root leaf left) ↔ checked = true ∧ 256 < left.length + P.rightSiblings.length := by
  unfold RangeProof.verify
  rw [panics_bind, panics_usub]
  constructor
  · rintro (h | ⟨a, -, h⟩)
    · exact h
    · rw [panics_bind] at h
      rcases h with h | ⟨c, -, h⟩
      · exact absurd h (verifyLoop_no_panic _ _ _ _)
      · revert h
        split
        · intro h; exact absurd h not_panics_bail
        · intro h; exact absurd h not_panics_ok
  · exact .inl

theorem rootHash_panics {checked : Bool} {l} (hl : P.leaf = some l) :
    Panics (SMProof.rootHash H checked P) ↔ checked = true ∧ 256 < P.siblings.length := by
  unfold SMProof.rootHash
  rw [hl]
  simp only
  rw [panics_bind, panics_usub]
  constructor
  · rintro (h | ⟨a, -, h⟩)
    · exact h
    · exact absurd h not_panics_ok
  · exact .inl

theorem rootAfterDelete_no_panic (checked : Bool) {sibs : List SMNode} (h : sibs.length ≤ 256) (key : KeyHash) :
    ¬ Panics (SMProof.rootAfterDelete H checked sibs key) := by
  unfold SMProof.rootAfterDelete
  have hd := (List.dropWhile_suffix SMProof.isNull (l := sibs)).length_le
  split
  · exact not_panics_ok
  · exact not_panics_ok
  · next rest heq =>
    rw [heq] at hd
    simp only [List.length_cons] at hd
    rw [panics_bind, panics_usub]
    rintro (h | ⟨a, -, h⟩)
    · omega
    · exact absurd h not_panics_ok
  · next rest heq =>
    rw [heq] at hd
    simp only [List.length_cons] at hd
    have hd2 := (List.dropWhile_suffix SMProof.isNull (l := rest)).length_le
    simp only
    rw [panics_bind, panics_usub]
    rintro (h | ⟨a, -, h⟩)
    · omega
    · exact absurd h not_panics_ok

/-- The split computation on a well-shaped proof. -/
theorem split_ok (checked : Bool) {l : KeyHash × ValueHash} (hk : k ≠ l.1) (hn : P.siblings.length ≤ Bytes32.commonPrefixBitsLen k l.1)
    (h256 : P.siblings.length ≤ 256) (v : Value) :
    ∃ P', SMProof.computeNewMerklePathOnSplit H checked P l k v = .ok P' ∧ P'.leaf = some (k, H.hash v) ∧ P'.siblings.length ≤ 256 := by
  obtain ⟨c, c1, c2, c3⟩ := first_diff hk
  have hs : P.siblings.length ≤ c := by
    rw [le_commonPrefixBitsLen h256] at hn
    apply Decidable.byContradiction
    intro hlt
    apply c3
    have := congrArg (fun l => l[c]?) hn
    simp only [List.getElem?_take, if_pos (show c < P.siblings.length by omega)] at this
    exact this
  unfold SMProof.computeNewMerklePathOnSplit
  rw [numDefaultSiblings_eq checked hk c1 c2 c3 hs]
  have u2 : ∀ a b, a + b < 1000 → uadd checked a b = .ok (a + b) := by
    intro a b h; unfold uadd u64Size; rw [if_pos (by omega)]
  simp only [ok_bind]
  rw [u2 _ _ (by omega)]
  simp only [ok_bind]
  rw [u2 _ _ (by omega)]
  simp only [ok_bind]
  rw [if_neg (by unfold SMProof.maxVec; omega)]
  refine ⟨_, rfl, rfl, ?_⟩
  simp only [List.length_append, List.length_take, List.length_replicate, List.length_singleton]
  omega

/-- Every failure of the computation is a panic. -/
def OnlyPanics {α : Type} (x : Except Err α) : Prop := ∀ e, x = .error e → ∃ m, e = .panic m

theorem OnlyPanics.bind {α β : Type} {x : Except Err α} {f : α → Except Err β} (hx : OnlyPanics x) (hf : ∀ a, OnlyPanics (f a)) :
    OnlyPanics (x >>= f) := by
  intro e h
  cases x with
  | error e' =>
    have h : (Except.error e' : Except Err β) = .error e := h
    cases h; exact hx e rfl
  | ok a => exact hf a e h

theorem onlyPanics_usub {checked : Bool} {a b : Nat} : OnlyPanics (usub checked a b) := by
  intro e h
  unfold usub at h
  split at h
  · cases h
  · split at h
    · cases h; exact ⟨_, rfl⟩
    · cases h

theorem onlyPanics_uadd {checked : Bool} {a b : Nat} : OnlyPanics (uadd checked a b) := by
  intro e h
  unfold uadd at h
  split at h
  · cases h
  · split at h
    · cases h; exact ⟨_, rfl⟩
    · cases h

theorem onlyPanics_commonBits : ∀ xs ys, OnlyPanics (SMProof.commonBits xs ys) := by
  intro xs
  induction xs with
  | nil =>
    intro ys e h
    cases ys with
    | nil => cases h; exact ⟨_, rfl⟩
    | cons y ys => cases h
  | cons x xs ih =>
    intro ys
    cases ys with
    | nil => intro e h; cases h
    | cons y ys =>
      unfold SMProof.commonBits
      split
      · exact (ih ys).bind (fun a e h => by cases h)
      · intro e h; cases h

theorem numDefaultSiblings_panics {k k' : KeyHash} {s : Nat} (hk : k ≠ k') (hs : s ≤ 256) (h : Bytes32.commonPrefixBitsLen k k' < s) :
    Panics (SMProof.numDefaultSiblings true k' k s) := by
  cases hr : SMProof.numDefaultSiblings true k' k s with
  | ok n =>
    exfalso
    obtain ⟨c, c1, c2, c3⟩ := numDefaultSiblings_ok hk hr
    have : s ≤ Bytes32.commonPrefixBitsLen k k' := by
      rw [le_commonPrefixBitsLen hs]
      apply List.ext_getElem?
      intro i
      simp only [List.getElem?_take]
      split
      · exact c3 i (by omega)
      · rfl
    omega
  | error e =>
    have : OnlyPanics (SMProof.numDefaultSiblings true k' k s) := by
      unfold SMProof.numDefaultSiblings
      exact onlyPanics_usub.bind fun _ => (onlyPanics_commonBits _ _).bind fun _ => onlyPanics_uadd.bind fun _ =>
        onlyPanics_uadd.bind fun _ => onlyPanics_usub
    obtain ⟨m, rfl⟩ := this e hr
    exact ⟨m, rfl⟩

theorem step_no_panic (checked : Bool) {oldRoot : Digest} {x : Option Value} (hw : WellShaped P k x) :
    ¬ Panics (SMProof.checkComputeNewRoot H checked P oldRoot k x) := by
  obtain ⟨h256, hsh⟩ := hw
  have hrh : ∀ (P' : SMProof) l, P'.leaf = some l → P'.siblings.length ≤ 256 → ¬ Panics (SMProof.rootHash H checked P') := by
    intro P' l hl hn h
    have := ((rootHash_panics hl).1 h).2
    omega
  unfold SMProof.checkComputeNewRoot
  cases x with
  | some v =>
    simp only
    cases hl : P.leaf with
    | some l =>
      simp only
      rw [panics_bind]
      rintro (h | ⟨r, -, h⟩)
      · exact hrh P l hl h256 h
      · revert h
        split
        · exact not_panics_bail
        · split
          · exact hrh _ (k, H.hash v) rfl h256
          · next hk =>
            rw [panics_bind]
            obtain ⟨P', e1, e2, e3⟩ := split_ok (H := H) (P := P) checked hk (hsh l hl (by simp) (fun h => hk h.symm)) h256 v
            rw [e1]
            rintro (h | ⟨a, h, h'⟩)
            · exact absurd h not_panics_ok
            · cases h; exact hrh P' _ e2 e3 h'
    | none =>
      simp only
      split
      · exact not_panics_bail
      · exact hrh _ (k, H.hash v) rfl h256
  | none =>
    simp only
    cases hl : P.leaf with
    | some l =>
      simp only
      rw [panics_bind]
      rintro (h | ⟨r, -, h⟩)
      · exact hrh P l hl h256 h
      · revert h
        split
        · exact not_panics_bail
        · split
          · exact not_panics_bail
          · exact rootAfterDelete_no_panic checked h256 k
    | none => exact not_panics_ok

/-- C46 for updates, the part that holds: `verify_update` does not panic on well-shaped proofs, with or without overflow checks. -/
theorem C46_update_no_panic_partial (checked : Bool) {Ps : List SMProof} {updates : List (KeyHash × Option Value)} {oldRoot newRoot : Digest}
    (h : ∀ (j : Nat) P k x, Ps[j]? = some P → updates[j]? = some (k, x) → WellShaped P k x) :
    ¬ Panics (SMProof.verifyUpdate H checked Ps oldRoot newRoot updates) := by
  unfold SMProof.verifyUpdate
  split
  · exact not_panics_bail
  · rw [panics_bind]
    rintro (h' | ⟨a, -, h'⟩)
    · revert h'
      clear newRoot
      rename_i hlen
      clear hlen
      induction Ps generalizing updates oldRoot with
      | nil => unfold SMProof.updateLoop; exact not_panics_ok
      | cons P Ps ih =>
        cases updates with
        | nil => unfold SMProof.updateLoop; exact not_panics_ok
        | cons u us =>
          obtain ⟨k, x⟩ := u
          unfold SMProof.updateLoop
          rw [panics_bind]
          rintro (h' | ⟨a, -, h'⟩)
          · exact step_no_panic checked (h 0 P k x rfl rfl) h'
          · exact ih (fun j P k x h1 h2 => h (j + 1) P k x h1 h2) h'
    · revert h'
      split
      · exact not_panics_bail
      · exact not_panics_ok

theorem rootHash_ok {checked : Bool} {l} (hl : P.leaf = some l) (h : P.siblings.length ≤ 256) :
    SMProof.rootHash H checked P = .ok (Spec.pathHash H l.1 (H.leafHash l.1 l.2) 0 P.siblings.reverse) := by
  unfold SMProof.rootHash
  rw [hl]
  have hu : usub checked 256 P.siblings.length = .ok (256 - P.siblings.length) := by
    unfold usub; rw [if_pos h]
  simp only
  rw [hu, ok_bind, foldSiblings_eq H _ _ _ h]
  rfl

theorem step_panics_iff {old : Digest} {x : Option Value} :
    Panics (SMProof.checkComputeNewRoot H true P old k x) ↔ Spec.PanicsAt H P old k x := by
  constructor
  · intro h
    cases hl : P.leaf with
    | none =>
      exfalso
      revert h
      unfold SMProof.checkComputeNewRoot
      cases x with
      | none => simp only [hl]; exact not_panics_ok
      | some v =>
        simp only [hl]
        split
        · exact not_panics_bail
        · next heq =>
          intro h
          have h1 := (rootHash_panics (P := ⟨some (k, H.hash v), P.siblings⟩) rfl).1 h
          have h2 := (verify_iff.1 (show P.verify H old k none = .ok () from heq)).1
          simp only at h1
          omega
    | some l =>
      refine ⟨l, hl, ?_⟩
      by_cases h256 : 256 < P.siblings.length
      · exact .inl h256
      · refine .inr ⟨?_, ?_, ?_, ?_⟩
        · rintro rfl
          exact step_no_panic true (k := k) (x := none) ⟨by omega, fun _ _ hc => absurd rfl hc⟩ h
        · intro hk
          refine step_no_panic true ⟨by omega, fun l' hl' _ hk' => ?_⟩ h
          rw [hl] at hl'; cases hl'; exact absurd hk hk'
        · refine Nat.not_le.1 fun hc => step_no_panic true ⟨by omega, fun l' hl' _ _ => ?_⟩ h
          rw [hl] at hl'; cases hl'; exact hc
        · refine Classical.byContradiction fun hc => ?_
          revert h
          unfold SMProof.checkComputeNewRoot
          cases x with
          | some v =>
            simp only [hl]
            rw [rootHash_ok hl (by omega), ok_bind, if_pos hc]
            exact not_panics_bail
          | none =>
            simp only [hl]
            rw [rootHash_ok hl (by omega), ok_bind, if_pos hc]
            exact not_panics_bail
  · rintro ⟨l, hl, h⟩
    by_cases h256 : 256 < P.siblings.length
    · have hp := (rootHash_panics (H := H) hl).2 ⟨rfl, h256⟩
      unfold SMProof.checkComputeNewRoot
      cases x with
      | some v => simp only [hl]; rw [panics_bind]; exact .inl hp
      | none => simp only [hl]; rw [panics_bind]; exact .inl hp
    · rcases h with h | ⟨h1, h2, h3, h4⟩
      · exact absurd h h256
      · cases x with
        | none => exact absurd rfl h1
        | some v =>
          unfold SMProof.checkComputeNewRoot
          simp only [hl]
          rw [rootHash_ok hl (by omega), ok_bind, if_neg (not_not_intro h4), if_neg (fun hc => h2 hc.symm), panics_bind]
          left
          unfold SMProof.computeNewMerklePathOnSplit
          rw [panics_bind]
          left
          exact numDefaultSiblings_panics (fun hc => h2 hc.symm) (by omega) h3

theorem verifyUpdate_iff {checked : Bool} {Ps : List SMProof} {us : List (KeyHash × Option Value)} {old new : Digest} :
    SMProof.verifyUpdate H checked Ps old new us = .ok () ↔
      us.length = Ps.length ∧ SMProof.updateLoop H checked Ps us old = .ok new := by
  unfold SMProof.verifyUpdate
  by_cases hl : us.length = Ps.length
  · rw [if_neg (not_not_intro hl)]
    constructor
    · intro h
      obtain ⟨r, h1, h2⟩ := bind_ok_inv h
      refine ⟨hl, ?_⟩
      by_cases hc : r = new
      · rw [h1, hc]
      · rw [if_pos hc] at h2; cases h2
    · rintro ⟨-, h⟩
      rw [h, ok_bind, if_neg (not_not_intro rfl)]
  · rw [if_pos hl]
    constructor
    · intro h; cases h
    · intro h; exact absurd h.1 hl

theorem release_rootHash {l} (hl : P.leaf = some l) (hm : P.siblings.length ≤ SMProof.maxVec) :
    SMProof.rootHash H false P = .ok (if P.siblings.length ≤ 256 then Spec.pathHash H l.1 (H.leafHash l.1 l.2) 0 P.siblings.reverse
      else H.leafHash l.1 l.2) := by
  by_cases h : P.siblings.length ≤ 256
  · rw [if_pos h, rootHash_ok hl h]
  · rw [if_neg h, rootHash_long hl (by omega) hm]

theorem rootAfterDelete_release {sibs : List SMNode} : ¬ Panics (SMProof.rootAfterDelete H false sibs k) := by
  unfold SMProof.rootAfterDelete
  split
  · exact not_panics_ok
  · exact not_panics_ok
  · rw [panics_bind, panics_usub]
    rintro (h | ⟨a, -, h⟩)
    · exact absurd h.1 (by simp)
    · exact absurd h not_panics_ok
  · simp only
    rw [panics_bind, panics_usub]
    rintro (h | ⟨a, -, h⟩)
    · exact absurd h.1 (by simp)
    · exact absurd h not_panics_ok

theorem step_panics_release {old : Digest} {x : Option Value} (hm : P.siblings.length ≤ SMProof.maxVec) :
    Panics (SMProof.checkComputeNewRoot H false P old k x) ↔ Spec.PanicsAtRelease H P old k x := by
  have hrh : ∀ (P' : SMProof) l, P'.leaf = some l → ¬ Panics (SMProof.rootHash H false P') := by
    intro P' l hl h
    exact absurd ((rootHash_panics hl).1 h).1 (by simp)
  unfold SMProof.checkComputeNewRoot
  cases hl : P.leaf with
  | none =>
    constructor
    · intro h
      exfalso
      revert h
      cases x with
      | none => exact not_panics_ok
      | some v =>
        simp only
        split
        · exact not_panics_bail
        · exact hrh _ (k, H.hash v) rfl
    · rintro ⟨l, h, -⟩; rw [hl] at h; cases h
  | some l =>
    cases x with
    | none =>
      constructor
      · intro h
        exfalso
        revert h
        simp only
        rw [panics_bind]
        rintro (h | ⟨r, -, h⟩)
        · exact hrh P l hl h
        · revert h
          split
          · exact not_panics_bail
          · split
            · exact not_panics_bail
            · exact rootAfterDelete_release
      · rintro ⟨l', -, hx, -⟩; exact absurd rfl hx
    | some v =>
      simp only
      rw [release_rootHash hl hm, ok_bind]
      have hrel : Spec.PanicsAtRelease H P old k (some v) ↔ l.1 ≠ k ∧ Bytes32.commonPrefixBitsLen k l.1 + 1 < P.siblings.length ∧
          (if P.siblings.length ≤ 256 then Spec.pathHash H l.1 (H.leafHash l.1 l.2) 0 P.siblings.reverse else H.leafHash l.1 l.2) = old := by
        constructor
        · rintro ⟨l', h', -, h⟩
          rw [hl] at h'; cases h'; exact h
        · rintro h; exact ⟨l, hl, by simp, h⟩
      rw [hrel]
      by_cases hr : (if P.siblings.length ≤ 256 then Spec.pathHash H l.1 (H.leafHash l.1 l.2) 0 P.siblings.reverse else H.leafHash l.1 l.2) = old
      · rw [if_neg (not_not_intro hr)]
        by_cases hk : k = l.1
        · rw [if_pos hk]
          constructor
          · intro h; exact absurd h (hrh _ (k, H.hash v) rfl)
          · rintro ⟨h, -⟩; exact absurd hk.symm h
        · rw [if_neg hk]
          constructor
          · intro h
            refine ⟨fun h => hk h.symm, ?_, hr⟩
            apply Decidable.byContradiction
            intro hc
            obtain ⟨c, c1, c2, c3⟩ := first_diff hk
            have hcp := commonPrefix_first c1 c2 c3
            rw [panics_bind] at h
            have hok : ∃ P', SMProof.computeNewMerklePathOnSplit H false P l k v = .ok P' ∧ P'.leaf = some (k, H.hash v) := by
              by_cases h1 : P.siblings.length = Bytes32.commonPrefixBitsLen k l.1 + 1
              · exact ⟨_, split_one_off hk h1 v, rfl⟩
              · obtain ⟨P', e1, e2, -⟩ := split_ok (H := H) (P := P) false hk (by omega) (by omega) v
                exact ⟨P', e1, e2⟩
            obtain ⟨P', e1, e2⟩ := hok
            rw [e1] at h
            rcases h with h | ⟨a, h, h'⟩
            · exact absurd h not_panics_ok
            · cases h; exact hrh P' _ e2 h'
          · rintro ⟨-, hn, -⟩
            rw [panics_bind]
            exact .inl (split_capacity hk hn hm v)
      · rw [if_pos hr]
        constructor
        · intro h; exact absurd h not_panics_bail
        · rintro ⟨-, -, h⟩; exact absurd h hr

theorem updateLoop_panics_iff {checked : Bool} {At : SMProof → Digest → KeyHash → Option Value → Prop} :
    ∀ {Ps : List SMProof} {us : List (KeyHash × Option Value)} {old : Digest},
    (∀ P ∈ Ps, ∀ old k x, Panics (SMProof.checkComputeNewRoot H checked P old k x) ↔ At P old k x) →
    us.length = Ps.length → (Panics (SMProof.updateLoop H checked Ps us old) ↔
      ∃ (j : Nat) (P : SMProof) (k : KeyHash) (x : Option Value) (r : Digest), Ps[j]? = some P ∧ us[j]? = some (k, x) ∧
        SMProof.updateLoop H checked (Ps.take j) (us.take j) old = .ok r ∧ At P r k x) := by
  intro Ps
  induction Ps with
  | nil =>
    intro us old hAt hlen
    unfold SMProof.updateLoop
    constructor
    · intro h; exact absurd h not_panics_ok
    · rintro ⟨j, P, k, x, r, h, -⟩; simp at h
  | cons P Ps ih =>
    intro us old hAt hlen
    cases us with
    | nil => simp at hlen
    | cons u us =>
      obtain ⟨k, x⟩ := u
      unfold SMProof.updateLoop
      rw [panics_bind, hAt P (List.mem_cons_self ..)]
      constructor
      · rintro (h | ⟨r, h1, h2⟩)
        · exact ⟨0, P, k, x, old, rfl, rfl, rfl, h⟩
        · obtain ⟨j, P', k', x', r', a1, a2, a3, a4⟩ := (ih (fun P' hP' => hAt P' (List.mem_cons_of_mem _ hP')) (by simpa using hlen)).1 h2
          refine ⟨j + 1, P', k', x', r', a1, a2, ?_, a4⟩
          simp only [List.take_succ_cons, SMProof.updateLoop]
          rw [h1, ok_bind]; exact a3
      · rintro ⟨j, P', k', x', r', a1, a2, a3, a4⟩
        cases j with
        | zero =>
          simp only [List.getElem?_cons_zero, Option.some.injEq] at a1 a2
          obtain ⟨rfl, rfl⟩ := Prod.mk.inj a2
          subst a1
          have : old = r' := Except.ok.inj a3
          exact .inl (by rw [this]; exact a4)
        | succ j =>
          simp only [List.take_succ_cons, SMProof.updateLoop] at a3
          obtain ⟨r, b1, b2⟩ := bind_ok_inv a3
          exact .inr ⟨r, b1, (ih (fun P' hP' => hAt P' (List.mem_cons_of_mem _ hP')) (by simpa using hlen)).2 ⟨j, P', k', x', r', by simpa using a1, by simpa using a2, b2, a4⟩⟩

theorem verifyUpdate_panics_iff {checked : Bool} {At : SMProof → Digest → KeyHash → Option Value → Prop} {Ps : List SMProof} {us : List (KeyHash × Option Value)} {old new : Digest}
    (hAt : ∀ P ∈ Ps, ∀ old k x, Panics (SMProof.checkComputeNewRoot H checked P old k x) ↔ At P old k x) :
    Panics (SMProof.verifyUpdate H checked Ps old new us) ↔ us.length = Ps.length ∧
      ∃ (j : Nat) (P : SMProof) (k : KeyHash) (x : Option Value) (r : Digest), Ps[j]? = some P ∧ us[j]? = some (k, x) ∧
        SMProof.verifyUpdate H checked (Ps.take j) old r (us.take j) = .ok () ∧ At P r k x := by
  by_cases hlen : us.length = Ps.length
  · have hv : Panics (SMProof.verifyUpdate H checked Ps old new us) ↔ Panics (SMProof.updateLoop H checked Ps us old) := by
      unfold SMProof.verifyUpdate
      rw [if_neg (not_not_intro hlen), panics_bind]
      constructor
      · rintro (h | ⟨r, -, h⟩)
        · exact h
        · revert h
          split
          · intro h; exact absurd h not_panics_bail
          · intro h; exact absurd h not_panics_ok
      · exact .inl
    rw [hv, updateLoop_panics_iff hAt hlen]
    constructor
    · rintro ⟨j, P, k, x, r, a1, a2, a3, a4⟩
      exact ⟨hlen, j, P, k, x, r, a1, a2, verifyUpdate_iff.2 ⟨by simp [hlen], a3⟩, a4⟩
    · rintro ⟨-, j, P, k, x, r, a1, a2, a3, a4⟩
      exact ⟨j, P, k, x, r, a1, a2, (verifyUpdate_iff.1 a3).2, a4⟩
  · constructor
    · intro h
      unfold SMProof.verifyUpdate at h
      rw [if_pos hlen] at h
      exact absurd h not_panics_bail
    · intro h; exact absurd h.1 hlen

/-- C46 for updates, exactly: in a build with overflow checks `verify_update` panics iff there are as many proofs as updates and some
update, after the ones before it are accepted as leading to some root, meets a bad proof: one with a leaf and more than 256
siblings, or the genuine proof (for that root) of another leaf that does not share the path. -/
theorem C46_update_panics_iff {Ps : List SMProof} {us : List (KeyHash × Option Value)} {old new : Digest} :
    Panics (SMProof.verifyUpdate H true Ps old new us) ↔ us.length = Ps.length ∧
      ∃ (j : Nat) (P : SMProof) (k : KeyHash) (x : Option Value) (r : Digest), Ps[j]? = some P ∧ us[j]? = some (k, x) ∧
        SMProof.verifyUpdate H true (Ps.take j) old r (us.take j) = .ok () ∧ Spec.PanicsAt H P r k x :=
  verifyUpdate_panics_iff (At := fun P r k x => Spec.PanicsAt H P r k x) (fun _ _ _ _ _ => step_panics_iff)

/-- ... and without overflow checks (proofs that fit in memory): it panics iff there are as many proofs as updates and some
insertion, after the updates before it are accepted as leading to some root, comes with a proof for that root of another leaf, with at least two
siblings more than the keys have common bits. -/
theorem C46_update_panics_iff_release {Ps : List SMProof} {us : List (KeyHash × Option Value)} {old new : Digest}
    (hmem : ∀ P ∈ Ps, P.siblings.length ≤ 2 ^ 57) :
    Panics (SMProof.verifyUpdate H false Ps old new us) ↔ us.length = Ps.length ∧
      ∃ (j : Nat) (P : SMProof) (k : KeyHash) (x : Option Value) (r : Digest), Ps[j]? = some P ∧ us[j]? = some (k, x) ∧
        SMProof.verifyUpdate H false (Ps.take j) old r (us.take j) = .ok () ∧ Spec.PanicsAtRelease H P r k x :=
  verifyUpdate_panics_iff (At := fun P r k x => Spec.PanicsAtRelease H P r k x) (fun P hP _ _ _ => step_panics_release (hmem P hP))

/-- ... and with overflow checks, an insertion on the proof of another leaf that is not well-shaped panics as soon as the
proof leads to the old root. -/
theorem C46_update_panics (l : KeyHash × ValueHash) (hl : P.leaf = some l) (hk : k ≠ l.1)
    (hn : Bytes32.commonPrefixBitsLen k l.1 < P.siblings.length) (h256 : P.siblings.length ≤ 256) (v : Value) (newRoot : Digest)
    {oldRoot : Digest} (hr : SMProof.rootHash H true P = .ok oldRoot) :
    Panics (SMProof.verifyUpdate H true [P] oldRoot newRoot [(k, some v)]) := by
  unfold SMProof.verifyUpdate
  rw [if_neg (by simp)]
  rw [panics_bind]
  left
  unfold SMProof.updateLoop
  rw [panics_bind]
  left
  unfold SMProof.checkComputeNewRoot
  simp only [hl]
  rw [hr, ok_bind, if_neg (by simp), if_neg hk, panics_bind]
  left
  unfold SMProof.computeNewMerklePathOnSplit
  rw [panics_bind]
  left
  exact numDefaultSiblings_panics hk h256 hn

/-- A proof that verifies is well-shaped for any update of its key. -/
theorem wellShaped_of_verify {root : Digest} {value : Option Value} (h : P.verify H root k value = .ok ()) (x : Option Value) :
    WellShaped P k x := by
  unfold SMProof.verify at h
  split at h
  · cases h
  · next hn =>
    obtain ⟨a, h1, -⟩ := bind_ok_inv h
    refine ⟨by omega, fun l hl _ hne => ?_⟩
    unfold SMProof.checkLeaf at h1
    rw [hl] at h1
    cases value with
    | some v =>
      simp only at h1
      rw [if_pos (fun h => hne h.symm)] at h1
      cases h1
    | none =>
      simp only at h1
      rw [if_neg (fun h => hne h.symm)] at h1
      split at h1
      · cases h1
      · omega

/-- C46: the proofs `get_with_proof` serves are well-shaped for any update of the key asked for, so `verify_update` does not panic on them. -/
theorem C46_served_proofs_well_shaped {ops : List Op} {y : Sys} (hr : Reached H ops y) (hb : (setsOf ops).length < 2 ^ 64)
    {v : Version} (hv : Readable ops v) {value P} (hP : getWithProof H y.store.reader k v = .ok (value, P)) (x : Option Value) :
    WellShaped P k x := by
  cases hm : mapAt ops v k with
  | some z =>
    obtain ⟨P', r, h1, -, h3⟩ := C04_existence_complete hr hb hv hm
    rw [hP] at h1; cases h1
    exact wellShaped_of_verify h3 x
  | none =>
    obtain ⟨P', r, h1, -, h3⟩ := C05_nonexistence_complete hr hb hv hm
    rw [hP] at h1; cases h1
    exact wellShaped_of_verify h3 x

/-- C46 is false for updates: whoever is asked to verify an insertion can be made to panic (overflow checks on) by the genuine proof of a
present key `k1`: any other key that leaves the proven path above the leaf will do. -/
theorem C46_genuine_proof_panics {ops : List Op} {y : Sys} (hr : Reached H ops y) (hb : (setsOf ops).length < 2 ^ 64)
    {v : Version} (hv : Readable ops v) {k1 : KeyHash} {x1 : Value} {P : SMProof} {root : Digest}
    (hP : getWithProof H y.store.reader k1 v = .ok (some x1, P)) (hroot : getRootHash H y.store.reader v = .ok root)
    (hk : k ≠ k1) (hn : Bytes32.commonPrefixBitsLen k k1 < P.siblings.length) (x : Value) (newRoot : Digest) :
    Panics (SMProof.verifyUpdate H true [P] root newRoot [(k, some x)]) := by
  have ra := hr.readAt hb hv
  rw [ra.gwp] at hP
  rw [ra.rootHash] at hroot
  obtain ⟨hx, rfl⟩ := Prod.mk.inj (Except.ok.inj hP)
  obtain rfl := Except.ok.inj hroot
  have hmem : (k1, H.hash x1) ∈ entriesAfter H (setsOf ops) (v + 1) := (ra.lists.mem k1 _).2 ⟨x1, hx, rfl⟩
  have hlf := (specProof_leaf_iff (H := H) ra.nodup k1 _).2 hmem
  refine C46_update_panics _ hlf hk hn (specProof_len H _ k1) x newRoot ?_
  rw [specProof_rootHash ra.nodup true hlf, root_eq_sh]

end

namespace Sample

/-- Well-shaped proofs exist: an insertion next to an absent key's neighbour. -/
example : ∃ y P, Reached T Sample.ops y ∧ getWithProof T y.store.reader (key 0x11) 1 = .ok (none, P) ∧ WellShaped P (key 0x11) (some [9]) := by
  obtain ⟨y, hy⟩ := Sample.reached T
  obtain ⟨P, hP⟩ := C02_get_with_proof_agrees hy Sample.bound Sample.readable1 (key 0x11)
  exact ⟨y, P, hy, hP, C46_served_proofs_well_shaped hy Sample.bound Sample.readable1 hP _⟩

/-- The store of the two keys `0x10` and `0x11` (eight siblings each). -/
def deepStore (p : Sys → Bool) : Bool :=
  okAnd (owStore [(key 0x10, some [1]), (key 0x11, some [2])]) p

/-- C46 is false for updates also without overflow checks: the genuine proof of `0x10`, presented for the insertion of `0x80`, makes
`verify_update` panic (capacity overflow) in both kinds of build. -/
theorem _root_.Jmt.C46_genuine_proof_panics_in_release : ∃ y P root, Reached T [.commit [[(key 0x10, some [1])]], .commit [[(key 0x11, some [2])]]] y ∧
    getWithProof T y.store.reader (key 0x10) 1 = .ok (some [1], P) ∧ getRootHash T y.store.reader 1 = .ok root ∧
    ∀ checked newRoot, Panics (SMProof.verifyUpdate T checked [P] root newRoot [(key 0x80, some [3])]) := by
  have key : deepStore (fun y => okAnd (getWithProof T y.store.reader (key 0x10) 1) (fun P =>
      okAnd (getRootHash T y.store.reader 1) (fun root =>
        decide (P.1 = some [1]) &&
        (panicked (SMProof.updateLoop T true [P.2] [(Sample.key 0x80, some [3])] root) &&
        panicked (SMProof.updateLoop T false [P.2] [(Sample.key 0x80, some [3])] root))))) = true := by decide +kernel
  obtain ⟨y, hy, key⟩ := of_okAnd key
  obtain ⟨⟨x, P⟩, hP, key⟩ := of_okAnd key
  obtain ⟨root, hroot, key⟩ := of_okAnd key
  simp only [Bool.and_eq_true, decide_eq_true_eq] at key
  obtain ⟨rfl, k1, k2⟩ := key
  refine ⟨y, P, root, ⟨true, hy⟩, hP, hroot, fun checked newRoot => ?_⟩
  unfold SMProof.verifyUpdate
  rw [if_neg (by simp), panics_bind]
  left
  cases checked
  · exact of_panicked k2
  · exact of_panicked k1

/-- C46 is false for range proofs with overflow checks: 257 right siblings. -/
theorem _root_.Jmt.C46_long_range_proof_panics (H : Hasher) (root : Digest) (leaf : KeyHash × ValueHash) :
    Panics (RangeProof.verify H true ⟨List.replicate 257 .null⟩ root leaf []) :=
  (C46_range_verify_panics_iff H true _ root leaf []).2 ⟨rfl, by rw [List.length_replicate]; decide⟩

end Sample
end Jmt

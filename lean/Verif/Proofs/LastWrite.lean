import Verif.Proofs.Freeze
/-!
# The last write to a key in a value set
-/
namespace Jmt
open Spec (Entry)

/-- The last write to `k` in a value set, if any. -/
def lastWrite (ws : ValueSet) (k : KeyHash) : Option (Option Value) :=
  ws.foldl (fun acc w => if w.1 = k then some w.2 else acc) none

theorem lastWrite_foldl (ws : ValueSet) (k : KeyHash) (a : Option (Option Value)) :
    ws.foldl (fun acc w => if w.1 = k then some w.2 else acc) a = (lastWrite ws k).or a := by
  unfold lastWrite
  induction ws generalizing a with
  | nil => simp
  | cons w ws ih =>
    simp only [List.foldl_cons]
    rw [ih, ih (if w.1 = k then some w.2 else none)]
    split <;> simp

theorem lastWrite_cons (w : KeyHash × Option Value) (ws : ValueSet) (k) :
    lastWrite (w :: ws) k = (lastWrite ws k).or (if w.1 = k then some w.2 else none) := by
  show List.foldl _ _ ws = _
  rw [lastWrite_foldl]

theorem writes_eq (s : Spec.Map) (ws : ValueSet) (k : KeyHash) :
    (s.writes ws) k = match lastWrite ws k with | some x => x | none => s k := by
  induction ws generalizing s with
  | nil => rfl
  | cons w ws ih =>
    show (Spec.Map.writes (s.write w) ws) k = _
    rw [ih, lastWrite_cons]
    cases lastWrite ws k with
    | some x => rfl
    | none =>
      unfold Spec.Map.write
      by_cases h : w.1 = k
      · simp [h]
      · simp [h, Ne.symm h]

theorem valAll_nodup (V : Nat) (vc) (h : AMap.NodupKeys vc) (ws : ValueSet) : (valAll V vc ws).NodupKeys := by
  induction ws generalizing vc with
  | nil => exact h
  | cons w ws ih => exact ih _ (h.insert _ _)

theorem valAll_get (V : Nat) (vc) (ws : ValueSet) (v : Nat) (k) :
    (valAll V vc ws).get? (v, k) =
      (if v = V then lastWrite ws k else none).or (vc.get? (v, k)) := by
  induction ws generalizing vc with
  | nil => simp [valAll, lastWrite]
  | cons w ws ih =>
    show (valAll V (AMap.insert vc (V, w.1) w.2) ws).get? (v, k) = _
    rw [ih, lastWrite_cons, AMap.get?_insert]
    by_cases hv : v = V
    · subst hv
      simp only [if_true, Prod.mk.injEq, true_and]
      cases lastWrite ws k <;> simp
      split <;> simp
    · simp [hv, Ne.symm hv]

/-- `vc` holds the last write of `ws` to every key, at version `V`. -/
structure ValsOk (V : Version) (ws : ValueSet) (vc : AMap (Version × KeyHash) (Option Value)) : Prop where
  nodup : vc.NodupKeys
  get : ∀ v k, vc.get? (v, k) = if v = V then lastWrite ws k else none

theorem valAll_ok (V : Version) (ws : ValueSet) : ValsOk V ws (valAll V [] ws) :=
  ⟨valAll_nodup _ _ AMap.nodupKeys_nil _, fun v k => by rw [valAll_get]; simp⟩

end Jmt

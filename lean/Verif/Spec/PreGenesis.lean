import Verif.Spec.Continue
import Verif.Spec.Crash
/-!
# Specification: a tree loaded before version 0
-/
namespace Jmt.Spec

/-- The writes `ws` change something in `mp` that can be told from the result: a key they write is there afterwards, or a key
of `mp` is gone. -/
def TakesEffect (mp : Map) (ws : List Write) : Prop :=
  (∃ k, k ∈ ws.map Prod.fst ∧ (mp.writes ws) k ≠ none) ∨ (∃ k, mp k ≠ none ∧ (mp.writes ws) k = none)

/-- `R'` shows a store after a sequence of calls of `put_value_sets` that starts at version `n` of the store shown by `R`: every call
is for the versions after those of the call before it, and its batch is written before the next call. -/
inductive Calls (H : Hasher) : Reader → Version → List (List ValueSet) → Reader → Prop
  | nil (R : Reader) (n : Version) : Calls H R n [] R
  | cons {R R1 R' : Reader} {n : Version} {sets : List ValueSet} {rest : List (List ValueSet)} {hs : List Digest} {b : TreeUpdateBatch} :
      putValueSets H R sets n = .ok (hs, b) → Written b.nodeBatch R1 R → Calls H R1 (n + sets.length) rest R' →
      Calls H R n (sets :: rest) R'

end Jmt.Spec

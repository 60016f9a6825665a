import Verif.Spec.Faults
import Verif.Spec.Iterate
/-!
# Iterating over a reader that fails now and then

The English property: when a call of `next` has returned an error, the iterator can be called again; once the reads succeed it goes on where
it stopped, and nothing is skipped, repeated or made up.
-/
namespace Jmt

/-- One call of `next` for each of the given readers (the reader as it behaves during that call): the items returned, and the
iterator afterwards. An `.error` is a panic. -/
def Iter.calls : List Reader → Iter → Except Err (List Iter.Item × Iter)
  | [], it => .ok ([], it)
  | R :: Rs, it => do
    let (x, it) ← it.next R
    let (xs, it) ← Iter.calls Rs it
    .ok (x :: xs, it)

/-- The pairs among the returned items, without the errors and the ends. -/
def Spec.served (xs : List Iter.Item) : List (KeyHash × Value) :=
  xs.filterMap (fun x => match x with | some (.ok kv) => some kv | _ => none)

/-- The map has exactly one key, `k`. -/
def Spec.OnlyKey (mp : Spec.Map) (k : KeyHash) : Prop := ∀ k', mp k' ≠ none ↔ k' = k

/-- The map has exactly one key. -/
def Spec.OneKey (mp : Spec.Map) : Prop := ∃ k, Spec.OnlyKey mp k

end Jmt

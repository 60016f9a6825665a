import Verif.Spec.History
import Verif.Model.Iterator
/-!
# Specification vocabulary for iteration
-/
namespace Jmt

/-- Calling `next` again and again yields exactly `items`, each `Some(Ok(..))`, and then `None` for ever
(the state no longer changes), without a panic. -/
inductive Iter.Yields (R : Reader) : Iter → List (KeyHash × Value) → Prop
  | done {it : Iter} : it.next R = .ok (none, it) → Yields R it []
  | item {it it' : Iter} {kv : KeyHash × Value} {items : List (KeyHash × Value)} :
      it.next R = .ok (some (.ok kv), it') → Yields R it' items → Yields R it (kv :: items)

/-- `items` are the pairs of the map in strictly increasing key order (byte order, Rust's `Ord` on
`KeyHash`), each key once. -/
structure SortedPairs (mp : Spec.Map) (items : List (KeyHash × Value)) : Prop where
  sorted : items.Pairwise (fun a b => a.1.val < b.1.val)
  mem : ∀ k x, (k, x) ∈ items ↔ mp k = some x

end Jmt

import Verif.Proofs.Reach
/-!
# A sample history used in the non-vacuity examples
-/
namespace Jmt.Sample

/-- The key with first byte `b` and zeros after it. -/
def key (b : UInt8) : KeyHash := ⟨b :: List.replicate 31 0, rfl⟩

/-- Two keys that share their first nibble, a third elsewhere; an overwrite and a delete; an empty set;
a purge in the middle; a commit after the purge; a batch commit that writes one key twice. -/
def ops : List Op :=
  [.commit [[(key 0x10, some [1]), (key 0x1f, some [2])], [(key 0x80, some [3]), (key 0x10, some [4])]],
   .purge 1,
   .commit [[(key 0x1f, none)], []],
   .batch [[(key 0x81, [5]), (key 0x10, [6]), (key 0x81, [7])]]]

theorem reached (H : Hasher) : ∃ y, Reached H ops y := by
  obtain ⟨y, h, -⟩ := Sys.run_ok H false ops (by decide) (by decide)
  exact ⟨y, false, h⟩

theorem allowed : ∀ op ∈ ops, op.Allowed := by decide

theorem bound : (setsOf ops).length < 2 ^ 64 := by decide

theorem readable3 : Readable ops 3 := by constructor <;> decide
theorem readable1 : Readable ops 1 := by constructor <;> decide

example : mapAt ops 3 (key 0x10) = some [4] := by decide
example : mapAt ops 1 (key 0x1f) = some [2] := by decide
example : mapAt ops 3 (key 0x1f) = none := by decide

end Jmt.Sample

import Verif.Spec.RestoreOver
import Verif.Props.BackendLife
/-!
# Restoring into a store that holds something: simulation by a restoration into an empty one
-/
namespace Jmt
open Spec (Entry SameLookups)
open Store

section
variable {H : Hasher} {w : Version} {root : Digest} {p0 gp p all chunk : List (KeyHash × Value)}
  {r r' : Restore} {checked : Bool} {R R' R0 E : Reader} {b : NodeBatch} {ops : List Op} {y : Sys} {v : Version} {pos : Option KeyHash} {whole : Bool}

/-- A backend that holds nothing. -/
def vacantReader : Reader := ⟨fun _ => .ok none, fun _ _ => .ok none, .ok none⟩

theorem vacantReader_vacant : Spec.Vacant vacantReader := ⟨fun _ => rfl, fun _ _ => rfl, .inl ⟨rfl, fun _ _ h => by cases h⟩⟩

/-- `R` shows what `E` shows, except for what `F` is about to write, and otherwise what `R0` shows, except about version `w`. -/
structure Over (all : List (KeyHash × Value)) (w : Version) (R0 E R : Reader) (F : NodeBatch) : Prop where
  node : ∀ k, F.nodes.get? k = none → E.getNodeOption k = R.getNodeOption k ∨ E.getNodeOption k = .ok none
  value : ∀ v k, (∀ u x, F.values.get? (u, k) = some x → v < u) → E.getValueOption v k = R.getValueOption v k ∨ E.getValueOption v k = .ok none
  others : ∀ k : NodeKey, k.version ≠ w → R.getNodeOption k = R0.getNodeOption k
  older : ∀ v k, v < w ∨ k ∉ all.map Prod.fst → R.getValueOption v k = R0.getValueOption v k

/-- What the batches of a restoration contain. -/
structure BatchOf (all : List (KeyHash × Value)) (w : Version) (b : NodeBatch) : Prop where
  node : ∀ k n, b.nodes.get? k = some n → k.version = w
  value : ∀ v k x, b.values.get? (v, k) = some x → v = w ∧ k ∈ all.map Prod.fst

theorem BatchOf.none_node (hb : BatchOf all w b) {k : NodeKey} (hk : k.version ≠ w) : b.nodes.get? k = none := by
  cases h : b.nodes.get? k with
  | none => rfl
  | some n => exact absurd (hb.node k n h) hk

theorem BatchOf.none_value (hb : BatchOf all w b) {v : Version} {k : KeyHash} (h : v < w ∨ k ∉ all.map Prod.fst) (u : Version) (x : Option Value)
    (hx : b.values.get? (u, k) = some x) : v < u := by
  obtain ⟨rfl, h2⟩ := hb.value u k x hx
  rcases h with h | h
  · exact h
  · exact absurd h2 h

/-- Writing a batch that contains what was not written. -/
theorem Over.write {F : NodeBatch} {E' : Reader} (h : Over all w R0 E R F) (hb : BatchOf all w b) (hg : Grows F b) (hw : Spec.Written b R' R)
    (he : Spec.Written b E' E) (F' : NodeBatch) : Over all w R0 E' R' F' := by
  refine ⟨fun k _ => ?_, fun v k _ => ?_, fun k hk => ?_, fun v k hk => ?_⟩
  · cases hk : b.nodes.get? k with
    | some n => rw [hw.new k n hk, he.new k n hk]; exact .inl rfl
    | none => rw [hw.old k hk, he.old k hk]; exact h.node k (hg.nodes k hk)
  · by_cases hex : w ≤ v ∧ ∃ x, b.values.get? (w, k) = some x
    · obtain ⟨hle, x, hx⟩ := hex
      have hmax : ∀ u x', b.values.get? (u, k) = some x' → u ≤ v → u ≤ w := fun u x' hu _ => by rw [(hb.value u k x' hu).1]; exact Nat.le_refl w
      rw [hw.newValue v k w x hx hle hmax, he.newValue v k w x hx hle hmax]
      exact .inl rfl
    · have hno : ∀ u x, b.values.get? (u, k) = some x → v < u := by
        intro u x hu
        apply Nat.lt_of_not_le
        intro hle
        obtain ⟨rfl, -⟩ := hb.value u k x hu
        exact hex ⟨hle, x, hu⟩
      rw [hw.oldValue v k hno, he.oldValue v k hno]
      refine h.value v k (fun u x hu => ?_)
      cases hbv : b.values.get? (u, k) with
      | none => rw [hg.values _ hbv] at hu; cases hu
      | some x' => exact hno u x' hbv
  · rw [hw.old k (hb.none_node hk)]; exact h.others k hk
  · rw [hw.oldValue v k (fun u x hx => hb.none_value hk u x hx)]; exact h.older v k hk

/-- The same when the write fails; `E` stays. -/
theorem Over.fail {F : NodeBatch} (h : Over all w R0 E R F) (hb : BatchOf all w b) (hg : Grows F b) (hw : Spec.PartlyWritten b R' R) :
    Over all w R0 E R' b := by
  refine ⟨fun k hk => ?_, fun v k hk => ?_, fun k hk => ?_, fun v k hk => ?_⟩
  · rcases hw.node k with h1 | ⟨n, h1, -⟩
    · rw [h1]; exact h.node k (hg.nodes k hk)
    · rw [hk] at h1; cases h1
  · rw [hw.value v k hk]
    refine h.value v k (fun u x hu => ?_)
    cases hbv : b.values.get? (u, k) with
    | none => rw [hg.values _ hbv] at hu; cases hu
    | some x' => exact hk u x' hbv
  · rcases hw.node k with h1 | ⟨n, h1, -⟩
    · rw [h1]; exact h.others k hk
    · exact absurd (hb.node k n h1) hk
  · rw [hw.value v k (fun u x hx => hb.none_value hk u x hx)]; exact h.older v k hk

theorem storeN_key {S : AMap NodeKey Node} {m0 : List Entry} (h : StoreN H S m0 w) (k : NodeKey) (n : Node) (hk : S.get? k = some n) :
    k.version = w ∧ k.path ≠ [] := by
  by_cases hl : m0.length ≤ 1
  · rw [h.nil hl] at hk; cases hk
  · obtain ⟨m, L, rfl⟩ : ∃ m L, m0 = m ++ [L] := by
      refine ⟨m0.dropLast, m0.getLast (by rintro rfl; simp at hl), (List.dropLast_concat_getLast _).symm⟩
    obtain ⟨e, he⟩ : ∃ e, m.getLast? = some e := by
      cases hm : m.getLast? with
      | none => rw [List.getLast?_eq_none_iff.1 hm] at hl; simp at hl
      | some e => exact ⟨e, rfl⟩
    obtain ⟨d, hg⟩ := h.last m e.1 e.2 L rfl he
    apply Classical.byContradiction
    intro hc
    rw [(hg.ok.no k (fun h => hc ⟨h.1, h.2.1⟩)).1] at hk
    cases hk

/-- The batch of the next chunk. -/
theorem prepared_batch (hr : Reached H ops y) (hb : (setsOf ops).length < 2 ^ 64) (hv : Readable ops v) (hall : SortedPairs (mapAt ops v) all)
    (hroot : getRootHash H y.store.reader v = .ok root) (hnp : NP H (entriesOf H all))
    (h : RestoreOn H checked y.store.reader v all w root r E pos whole) {n : Nat} {k : KeyHash} {x : Value} {P : RangeProof}
    (hl : ((Spec.above all pos).take (n + 1)).getLast? = some (k, x)) (hP : getRangeProof H y.store.reader k v = .ok P)
    (hprep : r.prepare H checked ((Spec.above all pos).take (n + 1)) P = (r', .ok b)) :
    b = r'.frozenNodes ∧ Grows r.frozenNodes b ∧ BatchOf all w b ∧ ∀ k n, b.nodes.get? k = some n → k.path ≠ [] := by
  obtain ⟨hasc, -, hrt, -⟩ := honest_setting hr hb hv hall hroot
  obtain ⟨z, p0, gp, p, hs⟩ := bsim_of hr hb hv hall hroot hnp h
  have hrest := bsim_rest hall hs
  have hpre : gp ++ p ++ (Spec.above all pos).take (n + 1) <+: all := by
    conv => rhs; rw [← hrest]
    exact (List.prefix_append_right_inj _).2 (List.take_prefix _ _)
  have hmem : (k, x) ∈ all := hpre.subset (List.mem_append_right _ (List.mem_of_getLast? hl))
  rw [honest_proof hr hb hv hall hmem] at hP
  cases hP
  obtain ⟨r1, h1, h2, h3⟩ := bsim_prepare (checked := checked) hasc hnp hrt hs hpre hl
  have hprep' := hprep
  rw [h1] at hprep
  obtain ⟨rfl, rfl⟩ : r1 = r' ∧ r1.frozenNodes = b := by cases hprep; exact ⟨rfl, rfl⟩
  have hb3 := h3 E false ⟨fun _ => .inl rfl, fun _ _ _ => rfl⟩ (fun h => by cases h)
  obtain ⟨hfin, hasc3⟩ := addKeys_inv _ hb3.inv.inv hb3.add (fun m hm => by cases hm)
  have hfro := hfin.frozen
  rw [(hasc3 rfl).1] at hfro
  have hg : Grows r.frozenNodes r1.frozenNodes := by
    unfold Restore.prepare at hprep'
    have hne : (Spec.above all pos).take (n + 1) ≠ [] := by intro hc; rw [hc] at hl; cases hl
    rw [if_neg hne] at hprep'
    rcases hk : Restore.addKeys H ((Spec.above all pos).take (n + 1)) r with ⟨r2, _ | u⟩
    · rw [hk] at hprep'; cases hprep'
    · rw [hk] at hprep'
      simp only [] at hprep'
      split at hprep'
      · cases hprep'
      · cases hprep'
        exact addKeys_grows _ hk
  obtain ⟨s', hs'⟩ := h2 (overlay r1.frozenNodes E) (overlay_written _ _)
  have hkey : ∀ k n, r1.frozenNodes.nodes.get? k = some n → k.version = w ∧ k.path ≠ [] := by
    intro k n hk
    have h4 := (overlay_written r1.frozenNodes E).new k n hk
    rw [(hs'.same (.inl rfl)).node k] at h4
    exact storeN_key hs'.inv.inv.nodes.store k n (Except.ok.inj h4)
  refine ⟨rfl, hg, ⟨fun k n hk => (hkey k n hk).1, fun v k x hx => ?_⟩, fun k n hk => (hkey k n hk).2⟩
  · obtain ⟨g1, y', -, g3⟩ := hfro v k x hx
    exact ⟨g1, List.mem_map.2 ⟨(k, y'), hb3.pre.subset g3, rfl⟩⟩

/-- Every restoration over something is one over nothing. -/
theorem over_of (hr : Reached H ops y) (hb : (setsOf ops).length < 2 ^ 64) (hv : Readable ops v) (hall : SortedPairs (mapAt ops v) all)
    (hroot : getRootHash H y.store.reader v = .ok root) (hnp : NP H (entriesOf H all))
    (h : RestoreOver H checked y.store.reader v all w root R0 r R pos) :
    ∃ E whole, RestoreOn H checked y.store.reader v all w root r E pos whole ∧ Over all w R0 E R r.frozenNodes := by
  have hstart : RestoreOn H checked y.store.reader v all w root (Restore.newOverwrite w root) vacantReader none true :=
    .start vacantReader_vacant (bsim_start (H := H) (all := all) vacantReader_vacant).1
  induction h with
  | start => exact ⟨_, _, hstart, ⟨fun _ _ => .inr rfl, fun _ _ _ => .inr rfl, fun _ _ => rfl, fun _ _ _ => rfl⟩⟩
  | chunk _ hl hP hprep hw ih =>
    obtain ⟨E, whole, h1, h2⟩ := ih
    obtain ⟨hbe, hg, hbo, -⟩ := prepared_batch hr hb hv hall hroot hnp h1 hl hP hprep
    exact ⟨_, _, .chunk h1 hl hP hprep (overlay_written _ E), h2.write hbo hg hw (overlay_written _ E) _⟩
  | failed _ hl hP hprep hw ih =>
    obtain ⟨E, whole, h1, h2⟩ := ih
    obtain ⟨rfl, hg, hbo, -⟩ := prepared_batch hr hb hv hall hroot hnp h1 hl hP hprep
    exact ⟨_, false, .failed h1 hl hP hprep ⟨fun _ => .inl rfl, fun _ _ _ => rfl⟩ (fun h => by cases h), h2.fail hbo hg hw⟩
  | again _ ih =>
    obtain ⟨E, whole, h1, h2⟩ := ih
    exact ⟨_, _, hstart, ⟨fun _ _ => .inr rfl, fun _ _ _ => .inr rfl, h2.others, h2.older⟩⟩

theorem lastBatch_values (h : r.lastBatch H = .ok b) : b.values = r.frozenNodes.values := by
  unfold Restore.lastBatch at h
  cases hs : r.singleLeaf with
  | some l =>
    rw [hs] at h
    simp only [] at h
    split at h
    · cases h; rfl
    · cases h
  | none =>
    rw [hs] at h
    simp only [] at h
    obtain ⟨r1, h1, h2⟩ := bind_ok_inv h
    cases h2
    obtain ⟨L, hL, -⟩ := (freeze_adds h1).self h1
    rw [hL]; rfl

end
end Jmt

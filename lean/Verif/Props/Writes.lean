import Verif.Proofs.BatchSame
import Verif.Props.Stale
/-!
# Property C41: a commit touches only nodes next to the paths of the written keys
-/
namespace Jmt
open Spec (Entry)

variable {H : Hasher} {ops : List Op} {y : Sys}

/-- `p` is the root, or the parent of `p` is on the path of a key written by `ws`. -/
def NearWritten (ws : ValueSet) (p : List Nibble) : Prop := p = [] ∨ ∃ w ∈ ws, p.dropLast <+: w.1.nibbles

theorem Run.get {infos : List StepInfo} : ∀ {V : Nat} {B m ver}, Run H V B m ver infos → NodupE m →
    (∀ q, pres m [] q → Old V (ver q)) → V + infos.length ≤ preGenesisVersion → ∀ (j : Nat) (i : StepInfo),
    infos[j]? = some i → ∃ B' m' ver', Delta H (V + j) B' m' ver' (updAll H m' i.ws) i.ver i.N i.S ∧
      Fresh (V + j) m' ver' (updAll H m' i.ws) i.ver (i.ws.map Prod.fst) (∀ w ∈ i.ws, w.2 ≠ none) (Effective m' i.ws)
        (Renewed H m' i.ws) ∧
      (∀ q, pres m' [] q → Old (V + j) (ver' q)) ∧ NodupE m' := by
  induction infos with
  | nil => intro V B m ver _ _ _ _ j i h; simp at h
  | cons i rest ih =>
    intro V B m ver hr hnd hold hle j i' h
    simp only [List.length_cons] at hle
    cases hr with
    | cons d hr hf _ =>
      cases j with
      | zero => simp at h; subst h; exact ⟨_, _, _, d, hf, hold, hnd⟩
      | succ j =>
        obtain ⟨B', m', ver', h1, h2, h3, h4⟩ := ih hr (hnd.updAll _) (by
          intro q hq
          rcases d.ver_old hold q hq with h | ⟨h4, h5 | h5⟩
          · rw [h]; exact ⟨by omega, .inl (by omega)⟩
          · exact ⟨by omega, .inl (by omega)⟩
          · have hlt : j + 1 < rest.length + 1 := by
              have := (List.getElem?_eq_some_iff.1 h).1
              simpa using this
            exact ⟨by omega, .inr h5⟩) (by omega) j i' (by simpa using h)
        rw [show V + 1 + j = V + (j + 1) by omega] at h1 h2 h3
        exact ⟨B', m', ver', h1, h2, h3, h4⟩

theorem Delta.near {V : Nat} {B m ver ver' N S} {ws : ValueSet} {ins eff : Prop} {ren : List Nibble → Prop} (d : Delta H V B m ver (updAll H m ws) ver' N S)
    (f : Fresh V m ver (updAll H m ws) ver' (ws.map Prod.fst) ins eff ren) (hold : ∀ q, pres m [] q → ver q ≠ V) :
    (∀ k n, N.get? k = some n → NearWritten ws k.path) ∧ ∀ k ∈ S, NearWritten ws k.path := by
  have key : ∀ {q : List Nibble}, (∃ k ∈ ws.map Prod.fst, q.dropLast <+: k.nibbles) → NearWritten ws q := by
    rintro q ⟨k, hk, hq⟩
    obtain ⟨w, hw, rfl⟩ := List.mem_map.1 hk
    exact .inr ⟨w, hw, hq⟩
  constructor
  · rintro ⟨w, q⟩ n hk
    obtain ⟨-, ⟨h1, h2, -⟩ | ⟨h1, -⟩⟩ := d.newKey _ _ hk
    · rcases f.near q h1 with ⟨h3, h4⟩ | h3
      · exact absurd (h4.symm.trans h2) (hold q h3)
      · exact key h3
    · exact .inl h1
  · rintro ⟨w, q⟩ hk
    obtain ⟨h1, h2, h3⟩ := (d.stale w q).1 hk
    apply Classical.byContradiction
    intro hn
    have hoff : ∀ k ∈ ws.map Prod.fst, ¬ q.dropLast <+: k.nibbles := fun k hk hq => hn (key ⟨k, hk, hq⟩)
    have hoff' : ∀ k ∈ ws.map Prod.fst, ¬ q <+: k.nibbles :=
      fun k hk hq => hoff k hk ((List.dropLast_prefix q).trans hq)
    have hp : pres (updAll H m ws) [] q := by
      obtain ⟨a, b, c⟩ := h1
      refine ⟨a, ?_, ?_⟩
      · rwa [under_updAll_of_not_prefix hoff']
      · rwa [under_updAll_of_not_prefix hoff]
    rcases f.near q hp with ⟨-, h4⟩ | ⟨k, hk, hq⟩
    · exact h3 ⟨hp, by rw [h4, h2]⟩
    · exact hoff k hk hq

theorem pres_updAll_some {ws : ValueSet} : ∀ {m : List Entry}, NodupE m → (∀ w ∈ ws, w.2 ≠ none) → ∀ {p q : List Nibble},
    pres m p q → pres (updAll H m ws) p q := by
  induction ws with
  | nil => intro m _ _ p q h; exact h
  | cons w ws ih =>
    intro m hm hw p q h
    obtain ⟨k, x⟩ := w
    cases x with
    | none => exact absurd rfl (hw _ (List.mem_cons_self ..))
    | some v =>
      show pres (updAll H (upd m k (some (H.hash v))) ws) p q
      exact ih (hm.upd _ _) (fun w h => hw w (List.mem_cons_of_mem _ h)) (pres_upd_some hm k _ h)

/-- A set of insertions retires only nodes on the paths of the written keys. -/
theorem Delta.onPath {V : Nat} {B m ver ver' N S} {ws : ValueSet} {eff : Prop} {ren : List Nibble → Prop} (hm : NodupE m)
    (d : Delta H V B m ver (updAll H m ws) ver' N S)
    (f : Fresh V m ver (updAll H m ws) ver' (ws.map Prod.fst) (∀ w ∈ ws, w.2 ≠ none) eff ren) (hw : ∀ w ∈ ws, w.2 ≠ none) :
    ∀ k ∈ S, ∃ w ∈ ws, k.path <+: w.1.nibbles := by
  rintro ⟨w, q⟩ hk
  obtain ⟨h1, h2, h3⟩ := (d.stale w q).1 hk
  apply Classical.byContradiction
  intro hn
  have hoff : ∀ k ∈ ws.map Prod.fst, ¬ q <+: k.nibbles := by
    intro k hk hq
    obtain ⟨w, hw, rfl⟩ := List.mem_map.1 hk
    exact hn ⟨w, hw, hq⟩
  have hp := pres_updAll_some (H := H) hm hw h1
  exact h3 ⟨hp, by rw [f.keep hw q h1 hp hoff, h2]⟩

theorem mem_stAll {infos : List StepInfo} : ∀ {V : Nat} {x : StaleNodeIndex}, x ∈ stAll V infos →
    ∃ (j : Nat) (i : StepInfo), infos[j]? = some i ∧ x.staleSince = V + j ∧ x.nodeKey ∈ i.S := by
  induction infos with
  | nil => intro V x h; simp [stAll] at h
  | cons i rest ih =>
    intro V x h
    rcases List.mem_append.1 h with h | h
    · obtain ⟨k, hk, rfl⟩ := List.mem_map.1 h
      exact ⟨0, i, rfl, rfl, hk⟩
    · obtain ⟨j, i', h1, h2, h3⟩ := ih h
      exact ⟨j + 1, i', by simpa using h1, by omega, h3⟩

theorem mem_foldG {infos : List StepInfo} : ∀ {V : Nat} {B m ver}, Run H V B m ver infos → ∀ {G : Nodes} {k : NodeKey} {n},
    foldG G infos k = some n → G k = some n ∨ ∃ (j : Nat) (i : StepInfo), infos[j]? = some i ∧ k.version = V + j ∧
      i.N.get? k = some n := by
  induction infos with
  | nil => intro V B m ver _ G k n h; exact .inl h
  | cons i rest ih =>
    intro V B m ver hr G k n h
    cases hr with
    | cons d hr hf _ =>
      rcases ih hr h with h1 | ⟨j, i', h1, h2, h3⟩
      · unfold overG at h1
        cases hg : i.N.get? k with
        | none => rw [hg] at h1; exact .inl h1
        | some n' =>
          rw [hg] at h1
          cases h1
          exact .inr ⟨0, i, rfl, (d.newKey _ _ hg).1, hg⟩
      · exact .inr ⟨j + 1, i', by simpa using h1, by omega, h3⟩

/-- C41: every node a commit writes for its `j`-th set carries the version of that set and sits at the root or directly
below the path of a key written by that set; likewise every node it retires; and a set of
insertions retires only nodes on the paths of the written keys. -/
theorem C41_writes_are_local (hr : Reached H ops y) (sets : List ValueSet)
    (hb : (setsOf ops).length + sets.length < 2 ^ 64) {hs b}
    (hp : putValueSets H y.store.reader sets y.next = .ok (hs, b)) :
    (∀ k n, b.nodeBatch.nodes.get? k = some n →
      ∃ j ws, sets[j]? = some ws ∧ k.version = y.next + j ∧ NearWritten ws k.path) ∧
    ∀ x ∈ b.staleNodeIndexBatch,
      ∃ j ws, sets[j]? = some ws ∧ x.staleSince = y.next + j ∧ NearWritten ws x.nodeKey.path ∧
        ((∀ w ∈ ws, w.2 ≠ none) → ∃ w ∈ ws, x.nodeKey.path <+: w.1.nibbles) := by
  obtain ⟨hn, hi⟩ := hr.inv (by omega)
  obtain ⟨ver, hready, hrun⟩ := hi.commitRun (H := H) sets
  obtain ⟨tc, pss, tc', infos, b0, b1, b2, b3, b4, -⟩ := putSets_ready (R := y.store.reader) hready false sets
    (by unfold preGenesisVersion u64Size; omega)
  obtain ⟨s', -, -, -, -, -, c5, c6, -⟩ := hrun tc' infos b2 b3 b4
  have hbe : b = tc'.finish.2 := by
    unfold putValueSets at hp
    rw [hn, b0, ok_bind, b1] at hp
    cases hp; rfl
  subst hbe
  have hold : ∀ q, pres (entriesAfter H (setsOf ops) (setsOf ops).length) [] q → Old (setsOf ops).length (ver q) := by
    intro q hq
    by_cases h : q = []
    · subst h
      have h0 : (setsOf ops).length ≠ 0 := by
        intro h0
        rw [(hready.zero h0).1] at hq
        exact not_pres_of_nil hq
      rw [hready.root]; exact ⟨by omega, .inl (by omega)⟩
    · exact hready.old q h hq
  have hget : ∀ (j : Nat) (i : StepInfo), infos[j]? = some i → sets[j]? = some i.ws := by
    intro j i h
    rw [← b2, List.getElem?_map, h]; rfl
  have hnd : NodupE (entriesAfter H (setsOf ops) (setsOf ops).length) := nodupE_of_lists (lists_entriesAfter ..)
  have hlen : (setsOf ops).length + infos.length ≤ preGenesisVersion := by
    have : infos.length = sets.length := by rw [← b2]; simp
    unfold preGenesisVersion u64Size; omega
  rw [hn]
  constructor
  · intro k n hk
    rw [c5] at hk
    rcases mem_foldG b3 hk with h | ⟨j, i, h1, h2, h3⟩
    · cases h
    · obtain ⟨B', m', ver', d, f, ho, hm'⟩ := Run.get b3 hnd hold hlen j i h1
      exact ⟨j, i.ws, hget j i h1, h2, (d.near f (fun q hq => (ho q hq).1)).1 k n h3⟩
  · intro x hx
    rw [c6] at hx
    obtain ⟨j, i, h1, h2, h3⟩ := mem_stAll hx
    obtain ⟨B', m', ver', d, f, ho, hm'⟩ := Run.get b3 hnd hold hlen j i h1
    exact ⟨j, i.ws, hget j i h1, h2, (d.near f (fun q hq => (ho q hq).1)).2 _ h3, fun hw => d.onPath hm' f hw _ h3⟩

/-- C41 applies to the sample history and a set that inserts one key and deletes another. -/
example (H : Hasher) : ∃ y hs b, Reached H Sample.ops y ∧
    putValueSets H y.store.reader [[(Sample.key 0x82, some [9]), (Sample.key 0x10, none)]] y.next = .ok (hs, b) ∧
    ∀ k n, b.nodeBatch.nodes.get? k = some n → NearWritten [(Sample.key 0x82, some [9]), (Sample.key 0x10, none)] k.path := by
  obtain ⟨y, hy⟩ := Sample.reached H
  obtain ⟨⟨hs, b, -, hp, -⟩, -⟩ := C13_commit_never_fails hy [[(Sample.key 0x82, some [9]), (Sample.key 0x10, none)]] (by decide)
  refine ⟨y, hs, b, hy, hp, fun k n hk => ?_⟩
  obtain ⟨j, ws, hj, -, hn⟩ := (C41_writes_are_local hy _ (by decide) hp).1 k n hk
  cases j with
  | zero => cases hj; exact hn
  | succ j => simp at hj

end Jmt

import Verif.Proofs.UpdateStep
import Verif.Props.Stale
import Verif.Spec.LightClient
/-!
# Properties C16 and C17: update proofs
-/
namespace Jmt
open Spec (Lists)

variable {H : Hasher} {ops : List Op} {y : Sys}

theorem ProofSets.get {m : List Spec.Entry} {sets : List ValueSet} {pss : List (List SMProof)}
    (h : ProofSets H m sets pss) : pss.length = sets.length ∧ ∀ j vs ps, sets[j]? = some vs → pss[j]? = some ps →
      ProofsFor H ((sets.take j).foldl (updAll H) m) vs ps := by
  induction h with
  | nil m => exact ⟨rfl, by intro j vs ps h; simp at h⟩
  | cons h1 _ ih =>
    refine ⟨by simp [ih.1], fun j vs ps hv hp => ?_⟩
    cases j with
    | zero =>
      simp only [List.getElem?_cons_zero, Option.some.injEq] at hv hp
      subst hv; subst hp
      simpa using h1
    | succ j =>
      simp only [List.getElem?_cons_succ] at hv hp
      simpa using ih.2 j vs ps hv hp

/-- C16: `put_value_sets_with_proof` succeeds on every reachable store; it returns the same root hashes and
the same batch as `put_value_sets`, and for each value set a list of proofs that `verify_update` accepts: from the
root of the map before the set to the returned root, which is the root of the map after it.  This holds with and without
overflow checks. -/
theorem C16_update_proofs_complete (hr : Reached H ops y) (sets : List ValueSet)
    (hb : (setsOf ops).length + sets.length < 2 ^ 64) (checked : Bool) :
    ∃ res b, putValueSetsWithProof H y.store.reader sets y.next = .ok (res, b) ∧ res.length = sets.length ∧
      putValueSets H y.store.reader sets y.next = .ok (res.map Prod.fst, b) ∧
      ∀ j vs newRoot proofs, sets[j]? = some vs → res[j]? = some (newRoot, proofs) →
        ∀ es es', Lists H (Spec.stateAfter Spec.Map.empty (setsOf ops ++ sets) (y.next + j)) es →
          Lists H (Spec.stateAfter Spec.Map.empty (setsOf ops ++ sets) (y.next + j + 1)) es' →
          newRoot = Spec.root H es' ∧
          SMProof.verifyUpdate H checked proofs (Spec.root H es) newRoot vs = .ok () := by
  obtain ⟨hn, hi⟩ := hr.inv (by omega)
  obtain ⟨tc, pss, tc', s', infos, a0, a1, -, a3, a4, a5, -⟩ := hi.commit' true sets
    (by unfold preGenesisVersion u64Size; omega)
  rw [← hn] at a0 a1
  obtain ⟨pss', a1'⟩ := putSets_sim sets y.next a1
  have hsets := ProofSets.get (a4 rfl)
  have hlen : tc'.finish.1.length = sets.length := by rw [a3.hashes]; simp
  refine ⟨tc'.finish.1.zip pss, tc'.finish.2, ?_, by simp [hlen, a5], ?_, ?_⟩
  · unfold putValueSetsWithProof
    simp only [a0, ok_bind, a1]
  · unfold putValueSets
    rw [List.map_fst_zip (by omega)]
    simp only [a0, ok_bind, a1']
  · intro j vs newRoot proofs hv hres es es' hes hes'
    obtain ⟨g1, g2⟩ := List.getElem?_zip_eq_some.1 hres
    have hj : j < sets.length := (List.getElem?_eq_some_iff.1 hv).1
    have hroot : newRoot = sh H (entriesAfter H (setsOf ops ++ sets) ((setsOf ops).length + j + 1)) [] := by
      rw [a3.hashes] at g1
      simp only [List.getElem?_map, List.getElem?_range hj, Option.map_some, Option.some.injEq] at g1
      exact g1.symm
    have hp := hsets.2 j vs proofs hv g2
    rw [← entriesAfter_append] at hp
    have h1 := verifyUpdate_put checked hp (entriesAfter_nodup _ _ _)
    have hnew : updAll H (entriesAfter H (setsOf ops ++ sets) ((setsOf ops).length + j)) vs
        = entriesAfter H (setsOf ops ++ sets) ((setsOf ops).length + j + 1) := by
      rw [show (setsOf ops).length + j + 1 = (setsOf ops).length + (j + 1) from rfl,
        entriesAfter_append, entriesAfter_append, List.take_add_one, hv, List.foldl_append]
      rfl
    rw [hnew] at h1
    rw [hn] at hes hes'
    have p1 := root_perm (H := H) (lists_perm (lists_entriesAfter H _ _) hes)
    have p2 := root_perm (H := H) (lists_perm (lists_entriesAfter H _ _) hes')
    rw [← root_eq_sh, ← root_eq_sh, p1, p2] at h1
    rw [← root_eq_sh, p2] at hroot
    exact ⟨hroot, by rw [hroot]; exact h1⟩

/-- The hypotheses are met: a split, an overwrite, a delete that coalesces, a no-op delete. -/
example : ∃ y res b, Reached H Sample.ops y ∧
    putValueSetsWithProof H y.store.reader
      [[(Sample.key 0x11, some [7]), (Sample.key 0x10, some [8])], [(Sample.key 0x11, none), (Sample.key 0x77, none)]]
      y.next = .ok (res, b) ∧ res.length = 2 := by
  obtain ⟨y, hy⟩ := Sample.reached H
  obtain ⟨res, b, h1, h2, -⟩ := C16_update_proofs_complete hy
    [[(Sample.key 0x11, some [7]), (Sample.key 0x10, some [8])], [(Sample.key 0x11, none), (Sample.key 0x77, none)]]
    (by decide) true
  exact ⟨y, res, b, hy, h1, h2⟩

/-- C17, the part that holds: an accepted update leads to the root of the updated map, unless a hash collision is met, if
overflow checks are on (or the guards hold) and every delete that comes with a proof without leaf is of an absent
key.  Missing for the full C17: these two conditions, see the counterexamples below. -/
theorem C17_update_sound_partial (checked : Bool) (updates : List (KeyHash × Option Value)) :
    ∀ (Ps : List SMProof) {s : Spec.Map} {es es'} {newRoot : Digest}, Lists H s es →
      Lists H (s.writes updates) es' →
      (∀ j k x P, updates[j]? = some (k, x) → Ps[j]? = some P →
        UpdateGuard checked P k x ∧
        (x = none → P.leaf = none → (s.writes (updates.take j)) k = none) ∧
        ∀ em, Lists H (s.writes (updates.take j)) em →
          Spec.NoCollision H (Spec.treeStrings H em ++ Spec.updateStrings H P k)) →
      SMProof.verifyUpdate H checked Ps (Spec.root H es) newRoot updates = .ok () →
      newRoot = Spec.root H es' := by
  intro Ps s es es' newRoot hl hl' hcond hok
  unfold SMProof.verifyUpdate at hok
  split at hok
  · cases hok
  · next hlen =>
    have hlen : updates.length = Ps.length := by simpa using hlen
    obtain ⟨r, h1, h2⟩ := bind_ok_inv hok
    have hr : r = newRoot := by
      by_cases hc : r = newRoot
      · exact hc
      · rw [if_pos hc] at h2; cases h2
    subst hr
    clear hok h2
    induction updates generalizing Ps s es with
    | nil =>
      cases Ps with
      | cons P Ps => simp at hlen
      | nil =>
        unfold SMProof.updateLoop at h1
        simp only [Except.ok.injEq] at h1
        rw [← h1]
        exact root_perm (lists_perm hl hl')
    | cons u us ih =>
      obtain ⟨k, x⟩ := u
      cases Ps with
      | nil => simp at hlen
      | cons P Ps =>
        unfold SMProof.updateLoop at h1
        obtain ⟨r1, a1, h1⟩ := bind_ok_inv h1
        obtain ⟨c1, c2, c3⟩ := hcond 0 k x P rfl rfl
        have hs0 : s.writes (((k, x) :: us).take 0) = s := rfl
        rw [hs0] at c2 c3
        rw [root_eq_sh] at a1
        have hstep := checkComputeNewRoot_sound hl.nodup a1 c1 (fun hx hp e he hek => by
          have hk := c2 hx hp
          obtain ⟨v, hv, -⟩ := (hl.mem e.1 e.2).1 he
          rw [hek, hk] at hv; cases hv) (c3 es hl)
        rw [← root_eq_sh] at hstep
        rw [hstep] at h1
        refine ih Ps (s := s.write (k, x)) (lists_upd hl k x) hl' ?_ (by simpa using hlen) (by simpa using hlen) h1
        intro j k' x' P' hj hj'
        exact hcond (j + 1) k' x' P' (by simpa using hj) (by simpa using hj')

/-- The updates a list of proofs speaks about: a delete whose proof has no leaf proves nothing and is skipped. -/
def Spec.provenUpdates : List (KeyHash × Option Value) → List SMProof → List (KeyHash × Option Value)
  | (k, x) :: us, P :: Ps =>
    if x = none ∧ P.leaf = none then Spec.provenUpdates us Ps else (k, x) :: Spec.provenUpdates us Ps
  | _, _ => []

/-- C17, what acceptance means in general: with overflow checks (or the guards) an accepted update leads from the root of a map to
the root of the map with the updates applied, except that deletes whose proof has no leaf are taken as no-ops.  No hypothesis on the
proofs is needed besides the guards. -/
theorem C17_accepted_update_exact (checked : Bool) (updates : List (KeyHash × Option Value)) :
    ∀ (Ps : List SMProof) {s : Spec.Map} {es es'} {newRoot : Digest}, Lists H s es →
      Lists H (s.writes (Spec.provenUpdates updates Ps)) es' →
      (∀ j k x P, updates[j]? = some (k, x) → Ps[j]? = some P →
        UpdateGuard checked P k x ∧
        ∀ em, Lists H (s.writes (Spec.provenUpdates (updates.take j) (Ps.take j))) em →
          Spec.NoCollision H (Spec.treeStrings H em ++ Spec.updateStrings H P k)) →
      SMProof.verifyUpdate H checked Ps (Spec.root H es) newRoot updates = .ok () →
      newRoot = Spec.root H es' := by
  intro Ps s es es' newRoot hl hl' hcond hok
  unfold SMProof.verifyUpdate at hok
  split at hok
  · cases hok
  · next hlen =>
    have hlen : updates.length = Ps.length := by simpa using hlen
    obtain ⟨r, h1, h2⟩ := bind_ok_inv hok
    have hr : r = newRoot := by
      by_cases hc : r = newRoot
      · exact hc
      · rw [if_pos hc] at h2; cases h2
    subst hr
    clear hok h2
    induction updates generalizing Ps s es with
    | nil =>
      cases Ps with
      | cons P Ps => simp at hlen
      | nil =>
        unfold SMProof.updateLoop at h1
        simp only [Except.ok.injEq] at h1
        rw [← h1]
        exact root_perm (lists_perm hl hl')
    | cons u us ih =>
      obtain ⟨k, x⟩ := u
      cases Ps with
      | nil => simp at hlen
      | cons P Ps =>
        unfold SMProof.updateLoop at h1
        obtain ⟨r1, a1, h1⟩ := bind_ok_inv h1
        obtain ⟨c1, c3⟩ := hcond 0 k x P rfl rfl
        have hs0 : s.writes (Spec.provenUpdates (((k, x) :: us).take 0) ((P :: Ps).take 0)) = s := rfl
        rw [hs0] at c3
        rw [root_eq_sh] at a1
        by_cases hskip : x = none ∧ P.leaf = none
        · have hr1 : r1 = Spec.root H es := by
            rw [hskip.1] at a1
            unfold SMProof.checkComputeNewRoot at a1
            simp only [hskip.2, Except.ok.injEq] at a1
            rw [← a1, root_eq_sh]
          rw [hr1] at h1
          have hpu : ∀ n, Spec.provenUpdates (((k, x) :: us).take (n + 1)) ((P :: Ps).take (n + 1))
              = Spec.provenUpdates (us.take n) (Ps.take n) := by
            intro n
            simp only [List.take_succ_cons, Spec.provenUpdates, if_pos hskip]
          rw [show Spec.provenUpdates ((k, x) :: us) (P :: Ps) = Spec.provenUpdates us Ps by
            simp only [Spec.provenUpdates, if_pos hskip]] at hl'
          refine ih Ps hl hl' ?_ (by simpa using hlen) (by simpa using hlen) h1
          intro j k' x' P' hj hj'
          have := hcond (j + 1) k' x' P' (by simpa using hj) (by simpa using hj')
          rw [hpu] at this
          exact this
        · have hstep := checkComputeNewRoot_sound hl.nodup a1 c1
            (fun hx hp _ _ _ => absurd ⟨hx, hp⟩ hskip) (c3 es hl)
          rw [← root_eq_sh] at hstep
          rw [hstep] at h1
          have hpu : ∀ n, Spec.provenUpdates (((k, x) :: us).take (n + 1)) ((P :: Ps).take (n + 1))
              = (k, x) :: Spec.provenUpdates (us.take n) (Ps.take n) := by
            intro n
            simp only [List.take_succ_cons, Spec.provenUpdates, if_neg hskip]
          rw [show Spec.provenUpdates ((k, x) :: us) (P :: Ps) = (k, x) :: Spec.provenUpdates us Ps by
            simp only [Spec.provenUpdates, if_neg hskip]] at hl'
          refine ih Ps (s := s.write (k, x)) (lists_upd hl k x) hl' ?_ (by simpa using hlen) (by simpa using hlen) h1
          intro j k' x' P' hj hj'
          have := hcond (j + 1) k' x' P' (by simpa using hj) (by simpa using hj')
          rw [hpu] at this
          exact this

namespace Sample

theorem ok_of {e : Except Err Unit} (h : (match e with | .ok _ => true | .error _ => false) = true) : e = .ok () := by
  cases e with
  | ok u => rfl
  | error e => simp at h

/-- The two-key map after overwriting one key. -/
def es3 : List Spec.Entry := [(key 0x10, toy [9]), (key 0x80, toy [3])]

theorem lists3 : Lists T (s2.write (key 0x10, some [9])) (upd es2 (key 0x10) (some (toy [9]))) := by
  have := lists_upd lists2 (key 0x10) (some [9])
  simpa [T, Hasher.hash, Hasher.ofDigest] using this

end Sample

/-- The hypotheses of the partial soundness theorem can be met: an overwrite in a two-key map. -/
example : SMProof.verifyUpdate Sample.T false [Sample.proof10] (Spec.root Sample.T Sample.es2)
      (Spec.root Sample.T (upd Sample.es2 (Sample.key 0x10) (some (Sample.toy [9])))) [(Sample.key 0x10, some [9])] = .ok () ∧
    UpdateGuard false Sample.proof10 (Sample.key 0x10) (some [9]) ∧
    Spec.NoCollision Sample.T (Spec.treeStrings Sample.T Sample.es2 ++
      Spec.updateStrings Sample.T Sample.proof10 (Sample.key 0x10)) := by
  refine ⟨Sample.ok_of (by decide +kernel), .inr ⟨by decide, by simp, ?_⟩, by decide +kernel, by decide +kernel⟩
  intro l hl
  simp only [Sample.proof10, Option.some.injEq] at hl
  subst hl
  decide +kernel

/-- The false delete below is an instance: it is accepted as a no-op, and what it proves is that nothing changed. -/
example : Spec.provenUpdates [(Sample.key 0x10, none)] [⟨none, []⟩] = [] ∧
    SMProof.verifyUpdate Sample.T true [⟨none, []⟩] (Spec.root Sample.T Sample.es2) (Spec.root Sample.T Sample.es2)
      [(Sample.key 0x10, none)] = .ok () ∧
    UpdateGuard true ⟨none, []⟩ (Sample.key 0x10) none ∧
    Spec.NoCollision Sample.T (Spec.treeStrings Sample.T Sample.es2 ++ Spec.updateStrings Sample.T ⟨none, []⟩ (Sample.key 0x10)) :=
  ⟨rfl, Sample.ok_of (by decide +kernel), .inl rfl, by decide +kernel, by decide +kernel⟩

/-- C17 fails: a delete of a present key is accepted with an empty proof, with the old root as new root.  (No
collision is involved.) -/
theorem C17_false_for_deletes : ∃ (f : List UInt8 → Digest) (s : Spec.Map) (es es' : List Spec.Entry) (k : KeyHash),
    Lists (.ofDigest f) s es ∧ Lists (.ofDigest f) (s.write (k, none)) es' ∧ s k ≠ none ∧
    Spec.NoCollision (.ofDigest f) (Spec.treeStrings (.ofDigest f) es ++ Spec.treeStrings (.ofDigest f) es' ++
      Spec.updateStrings (.ofDigest f) ⟨none, []⟩ k) ∧
    (∀ checked, SMProof.verifyUpdate (.ofDigest f) checked [⟨none, []⟩] (Spec.root (.ofDigest f) es)
      (Spec.root (.ofDigest f) es) [(k, none)] = .ok ()) ∧
    Spec.root (.ofDigest f) es ≠ Spec.root (.ofDigest f) es' := by
  refine ⟨Sample.toy, Sample.s2, Sample.es2, upd Sample.es2 (Sample.key 0x10) none, Sample.key 0x10, Sample.lists2,
    lists_upd Sample.lists2 _ none, by decide, ⟨by decide +kernel, by decide +kernel⟩, ?_, by decide +kernel⟩
  intro checked
  cases checked <;> exact Sample.ok_of (by decide +kernel)

/-- C17 fails without overflow checks (release builds): inserting a key with the proof of an unrelated leaf is accepted, and the new
root is that of a map that has lost the unrelated leaf. -/
theorem C17_false_without_overflow_checks : ∃ (f : List UInt8 → Digest) (s : Spec.Map) (es es' : List Spec.Entry)
    (k : KeyHash) (x : Value) (P : SMProof) (newRoot : Digest),
    Lists (.ofDigest f) s es ∧ Lists (.ofDigest f) (s.write (k, some x)) es' ∧ P.siblings.length ≤ 256 ∧
    Spec.NoCollision (.ofDigest f) (Spec.treeStrings (.ofDigest f) es ++ Spec.treeStrings (.ofDigest f) es' ++
      Spec.updateStrings (.ofDigest f) P k) ∧
    SMProof.verifyUpdate (.ofDigest f) false [P] (Spec.root (.ofDigest f) es) newRoot [(k, some x)] = .ok () ∧
    newRoot ≠ Spec.root (.ofDigest f) es' := by
  refine ⟨Sample.toy, Sample.s2, Sample.es2, upd Sample.es2 (Sample.key 0x81) (some (Sample.T.hash [6])), Sample.key 0x81, [6],
    Sample.proof10, Sample.T.internalHash (Sample.T.leafHash (Sample.key 0x80) (Sample.toy [3]))
      (Sample.T.leafHash (Sample.key 0x81) (Sample.toy [6])), Sample.lists2,
    lists_upd Sample.lists2 _ (some [6]), by decide, ⟨by decide +kernel, by decide +kernel⟩,
    Sample.ok_of (by decide +kernel), by decide +kernel⟩

/-- C17 fails without overflow checks also for deletes with more than 256 siblings: none of them is checked, yet the first
becomes the new root. -/
theorem C17_false_for_long_proofs : ∃ (f : List UInt8 → Digest) (s : Spec.Map) (es es' : List Spec.Entry)
    (k : KeyHash) (P : SMProof) (newRoot : Digest),
    Lists (.ofDigest f) s es ∧ Lists (.ofDigest f) (s.write (k, none)) es' ∧ (∃ v, P.leaf = some (k, v)) ∧
    SMProof.verifyUpdate (.ofDigest f) false [P] (Spec.root (.ofDigest f) es) newRoot [(k, none)] = .ok () ∧
    newRoot ≠ Spec.root (.ofDigest f) es' := by
  have hl : Lists Sample.T (Spec.Map.empty.write (Sample.key 0x10, some [4])) (upd [] (Sample.key 0x10) (some (Sample.T.hash [4]))) :=
    lists_upd ⟨by simp, by simp [Spec.Map.empty]⟩ _ (some [4])
  exact ⟨Sample.toy, _, _, _, Sample.key 0x10,
    ⟨some (Sample.key 0x10, Sample.T.hash [4]), .leaf (Sample.key 0x80) (Sample.toy [3]) :: List.replicate 256 .null⟩,
    Sample.T.leafHash (Sample.key 0x80) (Sample.toy [3]), hl, lists_upd hl (Sample.key 0x10) none, ⟨_, rfl⟩,
    Sample.ok_of (by decide +kernel), by decide +kernel⟩

/-- With overflow checks `verify_update` panics, instead of returning an error, on such proofs. -/
theorem C17_panics_on_bad_proofs : ∃ (f : List UInt8 → Digest) (s : Spec.Map) (es : List Spec.Entry)
    (k : KeyHash) (x : Value) (P : SMProof) (msg : String), Lists (.ofDigest f) s es ∧
    ∀ newRoot, SMProof.verifyUpdate (.ofDigest f) true [P] (Spec.root (.ofDigest f) es) newRoot [(k, some x)]
      = .error (.panic msg) := by
  have key : ∃ msg, SMProof.updateLoop Sample.T true [Sample.proof10] [(Sample.key 0x81, some [6])] (Spec.root Sample.T Sample.es2)
      = .error (.panic msg) := by
    have h : (match SMProof.updateLoop Sample.T true [Sample.proof10] [(Sample.key 0x81, some [6])] (Spec.root Sample.T Sample.es2)
        with | .error (.panic _) => true | _ => false) = true := by decide +kernel
    split at h
    · next heq => exact ⟨_, heq⟩
    · cases h
  obtain ⟨msg, hmsg⟩ := key
  refine ⟨Sample.toy, Sample.s2, Sample.es2, Sample.key 0x81, [6], Sample.proof10, msg, Sample.lists2, fun newRoot => ?_⟩
  unfold SMProof.verifyUpdate
  rw [if_neg (by simp), hmsg]
  rfl

end Jmt

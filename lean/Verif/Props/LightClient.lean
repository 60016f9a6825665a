import Verif.Spec.LightClient
import Verif.Props.Update
import Verif.Props.Sound
import Verif.Props.Restore
/-!
# Property C58: a light client that holds one root hash follows a full node
-/
namespace Jmt
open Spec (Lists)

variable {H : Hasher} {base ops : List Op} {y0 y : Sys} {ms : List Msg}

theorem follow_append {checked : Bool} {ms' : List Msg} : ∀ {ms : List Msg} {r : Digest},
    follow H checked r (ms ++ ms') = (follow H checked r ms >>= fun r' => follow H checked r' ms') := by
  intro ms
  induction ms with
  | nil => intro r; rfl
  | cons m ms ih =>
    intro r
    show (SMProof.verifyUpdate H checked m.proofs r m.newRoot m.updates >>= fun _ => follow H checked m.newRoot (ms ++ ms')) =
      ((SMProof.verifyUpdate H checked m.proofs r m.newRoot m.updates >>= fun _ => follow H checked m.newRoot ms) >>= _)
    cases SMProof.verifyUpdate H checked m.proofs r m.newRoot m.updates with
    | error e => rfl
    | ok u => exact ih

/-- A list of messages each accepted from the root before it is followed to the end. -/
theorem follow_messages {checked : Bool} : ∀ (sets : List ValueSet) (res : List (Digest × List SMProof)) (A : Nat → Digest),
    res.length = sets.length →
    (∀ j vs newRoot proofs, sets[j]? = some vs → res[j]? = some (newRoot, proofs) →
      newRoot = A (j + 1) ∧ SMProof.verifyUpdate H checked proofs (A j) newRoot vs = .ok ()) →
    follow H checked (A 0) (messages sets res) = .ok (A sets.length) := by
  intro sets
  induction sets with
  | nil => intro res A _ _; rfl
  | cons vs sets ih =>
    intro res A hlen h
    cases res with
    | nil => simp at hlen
    | cons p res =>
      obtain ⟨nr, ps⟩ := p
      obtain ⟨h1, h2⟩ := h 0 vs nr ps rfl rfl
      show (SMProof.verifyUpdate H checked ps (A 0) nr vs >>= fun _ => follow H checked nr (messages sets res)) = _
      rw [h2, ok_bind, h1]
      exact ih res (fun j => A (j + 1)) (by simpa using hlen) fun j vs' nr' ps' g1 g2 => h (j + 1) vs' nr' ps' (by simpa using g1) (by simpa using g2)

theorem setsOf_serves (h : Serves H base y0 ops y ms) : ∃ more, setsOf ops = setsOf base ++ more := by
  induction h with
  | start => exact ⟨[], by simp⟩
  | purge r _ _ ih => obtain ⟨m, hm⟩ := ih; exact ⟨m, by rw [setsOf_append, hm]; simp [setsOf]⟩
  | commit sets _ _ _ ih => obtain ⟨m, hm⟩ := ih; exact ⟨m ++ sets, by rw [setsOf_append, hm]; simp [setsOf]⟩

/-- The full node is in a reachable state. -/
theorem Serves.reached (h : Serves H base y0 ops y ms) (h0 : Reached H base y0) (hb : (setsOf ops).length < 2 ^ 64) :
    Reached H ops y := by
  induction h with
  | start => exact h0
  | purge r _ hp ih =>
    rw [setsOf_append] at hb
    simp [setsOf] at hb
    obtain ⟨s', a1, a2⟩ := (ih hb).purge r (by omega)
    rw [hp] at a1; cases a1; exact a2
  | commit sets _ hp hw ih =>
    rw [setsOf_append] at hb
    simp [setsOf] at hb
    have hr := ih (by omega)
    obtain ⟨res', b', a1, -, a3, -⟩ := C16_update_proofs_complete hr sets (by omega) true
    rw [hp] at a1; cases a1
    obtain ⟨hs, b, s', c1, c2, -, -, c5⟩ := hr.commit sets (by omega)
    rw [a3] at c1; cases c1
    rw [hw] at c2; cases c2
    exact c5

/-- C58, liveness: a client that holds the root hash of the map at some point of a history accepts everything a full node
sends from then on, whatever it commits and prunes, and then holds the root hash of the node's latest map. -/
theorem C58_client_follows (h : Serves H base y0 ops y ms) (h0 : Reached H base y0) (hb : (setsOf ops).length < 2 ^ 64)
    (checked : Bool) {es es'} (hes : Lists H (latestMap (setsOf base)) es) (hes' : Lists H (latestMap (setsOf ops)) es') :
    follow H checked (Spec.root H es) ms = .ok (Spec.root H es') := by
  induction h generalizing es' with
  | start =>
    rw [root_perm (lists_perm hes hes')]; rfl
  | purge r _ hp ih =>
    rw [setsOf_append] at hb hes'
    simp [setsOf] at hb hes'
    exact ih hb hes'
  | @commit ops y ms s' res b sets hs hp hw ih =>
    rw [setsOf_append] at hb hes'
    simp only [setsOf, List.append_nil] at hb hes'
    rw [List.length_append] at hb
    have hr := hs.reached h0 (by omega)
    obtain ⟨hn, -⟩ := hr.inv (by omega)
    obtain ⟨res', b', a1, a2, -, a4⟩ := C16_update_proofs_complete hr sets hb checked
    rw [hp] at a1; cases a1
    have ih := ih (by omega) (lists_entriesAfter H (setsOf ops) (setsOf ops).length)
    rw [follow_append, ih, ok_bind]
    let A : Nat → Digest := fun j => Spec.root H (entriesAfter H (setsOf ops ++ sets) (y.next + j))
    have hA0 : A 0 = Spec.root H (entriesAfter H (setsOf ops) (setsOf ops).length) := by
      show Spec.root H (entriesAfter H (setsOf ops ++ sets) (y.next + 0)) = _
      rw [hn, entriesAfter_append]
      rfl
    have hAn : A sets.length = Spec.root H es' := by
      show Spec.root H (entriesAfter H (setsOf ops ++ sets) (y.next + sets.length)) = _
      refine root_perm (lists_perm (lists_entriesAfter H _ _) ?_)
      unfold latestMap at hes'
      rw [List.length_append, ← hn] at hes'
      exact hes'
    rw [← hA0, ← hAn]
    exact follow_messages sets res A a2 fun j vs nr ps g1 g2 =>
      a4 j vs nr ps g1 g2 _ _ (lists_entriesAfter H _ _) (lists_entriesAfter H _ _)

/-- The full node is never stuck: it can serve every further history of commits and prunings. -/
theorem C58_node_serves (h0 : Reached H base y0) (more : List Op) (hnb : ∀ sets, Op.batch sets ∉ more)
    (hb : (setsOf (base ++ more)).length < 2 ^ 64) : ∃ y ms, Serves H base y0 (base ++ more) y ms := by
  induction more using list_snoc_ind with
  | h0 => exact ⟨y0, [], by rw [List.append_nil]; exact .start⟩
  | h1 more op ih =>
    rw [← List.append_assoc] at hb ⊢
    rw [setsOf_append] at hb
    rw [List.length_append] at hb
    obtain ⟨y, ms, h⟩ := ih (fun sets hm => hnb sets (by simp [hm])) (by omega)
    have hr := h.reached h0 (by omega)
    cases op with
    | batch sets => exact absurd (by simp) (hnb sets)
    | purge r =>
      obtain ⟨s', a1, -⟩ := hr.purge r (by omega)
      exact ⟨_, _, .purge r h a1⟩
    | commit sets =>
      simp only [setsOf, List.append_nil] at hb
      obtain ⟨-, hps, b, s', a1, a2⟩ := C13_commit_never_fails hr sets (by omega)
      exact ⟨_, _, .commit sets h a1 a2⟩

/-- C58, reads: a client that followed the node to its latest version holds the root hash the node answers with, and
accepts the node's answer to every query of that version. -/
theorem C58_client_checks_reads (h : Serves H base y0 ops y ms) (h0 : Reached H base y0)
    (hb : (setsOf ops).length < 2 ^ 64) (checked : Bool) {es r} (hes : Lists H (latestMap (setsOf base)) es)
    (hr : follow H checked (Spec.root H es) ms = .ok r) (hne : 0 < y.next) :
    getRootHash H y.store.reader (y.next - 1) = .ok r ∧
    ∀ k, ∃ P, getWithProof H y.store.reader k (y.next - 1) = .ok (latestMap (setsOf ops) k, P) ∧
      P.verify H r k (latestMap (setsOf ops) k) = .ok () := by
  have hy := h.reached h0 hb
  obtain ⟨hn, hi⟩ := hy.inv hb
  rw [C58_client_follows h h0 hb checked hes (lists_entriesAfter H (setsOf ops) (setsOf ops).length)] at hr
  have hv : Readable ops (y.next - 1) := ⟨by have := horizon_le hy hb; omega, by omega⟩
  have hm : mapAt ops (y.next - 1) = latestMap (setsOf ops) := by
    unfold mapAt latestMap
    rw [show y.next - 1 + 1 = (setsOf ops).length by omega]
  have ra := hy.readAt hb hv
  cases hr
  have hl := lists_entriesAfter H (setsOf ops) (setsOf ops).length
  have hroot := (C03_root_hash_canonical hy hb hv (es := entriesAfter H (setsOf ops) (setsOf ops).length) (by rw [hm]; exact hl)).1
  refine ⟨hroot, fun k => ?_⟩
  cases hx : mapAt ops (y.next - 1) k with
  | some x =>
    obtain ⟨P, r, a1, a2, a3⟩ := C04_existence_complete hy hb hv hx
    rw [hroot] at a2; cases a2
    rw [← hm, hx]
    exact ⟨P, a1, a3⟩
  | none =>
    obtain ⟨P, r, a1, a2, a3⟩ := C05_nonexistence_complete hy hb hv hx
    rw [hroot] at a2; cases a2
    rw [← hm, hx]
    exact ⟨P, a1, a3⟩

/-- C58, safety: if a client that holds the root hash of a map accepts messages of any origin, it ends with the root hash of
the map after exactly the updates in the messages. -/
theorem C58_client_not_misled (checked : Bool) : ∀ (ms : List Msg) {s : Spec.Map} {es es'} {r : Digest}, Lists H s es →
    Lists H (s.afterMsgs ms) es' → FairMsgs H checked s ms → follow H checked (Spec.root H es) ms = .ok r →
    r = Spec.root H es' := by
  intro ms
  induction ms with
  | nil =>
    intro s es es' r hl hl' _ h
    cases h
    exact root_perm (lists_perm hl hl')
  | cons m ms ih =>
    intro s es es' r hl hl' hf h
    obtain ⟨u, h1, h2⟩ := bind_ok_inv (show (SMProof.verifyUpdate H checked m.proofs (Spec.root H es) m.newRoot m.updates >>=
      fun _ => follow H checked m.newRoot ms) = .ok r from h)
    have hl1 : Lists H (s.writes m.updates) (updAll H es m.updates) := lists_updAll m.updates hl
    have := C17_update_sound_partial checked m.updates m.proofs hl hl1 hf.1 h1
    rw [this] at h2
    exact ih hl1 hl' hf.2 h2

/-- C58, safety of reads: such a client accepts an existence or non-existence claim, from anybody, only if it is true of
the map after the updates it accepted (values up to their hash). -/
theorem C58_client_reads_sound (checked : Bool) {s : Spec.Map} {es es'} {r : Digest} (hl : Lists H s es)
    (hl' : Lists H (s.afterMsgs ms) es') (hf : FairMsgs H checked s ms)
    (h : follow H checked (Spec.root H es) ms = .ok r) (P : SMProof) (k : KeyHash) (claim : Option Value)
    (hnc : Spec.NoCollision H (Spec.treeStrings H es' ++ Spec.proofStrings H P k))
    (hv : P.verify H r k claim = .ok ()) : ((s.afterMsgs ms) k).map H.hash = claim.map H.hash := by
  rw [C58_client_not_misled checked ms hl hl' hf h] at hv
  cases claim with
  | some x =>
    obtain ⟨z, h1, h2⟩ := C06_existence_sound hl' P k x hnc hv
    rw [h1]; simp [h2]
  | none =>
    rw [C07_nonexistence_sound hl' P k hnc hv]

/-- A client of a node with no history starts from the placeholder root and follows five versions with a pruning between. -/
example : ∃ y0 y ms, Reached H [] y0 ∧ Serves H [] y0
      ([] ++ [.commit [[(Sample.key 0x10, some [1]), (Sample.key 0x80, some [3])]],
        .commit [[(Sample.key 0x10, some [4])], [(Sample.key 0x80, none)]], .purge 2, .commit [[], [(Sample.key 0x11, some [9])]]]) y ms ∧
      follow H false placeholder ms = getRootHash H y.store.reader 4 := by
  have h0 : Reached H [] ⟨Store.new false, 0⟩ := ⟨false, rfl⟩
  obtain ⟨y, ms, h⟩ := C58_node_serves h0
    [.commit [[(Sample.key 0x10, some [1]), (Sample.key 0x80, some [3])]],
        .commit [[(Sample.key 0x10, some [4])], [(Sample.key 0x80, none)]], .purge 2, .commit [[], [(Sample.key 0x11, some [9])]]]
    (by intro sets h; simp at h) (by decide)
  refine ⟨_, y, ms, h0, h, ?_⟩
  have hl : Lists H (latestMap (setsOf [])) [] := lists_entriesAfter H [] 0
  obtain ⟨hn, -⟩ := (h.reached h0 (by decide)).inv (by decide)
  have hn : y.next = 5 := by rw [hn]; rfl
  have hf := C58_client_follows h h0 (by decide) false hl (lists_entriesAfter H _ _)
  have := (C58_client_checks_reads h h0 (by decide) false hl hf (by omega)).1
  rw [hn] at this
  rw [this]
  exact hf

/-- The hypotheses of the safety theorems can be met: the client holds the root of a two-key map and is sent an overwrite, then
checks a read of the new value. -/
example : Lists Sample.T Sample.s2 Sample.es2 ∧
    FairMsgs Sample.T false Sample.s2 [⟨[(Sample.key 0x10, some [9])],
      Spec.root Sample.T (upd Sample.es2 (Sample.key 0x10) (some (Sample.toy [9]))), [Sample.proof10]⟩] ∧
    follow Sample.T false (Spec.root Sample.T Sample.es2) [⟨[(Sample.key 0x10, some [9])],
      Spec.root Sample.T (upd Sample.es2 (Sample.key 0x10) (some (Sample.toy [9]))), [Sample.proof10]⟩] =
      .ok (Spec.root Sample.T (upd Sample.es2 (Sample.key 0x10) (some (Sample.toy [9])))) := by
  have hok : SMProof.verifyUpdate Sample.T false [Sample.proof10] (Spec.root Sample.T Sample.es2)
      (Spec.root Sample.T (upd Sample.es2 (Sample.key 0x10) (some (Sample.toy [9])))) [(Sample.key 0x10, some [9])] = .ok () :=
    Sample.ok_of (by decide +kernel)
  refine ⟨Sample.lists2, ⟨?_, trivial⟩, ?_⟩
  · intro j k x P h1 h2
    cases j with
    | succ j => simp at h1
    | zero =>
      simp only [List.getElem?_cons_zero, Option.some.injEq, Prod.mk.injEq] at h1 h2
      obtain ⟨rfl, rfl⟩ := h1
      subst h2
      refine ⟨.inr ⟨by decide, by simp, ?_⟩, fun h => (by cases h), fun em hem => ?_⟩
      · intro l hl
        simp only [Sample.proof10, Option.some.injEq] at hl
        subst hl
        decide +kernel
      · have hp := lists_perm hem Sample.lists2
        have hnc : Spec.NoCollision Sample.T (Spec.treeStrings Sample.T Sample.es2 ++
            Spec.updateStrings Sample.T Sample.proof10 (Sample.key 0x10)) := ⟨by decide +kernel, by decide +kernel⟩
        refine NoCollision.sub hnc fun a ha => ?_
        rcases List.mem_append.1 ha with h | h
        · exact List.mem_append_left _ (subtreeStrings_perm Sample.T 256 0 hp a h)
        · exact List.mem_append_right _ h
  · show (SMProof.verifyUpdate _ _ _ _ _ _ >>= fun _ => _) = _
    rw [hok]; rfl

end Jmt

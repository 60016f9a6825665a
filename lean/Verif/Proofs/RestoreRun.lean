import Verif.Proofs.RestoreFinish
import Verif.Spec.RestoreRun
import Verif.Proofs.Sorted
import Verif.Props.Range
/-!
# Whole restorations
-/
namespace Jmt
open Spec (Entry)
open Store

theorem hashed_eq (H : Hasher) (ps : List (KeyHash × Value)) : Spec.hashed H ps = entriesOf H ps := rfl

theorem asc_of_sortedE {m : List Entry} (h : SortedE m) : Asc m :=
  List.Pairwise.imp (fun h => nibbles_lt.1 h) h

section
variable {H : Hasher} {Ms : List Entry} {w : Version} {root : Digest} {s s' : Store} {E p0 gp : List (KeyHash × Value)}
  {r r' : Restore} {checked : Bool} {chunk : List (KeyHash × Value)} {P : RangeProof}

/-- After the keys have been received. -/
theorem RInv.grown (h : RInv H Ms E w root s p0 r gp) (h0 : r.numKeysReceived ≠ 0) {e : KeyHash × Value} (he : gp.getLast? = some e) :
    r.previousLeaf = some ⟨e.1, H.hash e.2⟩ ∧ ∃ n, Part H r (entriesOf H gp) w e.1 n ∧ RReady (entriesOf H gp) e.1 (H.hash e.2) n := by
  obtain ⟨h1, n, h2, h3⟩ := h.nodes.last e.1 (H.hash e.2) (by rw [entriesOf_last, he]; rfl)
  rcases h3 with h3 | h3
  · exact absurd h3.1 h0
  · exact ⟨h1, n, h2, h3.2.1⟩

/-- A chunk that passes the check continues the snapshot. -/
theorem verify_authentic (hMs : Asc Ms) (hroot : root = sh H Ms []) (h : RInv H Ms E w root s p0 r gp) (h0 : r.numKeysReceived ≠ 0)
    (hnc : Spec.NoCollision H (Spec.treeStrings H Ms ++ Recv.chunkStrings H gp P)) (hv : r.verify H checked P = .ok ()) :
    entriesOf H gp <+: Ms ∧ ∃ e, gp.getLast? = some e ∧ entriesOf H gp = upto Ms e.1 := by
  cases hl : gp.getLast? with
  | none =>
    rw [List.getLast?_eq_none_iff] at hl
    subst hl
    exact absurd (h.nodes.nil rfl).1 h0
  | some e =>
    have hle : (entriesOf H gp).getLast? = some (e.1, H.hash e.2) := by rw [entriesOf_last, hl]; rfl
    obtain ⟨h1, n, h2, h3⟩ := h.grown h0 hl
    have hs := check_sound (M := Ms) h.nodes.asc.nodup hMs.nodup (h.nodes.asc.max hle) (List.mem_of_getLast? hle) h2 h3 h1
      (by rw [h.root, hroot]) (P := P) (by
        unfold Recv.chunkStrings at hnc
        rw [hashed_eq, hle] at hnc
        exact hnc) hv
    have heq : entriesOf H gp = upto Ms e.1 := asc_ext h.nodes.asc (hMs.prefix (upto_prefix hMs)) hs
    exact ⟨heq ▸ upto_prefix hMs, e, rfl, heq⟩

/-- The three outcomes of `add_chunk`. -/
theorem addChunk_inv (hMs : Asc Ms) (hroot : root = sh H Ms []) (h : RInv H Ms E w root s p0 r gp) {res : Except Err Unit}
    (hadd : r.addChunk H checked s chunk P = (r', s', res)) :
    (∀ e, res = .error e → s' = s) ∧
    (∀ e, res = .error e → (∀ m, e ≠ .panic m) →
      RInv H Ms E w root s p0 r' (gp ++ Spec.ascending (gp.getLast?.map Prod.fst) chunk)) ∧
    (res = .ok () → Spec.NoCollision H (Spec.treeStrings H Ms ++ Recv.chunkStrings H (gp ++ chunk) P) →
      Spec.ascending (gp.getLast?.map Prod.fst) chunk = chunk ∧ RInv H Ms E w root s' (gp ++ chunk) r' (gp ++ chunk) ∧
      ∃ e, chunk.getLast? = some e ∧ entriesOf H (gp ++ chunk) = upto Ms e.1) := by
  unfold Restore.addChunk at hadd
  by_cases hc : chunk = []
  · rw [if_pos hc] at hadd
    cases hadd
    subst hc
    refine ⟨fun _ _ => rfl, fun _ _ _ => ?_, fun hk => by cases hk⟩
    simpa [Spec.ascending] using h
  · rw [if_neg hc] at hadd
    cases ha : Restore.addKeys H chunk r with
    | mk r1 res1 =>
      rw [ha] at hadd
      cases res1 with
      | error e1 =>
        simp only [] at hadd
        cases hadd
        refine ⟨fun _ _ => rfl, fun e he hp => ?_, fun hk => by cases hk⟩
        cases he
        exact (addKeys_inv chunk h ha (fun m hm => by cases hm; exact hp m rfl)).1
      | ok u =>
        simp only [] at hadd
        obtain ⟨h1, h2⟩ := addKeys_inv chunk h ha (fun m hm => by cases hm)
        obtain ⟨h2, h3⟩ := h2 rfl
        have h3 := h3 hc
        have h1' := h1
        rw [h2] at h1
        cases hv : r1.verify H checked P with
        | error e =>
          rw [hv] at hadd
          simp only [] at hadd
          cases hadd
          exact ⟨fun _ _ => rfl, fun e he hp => h1', fun hk => by cases hk⟩
        | ok u =>
          rw [hv] at hadd
          simp only [] at hadd
          cases hw : s.writeNodeBatch r1.frozenNodes with
          | error e =>
            rw [hw] at hadd
            simp only [] at hadd
            cases hadd
            exact ⟨fun _ _ => rfl, fun e he hp => h1', fun hk => by cases hk⟩
          | ok s1 =>
            rw [hw] at hadd
            simp only [] at hadd
            cases hadd
            refine ⟨fun _ he => (by cases he), fun _ he => (by cases he), fun _ hnc => ⟨h2, ?_⟩⟩
            obtain ⟨hauth, e, he, heq⟩ := verify_authentic hMs hroot h1 h3 hnc hv
            obtain ⟨s2, hs2, hinv, -⟩ := commit_inv h1 h3 hauth
            rw [hw] at hs2
            cases hs2
            refine ⟨hinv, e, ?_, heq⟩
            rw [List.getLast?_append] at he
            cases hcl : chunk.getLast? with
            | none => exact absurd (List.getLast?_eq_none_iff.1 hcl) hc
            | some e' => rw [hcl] at he; exact he

/-- Once the check has passed the write succeeds. -/
theorem write_after_check (hMs : Asc Ms) (hroot : root = sh H Ms []) (h : RInv H Ms E w root s p0 r gp)
    (hadd : Restore.addKeys H chunk r = (r', .ok ())) (hc : chunk ≠ []) (hv : r'.verify H checked P = .ok ())
    (hnc : Spec.NoCollision H (Spec.treeStrings H Ms ++ Recv.chunkStrings H (gp ++ chunk) P)) :
    ∃ s', s.writeNodeBatch r'.frozenNodes = .ok s' := by
  obtain ⟨h1, h2⟩ := addKeys_inv chunk h hadd (fun m hm => by cases hm)
  obtain ⟨h2, h3⟩ := h2 rfl
  rw [h2] at h1
  obtain ⟨hauth, -⟩ := verify_authentic hMs hroot h1 (h3 hc) hnc hv
  obtain ⟨s2, hs2, -⟩ := commit_inv h1 (h3 hc) hauth
  exact ⟨s2, hs2⟩

/-- What holds during a restoration fed by anybody. -/
structure RunInv (H : Hasher) (Ms : List Entry) (w : Version) (root : Digest) (y : Recv) : Prop where
  durable : Durable H Ms [] w y.store y.accepted
  receiver : ∀ r, y.receiver = some r → RInv H Ms [] w root y.store y.accepted r y.got
  upto : ∀ e, y.accepted.getLast? = some e → entriesOf H y.accepted = upto Ms e.1

theorem runInv_start (ow : Bool) : RunInv H Ms w root (Recv.start ow) :=
  ⟨durable_new ow, fun r h => (by cases h), fun e h => by cases h⟩

theorem runInv_step (hMs : Asc Ms) (hroot : root = sh H Ms []) {y : Recv} (h : RunInv H Ms w root y) (ev : RecvEvent)
    (hnc : Spec.NoCollision H (Spec.treeStrings H Ms ++ (y.step H checked w root ev).strings)) :
    RunInv H Ms w root (y.step H checked w root ev) := by
  cases ev with
  | restart =>
    obtain ⟨r, h1, h2⟩ := new_inv (root := root) h.durable hMs
    unfold Recv.step
    simp only [h1]
    exact ⟨h.durable, fun r' hr' => by cases hr'; exact h2, h.upto⟩
  | chunk pairs proof =>
    unfold Recv.step at hnc ⊢
    cases hr : y.receiver with
    | none => exact ⟨h.durable, fun r hr' => (by cases hr'), h.upto⟩
    | some r =>
      simp only [hr] at hnc ⊢
      have hinv := h.receiver r hr
      cases ha : r.addChunk H checked y.store pairs proof with
      | mk r1 t =>
        obtain ⟨s1, res⟩ := t
        rw [ha] at hnc
        obtain ⟨a1, a2, a3⟩ := addChunk_inv hMs hroot hinv ha
        unfold Recv.outcome at hnc ⊢
        cases res with
        | ok u =>
          simp only [] at hnc ⊢
          have hasc : Spec.ascending (y.got.getLast?.map Prod.fst) pairs = pairs := by
            unfold Restore.addChunk at ha
            by_cases hc : pairs = []
            · rw [if_pos hc] at ha; cases ha
            · rw [if_neg hc] at ha
              cases hk : Restore.addKeys H pairs r with
              | mk r2 res2 =>
                rw [hk] at ha
                cases res2 with
                | error e => simp only [] at ha; cases ha
                | ok u => exact ((addKeys_inv pairs hinv hk (fun m hm => by cases hm)).2 rfl).1
          rw [hasc] at hnc ⊢
          have hsub : Spec.NoCollision H (Spec.treeStrings H Ms ++ Recv.chunkStrings H (y.got ++ pairs) proof) :=
            NoCollision.sub hnc (by
              intro p hp
              rcases List.mem_append.1 hp with hp | hp
              · exact List.mem_append_left _ hp
              · exact List.mem_append_right _ (List.mem_append_right _ hp))
          obtain ⟨-, hI, e, he, heq⟩ := a3 rfl hsub
          refine ⟨hI.durable, fun r' hr' => by cases hr'; exact hI, fun e' he' => ?_⟩
          simp only [] at he'
          rw [List.getLast?_append, he] at he'
          cases he'
          exact heq
        | error e =>
          have hs := a1 e rfl
          subst hs
          cases e with
          | panic m => exact ⟨h.durable, fun r' hr' => (by cases hr'), h.upto⟩
          | missingNode k => exact ⟨h.durable, fun r' hr' => (by cases hr'; exact a2 _ rfl (fun m hm => by cases hm)), h.upto⟩
          | missingRoot k => exact ⟨h.durable, fun r' hr' => (by cases hr'; exact a2 _ rfl (fun m hm => by cases hm)), h.upto⟩
          | missingValue k _ => exact ⟨h.durable, fun r' hr' => (by cases hr'; exact a2 _ rfl (fun m hm => by cases hm)), h.upto⟩
          | bail k => exact ⟨h.durable, fun r' hr' => (by cases hr'; exact a2 _ rfl (fun m hm => by cases hm)), h.upto⟩
          | io k => exact ⟨h.durable, fun r' hr' => (by cases hr'; exact a2 _ rfl (fun m hm => by cases hm)), h.upto⟩

theorem strings_step (y : Recv) (ev : RecvEvent) : ∀ p ∈ y.strings, p ∈ (y.step H checked w root ev).strings := by
  intro p hp
  cases ev with
  | restart =>
    unfold Recv.step
    simp only []
    split <;> exact hp
  | chunk pairs proof =>
    unfold Recv.step
    simp only []
    cases hr : y.receiver with
    | none => exact hp
    | some r =>
      simp only []
      unfold Recv.outcome
      split
      · exact List.mem_append_left _ hp
      · exact hp
      · exact hp

theorem runInv_run (hMs : Asc Ms) (hroot : root = sh H Ms []) (evs : List RecvEvent) : ∀ {y : Recv}, RunInv H Ms w root y →
    Spec.NoCollision H (Spec.treeStrings H Ms ++ (y.run H checked w root evs).strings) →
    RunInv H Ms w root (y.run H checked w root evs) := by
  have mono : ∀ (evs : List RecvEvent) (y : Recv), ∀ p ∈ y.strings, p ∈ (y.run H checked w root evs).strings := by
    intro evs
    induction evs with
    | nil => intro y p hp; exact hp
    | cons e evs ih => intro y p hp; exact ih _ p (strings_step y e p hp)
  induction evs with
  | nil => intro y h _; exact h
  | cons e evs ih =>
    intro y h hnc
    apply ih
    · apply runInv_step hMs hroot h
      apply NoCollision.sub hnc
      intro p hp
      rcases List.mem_append.1 hp with hp | hp
      · exact List.mem_append_left _ hp
      · exact List.mem_append_right _ (mono evs _ p hp)
    · exact hnc

end
end Jmt

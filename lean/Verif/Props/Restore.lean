import Verif.Props.Queries
import Verif.Proofs.RestoreHonest
/-!
# C23 - C26: restoring a snapshot
-/
namespace Jmt
open Spec (Entry)
open Store

theorem subtreeStrings_perm (H : Hasher) : ∀ (f d : Nat) {m m' : List Entry}, m.Perm m' →
    ∀ p ∈ Spec.subtreeStrings H f d m, p ∈ Spec.subtreeStrings H f d m' := by
  intro f
  induction f with
  | zero =>
    intro d m m' hp p hm
    match m, hp, hm with
    | [], _, hm => simp [Spec.subtreeStrings] at hm
    | [(k, v)], hp, hm => rw [List.singleton_perm.1 hp] at *; exact hm
    | _ :: _ :: _, _, hm => simp [Spec.subtreeStrings] at hm
  | succ f ih =>
    intro d m m' hp p hm
    match m, hp, hm with
    | [], _, hm => simp [Spec.subtreeStrings] at hm
    | [(k, v)], hp, hm => rw [List.singleton_perm.1 hp] at *; exact hm
    | a :: b :: t, hp, hm =>
      match m', hp with
      | [], hp => exact absurd hp.length_eq (by simp)
      | [_], hp => exact absurd hp.length_eq (by simp)
      | a' :: b' :: t', hp =>
        have hl := hp.filter (fun e => Spec.bit e.1 d == false)
        have hr := hp.filter (fun e => Spec.bit e.1 d == true)
        simp only [Spec.subtreeStrings, List.mem_cons, List.mem_append] at hm ⊢
        rw [← subtree_perm H _ _ hl, ← subtree_perm H _ _ hr]
        rcases hm with h | h | h
        · exact .inl h
        · exact .inr (.inl (ih _ hl p h))
        · exact .inr (.inr (ih _ hr p h))

variable {H : Hasher}

theorem lists_sorted {mp : Spec.Map} {es : List Entry} (hl : Spec.Lists H mp es) :
    Asc (sortE es) ∧ (sortE es).Perm es ∧ Spec.root H es = sh H (sortE es) [] := by
  have hp := sortE_perm es
  refine ⟨asc_of_sortedE (sortE_sorted (nodupE_of_lists hl)), hp, ?_⟩
  rw [root_eq_sh, sh_perm' hp]

theorem getValue_stored {s : Store} {k : KeyHash} {w : Version} {x : Option Value} (h : histOf s.values k = [(w, x)]) :
    s.getValueOption w k = x := by
  unfold getValueOption
  unfold histOf at h
  cases hg : AMap.get? s.values k with
  | none => rw [hg] at h; simp at h
  | some hist =>
    rw [hg] at h
    simp only [Option.getD_some] at h
    subst h
    simp

theorem getValue_absent {s : Store} {k : KeyHash} {w : Version} (h : histOf s.values k = []) : s.getValueOption w k = none := by
  unfold getValueOption
  unfold histOf at h
  cases hg : AMap.get? s.values k with
  | none => rfl
  | some hist =>
    rw [hg] at h
    simp only [Option.getD_some] at h
    subst h
    simp

/-! ### C24: whatever is fed, only the snapshot is accepted -/

section
variable {mp : Spec.Map} {es : List Entry} {w : Version} {checked ow : Bool} {evs : List RecvEvent}

theorem run_inv (hl : Spec.Lists H mp es)
    (hnc : Spec.NoCollision H (Spec.treeStrings H es ++ ((Recv.start ow).run H checked w (Spec.root H es) evs).strings)) :
    RunInv H (sortE es) w (Spec.root H es) ((Recv.start ow).run H checked w (Spec.root H es) evs) := by
  obtain ⟨h1, h2, h3⟩ := lists_sorted hl
  refine runInv_run h1 h3 evs (runInv_start ow) (NoCollision.sub hnc ?_)
  intro p hp
  rcases List.mem_append.1 hp with hp | hp
  · exact List.mem_append_left _ (subtreeStrings_perm H 256 0 h2 p hp)
  · exact List.mem_append_right _ hp

theorem values_upto (hl : Spec.Lists H mp es) {s : Store} {p0 : List (KeyHash × Value)} (hd : Durable H (sortE es) [] w s p0)
    {e : KeyHash × Value} (hu : entriesOf H p0 = upto (sortE es) e.1) (k : KeyHash) :
    (¬ e.1.val < k.val → (s.getValueOption w k).map H.hash = (mp k).map H.hash) ∧ (e.1.val < k.val → s.getValueOption w k = none) := by
  have hmem : ∀ vh, (k, vh) ∈ entriesOf H p0 ↔ (∃ x, mp k = some x ∧ vh = H.hash x) ∧ ¬ e.1.val < k.val := by
    intro vh
    rw [hu, mem_upto, (sortE_perm es).mem_iff, hl.mem]
  constructor
  · intro hk
    by_cases hin : k ∈ p0.map Prod.fst
    · obtain ⟨a, ha, rfl⟩ := List.mem_map.1 hin
      rw [getValue_stored (hd.stored a ha)]
      obtain ⟨⟨x, hx, hh⟩, -⟩ := (hmem (H.hash a.2)).1 (List.mem_map.2 ⟨a, ha, rfl⟩)
      rw [hx, Option.map_some, Option.map_some, hh]
    · rw [getValue_absent ((hd.absent k hin).resolve_right (by rintro ⟨x, hx, -⟩; simp at hx))]
      cases hm : mp k with
      | none => rfl
      | some x =>
        exfalso
        apply hin
        obtain ⟨a, ha, he⟩ := List.mem_map.1 ((hmem (H.hash x)).2 ⟨⟨x, hm, rfl⟩, hk⟩)
        exact List.mem_map.2 ⟨a, ha, (Prod.mk.inj he).1⟩
  · intro hk
    apply getValue_absent
    refine (hd.absent k ?_).resolve_right (by rintro ⟨x, hx, -⟩; simp at hx)
    intro hin
    obtain ⟨a, ha, rfl⟩ := List.mem_map.1 hin
    exact ((hmem (H.hash a.2)).1 (List.mem_map.2 ⟨a, ha, rfl⟩)).2 hk

/-- C24: at any time, whatever chunks and proofs have been fed and however often the receiver was restarted, the store holds values of
the map only (same hash), and exactly those of an initial segment of the keys. -/
theorem C24_only_authentic_values (hl : Spec.Lists H mp es)
    (hnc : Spec.NoCollision H (Spec.treeStrings H es ++ ((Recv.start ow).run H checked w (Spec.root H es) evs).strings)) :
    let s := ((Recv.start ow).run H checked w (Spec.root H es) evs).store
    (∀ k, s.getValueOption w k = none) ∨
    ∃ last, ∀ k : KeyHash, (¬ last.val < k.val → (s.getValueOption w k).map H.hash = (mp k).map H.hash) ∧
      ((last : KeyHash).val < k.val → s.getValueOption w k = none) := by
  intro s
  have hi := run_inv hl hnc
  cases hlast : ((Recv.start ow).run H checked w (Spec.root H es) evs).accepted.getLast? with
  | none =>
    left
    intro k
    rw [List.getLast?_eq_none_iff] at hlast
    apply getValue_absent
    refine (hi.durable.absent k ?_).resolve_right (by rintro ⟨x, hx, -⟩; simp at hx)
    rw [hlast]; simp
  | some e => exact .inr ⟨e.1, values_upto hl hi.durable (hi.upto e hlast)⟩

theorem run_snoc (y : Recv) (ev : RecvEvent) (root : Digest) :
    y.run H checked w root (evs ++ [ev]) = (y.run H checked w root evs).step H checked w root ev := by
  unfold Recv.run
  rw [List.foldl_append]; rfl

/-- C24: if `add_chunk` answers `Ok` after any history, then every pair of the chunk is in the map (same value hash), and the store
now holds exactly the map's values up to the last key of the chunk: nothing was left out. -/
theorem C24_accepted_chunk (hl : Spec.Lists H mp es) (pairs : List (KeyHash × Value)) (proof : RangeProof)
    (hnc : Spec.NoCollision H (Spec.treeStrings H es ++
      ((Recv.start ow).run H checked w (Spec.root H es) (evs ++ [.chunk pairs proof])).strings))
    (hok : ((Recv.start ow).run H checked w (Spec.root H es) (evs ++ [.chunk pairs proof])).result = .ok ()) :
    (∀ k x, (k, x) ∈ pairs → ∃ z, mp k = some z ∧ H.hash x = H.hash z) ∧
    ∃ last x, pairs.getLast? = some (last, x) ∧ ∀ k : KeyHash,
      let s := ((Recv.start ow).run H checked w (Spec.root H es) (evs ++ [.chunk pairs proof])).store
      (¬ last.val < k.val → (s.getValueOption w k).map H.hash = (mp k).map H.hash) ∧
      (last.val < k.val → s.getValueOption w k = none) := by
  have hnc0 := hnc
  rw [run_snoc] at hok hnc
  rw [run_snoc]
  have hi : RunInv H (sortE es) w (Spec.root H es) ((Recv.start ow).run H checked w (Spec.root H es) evs) := by
    apply run_inv hl
    apply NoCollision.sub hnc
    intro p hp
    rcases List.mem_append.1 hp with hp | hp
    · exact List.mem_append_left _ hp
    · exact List.mem_append_right _ (strings_step _ _ p hp)
  have hi2 := run_inv hl hnc0
  rw [run_snoc] at hi2
  generalize (Recv.start ow).run H checked w (Spec.root H es) evs = y at *
  obtain ⟨hMs, hperm, hroot⟩ := lists_sorted hl
  unfold Recv.step at hok hnc hi2 ⊢
  cases hr : y.receiver with
  | none => simp only [hr] at hok; cases hok
  | some r =>
    simp only [hr] at hok hnc hi2 ⊢
    have hinv := hi.receiver r hr
    cases ha : r.addChunk H checked y.store pairs proof with
    | mk r1 t =>
      obtain ⟨s1, res⟩ := t
      rw [ha] at hok hnc hi2
      cases res with
      | error e => cases e <;> cases hok
      | ok u =>
        have hne : pairs ≠ [] := by
          rintro rfl
          unfold Restore.addChunk at ha
          rw [if_pos rfl] at ha
          cases ha
        have hasc : Spec.ascending (y.got.getLast?.map Prod.fst) pairs = pairs := by
          unfold Restore.addChunk at ha
          rw [if_neg hne] at ha
          cases hk : Restore.addKeys H pairs r with
          | mk r2 res2 =>
            rw [hk] at ha
            cases res2 with
            | error e => simp only [] at ha; cases ha
            | ok u => exact ((addKeys_inv pairs hinv hk (fun m hm => by cases hm)).2 rfl).1
        unfold Recv.outcome at hnc hi2 ⊢
        rw [hasc] at hnc hi2 ⊢
        simp only [] at hnc hi2 ⊢
        obtain ⟨e, he⟩ : ∃ e, pairs.getLast? = some e := by
          cases h : pairs.getLast? with
          | none => exact absurd (List.getLast?_eq_none_iff.1 h) hne
          | some e => exact ⟨e, rfl⟩
        have hu := hi2.upto e (by simp only []; rw [List.getLast?_append, he]; rfl)
        refine ⟨fun k x hx => ?_, e.1, e.2, he, fun k => values_upto hl hi2.durable hu k⟩
        have : (k, H.hash x) ∈ entriesOf H (y.got ++ pairs) := List.mem_map.2 ⟨(k, x), List.mem_append_right _ hx, rfl⟩
        have := hi2.durable.auth.subset this
        rw [hperm.mem_iff, hl.mem] at this
        obtain ⟨z, h1, h2⟩ := this
        exact ⟨z, h1, h2⟩

/-- C24: on an error nothing is written. -/
theorem C24_error_writes_nothing (y : Recv) (pairs : List (KeyHash × Value)) (proof : RangeProof) (root : Digest)
    (herr : (y.step H checked w root (.chunk pairs proof)).result ≠ .ok ()) :
    (y.step H checked w root (.chunk pairs proof)).store = y.store := by
  unfold Recv.step at herr ⊢
  cases hr : y.receiver with
  | none => rfl
  | some r =>
    simp only [hr] at herr ⊢
    cases ha : r.addChunk H checked y.store pairs proof with
    | mk r1 t =>
      obtain ⟨s1, res⟩ := t
      rw [ha] at herr
      cases res with
      | ok u => exact absurd rfl herr
      | error e =>
        have : s1 = y.store := by
          unfold Restore.addChunk at ha
          split at ha
          · cases ha; rfl
          · split at ha
            · cases ha; rfl
            · split at ha
              · cases ha; rfl
              · split at ha
                · cases ha; rfl
                · cases ha
        subst this
        cases e <;> rfl

/-- C24: the write itself never fails or clobbers anything: once the check of a chunk has passed, `write_node_batch` succeeds even on a
store that panics when a node is written twice.  (So `add_chunk` fails before the store is touched, or not at all.) -/
theorem C24_write_never_fails (hl : Spec.Lists H mp es) (pairs : List (KeyHash × Value)) (proof : RangeProof)
    {r r' : Restore} (hr : ((Recv.start ow).run H checked w (Spec.root H es) evs).receiver = some r)
    (hadd : Restore.addKeys H pairs r = (r', .ok ())) (hne : pairs ≠ []) (hv : r'.verify H checked proof = .ok ())
    (hnc : Spec.NoCollision H (Spec.treeStrings H es ++ (((Recv.start ow).run H checked w (Spec.root H es) evs).strings ++
      Recv.chunkStrings H (((Recv.start ow).run H checked w (Spec.root H es) evs).got ++ pairs) proof))) :
    ∃ s', ((Recv.start ow).run H checked w (Spec.root H es) evs).store.writeNodeBatch r'.frozenNodes = .ok s' := by
  obtain ⟨hMs, hperm, hroot⟩ := lists_sorted hl
  have hi := run_inv hl (NoCollision.sub hnc (fun p hp => by
    rcases List.mem_append.1 hp with hp | hp
    · exact List.mem_append_left _ hp
    · exact List.mem_append_right _ (List.mem_append_left _ hp)))
  refine write_after_check hMs hroot (hi.receiver r hr) hadd hne hv (NoCollision.sub hnc ?_)
  intro p hp
  rcases List.mem_append.1 hp with hp | hp
  · exact List.mem_append_left _ (subtreeStrings_perm H 256 0 hperm p hp)
  · exact List.mem_append_right _ (List.mem_append_right _ hp)

/-- C25: before `finish`, a restart succeeds whatever has been fed and wherever the process was stopped. -/
theorem C25_restart_succeeds (hl : Spec.Lists H mp es)
    (hnc : Spec.NoCollision H (Spec.treeStrings H es ++ ((Recv.start ow).run H checked w (Spec.root H es) evs).strings)) :
    ∃ r, Restore.new H ((Recv.start ow).run H checked w (Spec.root H es) evs).store.reader w (Spec.root H es) = .ok r := by
  obtain ⟨hMs, hperm, hroot⟩ := lists_sorted hl
  obtain ⟨r, h, -⟩ := new_inv (root := Spec.root H es) (run_inv hl hnc).durable hMs
  exact ⟨r, h⟩

end

/-! ### C23, C25: an honest sender restores the snapshot -/

section
variable {ops : List Op} {y : Sys} {v w : Version} {all : List (KeyHash × Value)} {checked ow : Bool} {root : Digest}

/-- After everything has been sent. -/
theorem finish_same (hr : Reached H ops y) (hb : (setsOf ops).length < 2 ^ 64) (hv : Readable ops v) (hall : SortedPairs (mapAt ops v) all)
    (hne : all ≠ []) (hroot : getRootHash H y.store.reader v = .ok root) {z : Sess} {p0 : List (KeyHash × Value)}
    (h : SessInv H all w root z p0 all) :
    ∃ s', z.receiver.finish H z.store = .ok s' ∧ SameQueries H s'.reader y.store.reader w v ∧
      ∀ key, (s'.nodes.get? key).isSome ↔ ReachFrom s' w key := by
  obtain ⟨hasc, hp, hrt, hl⟩ := honest_setting hr hb hv hall hroot
  obtain ⟨s', h1, h2, h3, rfl, h5⟩ := sess_finish h hne
  have hne' : entriesOf H p0 ≠ [] := fun hc => hne (List.map_eq_nil_iff.1 hc)
  have t := h2.treeAt (s := s') hne'
  have hval : ∀ k, s'.getValueOption w k = mapAt ops v k := by
    intro k
    by_cases hin : k ∈ p0.map Prod.fst
    · obtain ⟨a, ha, rfl⟩ := List.mem_map.1 hin
      rw [getValue_stored (by rw [h3]; exact h.inv.stored a ha)]
      exact ((hall.mem a.1 a.2).1 ha).symm
    · rw [getValue_absent (by
        rw [h3]
        exact (h.inv.absent k hin).resolve_right (by rintro ⟨x, hx, -⟩; exact hin (List.mem_map.2 ⟨_, hx, rfl⟩)))]
      cases hm : mapAt ops v k with
      | none => rfl
      | some x => exact absurd (List.mem_map.2 ⟨(k, x), (hall.mem k x).2 hm, rfl⟩) hin
  have hra : ReadAt H s'.reader w (mapAt ops v) (entriesOf H p0) :=
    .of hasc.nodup ⟨_, t⟩ hl (fun k => congrArg Except.ok (hval k)) ⟨_, t, fun q e _ _ _ => congrArg Except.ok (hval e.1)⟩
  refine ⟨s', h1, hra.sameQueries (hr.readAt hb hv), fun key => ?_⟩
  rw [t.reach_iff hasc.nodup]
  constructor
  · intro hk
    have hpr : key.version = w ∧ pres (entriesOf H p0) [] key.path := by
      apply Classical.byContradiction
      intro hc
      rw [h2.no key hc] at hk
      cases hk
    by_cases hroot : key.path = []
    · left
      obtain ⟨kv, kp⟩ := key
      simp only at hroot hpr
      rw [hroot, hpr.1]
    · exact .inr ⟨hroot, hpr.2, hpr.1.symm⟩
  · rintro (rfl | ⟨a, b, c⟩)
    · rw [h2.yes [] (pres_self.2 (by rw [under_nil_path]; exact hne'))]; rfl
    · obtain ⟨kv, kp⟩ := key
      simp only at a b c
      subst c
      rw [h2.yes kp b]; rfl

/-- Sending chunks until everything has been sent. -/
theorem feed_all (hr : Reached H ops y) (hb : (setsOf ops).length < 2 ^ 64) (hv : Readable ops v) (hall : SortedPairs (mapAt ops v) all)
    (hroot : getRootHash H y.store.reader v = .ok root) (hnp : NP H (entriesOf H all)) :
    ∀ (sizes : List Nat) {z : Sess} {p0 gp : List (KeyHash × Value)}, SessInv H all w root z p0 gp →
    all.length ≤ gp.length + (sizes.map (· + 1)).sum →
    ∃ z' p0', Sess.run H checked y.store.reader v all w root z (sizes.map .feed) = .ok z' ∧ SessInv H all w root z' p0' all := by
  obtain ⟨hasc, hp, hrt, -⟩ := honest_setting hr hb hv hall hroot
  intro sizes
  induction sizes with
  | nil =>
    intro z p0 gp h hlen
    have : gp = all := h.got.eq_of_length_le (by simpa using hlen)
    subst this
    exact ⟨z, p0, rfl, h⟩
  | cons n sizes ih =>
    intro z p0 gp h hlen
    obtain ⟨t, ht⟩ := h.got
    have hab : Spec.above all z.pos = t := by
      rw [h.pos, ← ht]
      exact above_append (by rw [ht]; exact hall.sorted)
    simp only [List.map_cons]
    unfold Sess.run
    cases hl : (t.take (n + 1)).getLast? with
    | none =>
      have ht0 : t = [] := by
        rw [List.getLast?_eq_none_iff] at hl
        cases t with
        | nil => rfl
        | cons a t => simp at hl
      have hst : z.step H checked y.store.reader v all w root (.feed n) = .ok z := by
        unfold Sess.step
        simp only [hab, hl]
      rw [hst, ok_bind]
      refine ih h ?_
      rw [← ht, ht0]
      simp
    | some e =>
      have hpre : gp ++ t.take (n + 1) <+: all := by
        rw [← ht]
        exact (List.prefix_append_right_inj gp).2 (List.take_prefix _ _)
      have hemem : e ∈ all := by
        apply hpre.subset
        exact List.mem_append_right _ (List.mem_of_getLast? hl)
      obtain ⟨r, s, h1, h2⟩ := sess_chunk (checked := checked) hasc hnp hrt h hpre hl
      have hst : z.step H checked y.store.reader v all w root (.feed n) = .ok ⟨r, s, some e.1⟩ := by
        unfold Sess.step
        simp only [hab, hl]
        rw [honest_proof hr hb hv hall hemem, ok_bind, h1]
      rw [hst, ok_bind]
      refine ih h2 ?_
      have hlen' : all.length = gp.length + t.length := by rw [← ht, List.length_append]
      simp only [List.map_cons, List.sum_cons] at hlen
      rw [List.length_append, List.length_take]
      omega

/-- C23: send the pairs of a version in increasing order, in chunks of any sizes covering all of them, each with the range proof of its
last key: every `add_chunk` succeeds, `finish` succeeds, and the target then answers all queries about its version `w` like the source
about `v`.  Its nodes are exactly those reachable from the root.  (No string hashed by the tree may hash to the placeholder.) -/
theorem C23_restore_reproduces (hr : Reached H ops y) (hb : (setsOf ops).length < 2 ^ 64) (hv : Readable ops v)
    (hall : SortedPairs (mapAt ops v) all) (hne : all ≠ []) (hroot : getRootHash H y.store.reader v = .ok root)
    (hph : ∀ p ∈ Spec.treeStrings H (Spec.hashed H all), p.hash H ≠ placeholder)
    (sizes : List Nat) (hsizes : all.length ≤ (sizes.map (· + 1)).sum) :
    ∃ z s', Sess.run H checked y.store.reader v all w root (Sess.start ow w root) (sizes.map .feed) = .ok z ∧
      z.receiver.finish H z.store = .ok s' ∧ SameQueries H s'.reader y.store.reader w v ∧
      ∀ key, (s'.nodes.get? key).isSome ↔ ReachFrom s' w key := by
  obtain ⟨hasc, -, -, -⟩ := honest_setting hr hb hv hall hroot
  have hnp : NP H (entriesOf H all) := np_of' hasc.nodup hph
  obtain ⟨z, p0, h1, h2⟩ := feed_all (checked := checked) hr hb hv hall hroot hnp sizes (sess_start (H := H) (all := all) (w := w) (root := root) ow)
    (by simpa using hsizes)
  obtain ⟨s', h3, h4, h5⟩ := finish_same hr hb hv hall hne hroot h2
  exact ⟨z, s', h1, h3, h4, h5⟩

/-- C25: stop and restart the receiver as often as wanted, after any chunks: no call fails; and whatever has happened (`evs`), continuing
with the pairs above the rightmost stored leaf completes to the same tree. -/
theorem C25_crash_restore (hr : Reached H ops y) (hb : (setsOf ops).length < 2 ^ 64) (hv : Readable ops v)
    (hall : SortedPairs (mapAt ops v) all) (hne : all ≠ []) (hroot : getRootHash H y.store.reader v = .ok root)
    (hph : ∀ p ∈ Spec.treeStrings H (Spec.hashed H all), p.hash H ≠ placeholder)
    (evs : List SendEvent) (sizes : List Nat) (hsizes : all.length ≤ (sizes.map (· + 1)).sum) :
    ∃ z z' s', Sess.run H checked y.store.reader v all w root (Sess.start ow w root) evs = .ok z ∧
      Sess.run H checked y.store.reader v all w root z (sizes.map .feed) = .ok z' ∧
      z'.receiver.finish H z'.store = .ok s' ∧ SameQueries H s'.reader y.store.reader w v ∧
      ∀ key, (s'.nodes.get? key).isSome ↔ ReachFrom s' w key := by
  obtain ⟨hasc, -, -, -⟩ := honest_setting hr hb hv hall hroot
  have hnp : NP H (entriesOf H all) := np_of' hasc.nodup hph
  obtain ⟨z, p0, gp, h1, h2⟩ := sess_run (checked := checked) hr hb hv hall hroot hnp evs
    (sess_start (H := H) (all := all) (w := w) (root := root) ow)
  obtain ⟨z', p0', h3, h4⟩ := feed_all (checked := checked) hr hb hv hall hroot hnp sizes h2 (by omega)
  obtain ⟨s', h5, h6, h7⟩ := finish_same hr hb hv hall hne hroot h4
  exact ⟨z, z', s', h1, h3, h5, h6, h7⟩

/-- C25: whenever everything has been sent (nothing is above `pos`), after any mixture of chunks and restarts, `finish` completes to the same
tree. -/
theorem C25_finish_when_all_sent (hr : Reached H ops y) (hb : (setsOf ops).length < 2 ^ 64) (hv : Readable ops v)
    (hall : SortedPairs (mapAt ops v) all) (hne : all ≠ []) (hroot : getRootHash H y.store.reader v = .ok root)
    (hph : ∀ p ∈ Spec.treeStrings H (Spec.hashed H all), p.hash H ≠ placeholder) (evs : List SendEvent) :
    ∃ z, Sess.run H checked y.store.reader v all w root (Sess.start ow w root) evs = .ok z ∧
      (Spec.above all z.pos = [] → ∃ s', z.receiver.finish H z.store = .ok s' ∧ SameQueries H s'.reader y.store.reader w v ∧
        ∀ key, (s'.nodes.get? key).isSome ↔ ReachFrom s' w key) := by
  obtain ⟨hasc, -, -, -⟩ := honest_setting hr hb hv hall hroot
  have hnp : NP H (entriesOf H all) := np_of' hasc.nodup hph
  obtain ⟨z, p0, gp, h1, h2⟩ := sess_run (checked := checked) hr hb hv hall hroot hnp evs
    (sess_start (H := H) (all := all) (w := w) (root := root) ow)
  refine ⟨z, h1, fun hab => ?_⟩
  obtain ⟨t, ht⟩ := h2.got
  rw [h2.pos, ← ht, above_append (by rw [ht]; exact hall.sorted)] at hab
  subst hab
  rw [List.append_nil] at ht
  subst ht
  exact finish_same hr hb hv hall hne hroot h2

end
end Jmt

import Verif.Spec.StateSync
import Verif.Props.Continue
import Verif.Props.IterDuring
import Verif.Props.Strong
/-!
# C60: state sync from a live source
-/
namespace Jmt
open Spec (Entry AnyFault)

variable {H : Hasher} {ops ops0 : List Op} {y y0 : Sys} {v w : Version} {all : List (KeyHash × Value)} {checked ow : Bool} {root : Digest}

theorem anyFault_self (R : Reader) : AnyFault R R := ⟨fun _ => .inl rfl, fun _ _ => .inl rfl, .inl rfl⟩

theorem collect_take : ∀ (n : Nat) (items : List (KeyHash × Value)),
    Sync.collect ((List.range n).map (fun i => items[i]?.map Except.ok)) = .ok (items.take n) := by
  intro n
  induction n with
  | zero => intro items; rfl
  | succ n ih =>
    intro items
    rw [List.range_succ_eq_map, List.map_cons, List.map_map]
    cases items with
    | nil => rfl
    | cons kv items =>
      show (do let l ← Sync.collect _; Except.ok (kv :: l)) = _
      have : (List.range n).map ((fun i => (kv :: items)[i]?.map (Except.ok (ε := Err))) ∘ Nat.succ) =
          (List.range n).map (fun i => items[i]?.map Except.ok) := by
        apply List.map_congr_left
        intro i _
        simp
      rw [this, ih, ok_bind]
      rfl

theorem firstPairs_eq {R : Reader} {mp : Spec.Map} {es : List Entry} (r : ReadAt H R v mp es) (hall : SortedPairs mp all)
    (start : KeyHash) (n : Nat) :
    Sync.firstPairs R v start n = .ok ((all.filter (fun kv => decide (start.val ≤ kv.1.val))).take n) := by
  obtain ⟨it, items, h1, h2, h3, h4⟩ := r.iter start
  have he : items = all.filter (fun kv => decide (start.val ≤ kv.1.val)) := by
    refine sorted_ext h3 (hall.sorted.filter _) fun kv => ?_
    obtain ⟨k, x⟩ := kv
    rw [h4, List.mem_filter, hall.mem]
    simp
  subst he
  obtain ⟨it', h5, -⟩ := calls_same (List.replicate n R) (fun R' hR' => by rw [(List.mem_replicate.1 hR').2]; exact anyFault_self R) h2
  unfold Sync.firstPairs
  rw [h1, ok_bind, h5, ok_bind]
  simp only [List.length_replicate]
  exact collect_take n _

theorem zero_le_key (k : KeyHash) : (List.replicate 32 (0 : UInt8)) ≤ k.val := by
  obtain ⟨k, hk⟩ := k
  have : ∀ (n : Nat) (l : List UInt8), l.length = n → List.replicate n (0 : UInt8) ≤ l := by
    intro n
    induction n with
    | zero => intro l _; exact List.nil_le _
    | succ n ih =>
      intro l hl
      cases l with
      | nil => simp at hl
      | cons a l =>
        rw [List.replicate_succ, List.cons_le_cons_iff]
        by_cases h : a = 0
        · right; exact ⟨h.symm, ih l (by simpa using hl)⟩
        · left
          rw [UInt8.lt_iff_toNat_lt]
          have : a.toNat ≠ 0 := fun hc => h (UInt8.toNat_inj.1 hc)
          show 0 < a.toNat
          omega
  exact this 32 k hk

/-- What the client fetches is what is left to send. -/
theorem fetch_eq {R : Reader} {mp : Spec.Map} {es : List Entry} (r : ReadAt H R v mp es) (hall : SortedPairs mp all)
    {pos : Option KeyHash} (hpos : ∀ k, pos = some k → ∃ x, (k, x) ∈ all) (n : Nat) :
    Sync.fetch R v pos n = .ok ((Spec.above all pos).take n) := by
  unfold Sync.fetch
  cases pos with
  | none =>
    show Sync.firstPairs R v _ n = _
    rw [firstPairs_eq r hall]
    unfold Spec.above
    rw [List.filter_eq_self.2 (fun a _ => by simpa using zero_le_key a.1)]
    congr 2
    exact (List.filter_eq_self.2 (fun a _ => rfl)).symm
  | some k =>
    obtain ⟨x, hx⟩ := hpos k rfl
    show (do let l ← Sync.firstPairs R v k (n + 1); Except.ok (l.drop 1)) = _
    rw [firstPairs_eq r hall, ok_bind]
    have : all.filter (fun kv => decide (k.val ≤ kv.1.val)) = (k, x) :: Spec.above all (some k) := by
      refine sorted_ext (hall.sorted.filter _) ?_ fun kv => ?_
      · rw [List.pairwise_cons]
        refine ⟨fun e he => ?_, hall.sorted.filter _⟩
        unfold Spec.above at he
        rw [List.mem_filter] at he
        simpa using he.2
      · unfold Spec.above
        simp only [List.mem_filter, List.mem_cons, Option.all_some, decide_eq_true_eq]
        constructor
        · rintro ⟨h1, h2⟩
          rcases List.le_iff_lt_or_eq.1 h2 with h | h
          · exact .inr ⟨h1, h⟩
          · left
            obtain ⟨k', x'⟩ := kv
            have hk : k' = k := Subtype.ext h.symm
            subst hk
            have e1 := (hall.mem _ _).1 h1
            have e2 := (hall.mem _ _).1 hx
            rw [e1] at e2; cases e2; rfl
        · rintro (rfl | ⟨h1, h2⟩)
          · exact ⟨hx, List.le_refl _⟩
          · exact ⟨h1, List.le_iff_lt_or_eq.2 (.inl h2)⟩
    rw [this]
    rfl

/-- The key a session has reached is one of the keys of the snapshot. -/
theorem sess_pos_mem {z : Sess} {p0 gp : List (KeyHash × Value)} (h : SessInv H all w root z p0 gp) {k : KeyHash} (hk : z.pos = some k) :
    ∃ x, (k, x) ∈ all := by
  rw [h.pos] at hk
  cases hl : gp.getLast? with
  | none => rw [hl] at hk; cases hk
  | some e =>
    rw [hl] at hk
    cases hk
    exact ⟨e.2, h.got.subset (List.mem_of_getLast? hl)⟩

/-- How far a session gets. -/
def gained (a : Nat) : SendEvent → Nat
  | .feed n => a + (n + 1)
  | .restart => 0

/-- One step of a session, with its progress. -/
theorem sess_step (hr : Reached H ops y) (hb : (setsOf ops).length < 2 ^ 64) (hv : Readable ops v) (hall : SortedPairs (mapAt ops v) all)
    (hroot : getRootHash H y.store.reader v = .ok root) (hnp : NP H (entriesOf H all)) (ev : SendEvent)
    {z : Sess} {p0 gp : List (KeyHash × Value)} (h : SessInv H all w root z p0 gp) {a : Nat} (ha : min all.length a ≤ gp.length) :
    ∃ z' p0' gp', z.step H checked y.store.reader v all w root ev = .ok z' ∧ SessInv H all w root z' p0' gp' ∧
      min all.length (gained a ev) ≤ gp'.length ∧ z'.store.stale = z.store.stale := by
  obtain ⟨hasc, hp, hrt, -⟩ := honest_setting hr hb hv hall hroot
  have hstep : ∃ z' p0' gp', z.step H checked y.store.reader v all w root ev = .ok z' ∧ SessInv H all w root z' p0' gp' ∧
      min all.length (gained a ev) ≤ gp'.length := by
    cases ev with
    | restart =>
      obtain ⟨r, h1, h2⟩ := sess_restart hasc h
      unfold Sess.step
      simp only [h1, ok_bind]
      exact ⟨_, _, _, rfl, h2, by simp [gained]⟩
    | feed n =>
      obtain ⟨t, ht⟩ := h.got
      unfold Sess.step
      have hab : Spec.above all z.pos = t := by
        rw [h.pos, ← ht]
        exact above_append (by rw [ht]; exact hall.sorted)
      have hlen : all.length = gp.length + t.length := by rw [← ht, List.length_append]
      simp only [hab]
      cases hl : (t.take (n + 1)).getLast? with
      | none =>
        have ht0 : t = [] := by
          rw [List.getLast?_eq_none_iff] at hl
          cases t with
          | nil => rfl
          | cons a t => simp at hl
        exact ⟨z, p0, gp, rfl, h, by rw [hlen, ht0]; simp only [List.length_nil]; omega⟩
      | some e =>
        have hpre : gp ++ t.take (n + 1) <+: all := by
          rw [← ht]
          exact (List.prefix_append_right_inj gp).2 (List.take_prefix _ _)
        have hemem : e ∈ all := by
          apply hpre.subset
          exact List.mem_append_right _ (List.mem_of_getLast? hl)
        obtain ⟨r, s, h1, h2⟩ := sess_chunk (checked := checked) hasc hnp hrt h hpre hl
        simp only []
        rw [honest_proof hr hb hv hall hemem, ok_bind, h1]
        refine ⟨_, _, _, rfl, h2, ?_⟩
        rw [List.length_append, List.length_take]
        show min all.length (a + (n + 1)) ≤ _
        omega
  obtain ⟨z', p0', gp', h1, h2, h3⟩ := hstep
  have hrun : Sess.run H checked y.store.reader v all w root z [ev] = .ok z' := by
    unfold Sess.run
    rw [h1, ok_bind]
    rfl
  exact ⟨z', p0', gp', h1, h2, h3, sess_stale [ev] hrun⟩

/-- The session of a sync. -/
def Sync.sess (σ : Sync) : Sess := ⟨σ.receiver, σ.store, σ.pos⟩

/-- Against a live source in which the version still reads the same, a fetch is a step of the session with the original source. -/
theorem sync_feed (hr0 : Reached H ops0 y0) (hb0 : (setsOf ops0).length < 2 ^ 64) (hv0 : Readable ops0 v)
    (hall : SortedPairs (mapAt ops0 v) all) {σ : Sync} (hr : Reached H ops σ.src) (hb : (setsOf ops).length < 2 ^ 64) (hv : Readable ops v)
    (hmap : mapAt ops v = mapAt ops0 v) {p0 gp : List (KeyHash × Value)} (h : SessInv H all w root σ.sess p0 gp) (n : Nat) {z : Sess}
    (hz : σ.sess.step H checked y0.store.reader v all w root (.feed n) = .ok z) :
    σ.step H checked v w root (.feed n) = .ok ⟨σ.src, z.receiver, z.store, z.pos⟩ := by
  have r := hr.readAt hb hv
  rw [hmap] at r
  have hsame := C03_same_map_same_queries hr hb hv hr0 hb0 hv0 hmap
  unfold Sync.step
  simp only [fetch_eq r hall (pos := σ.pos) (fun k hk => sess_pos_mem h hk), ok_bind]
  unfold Sess.step at hz
  change (match ((Spec.above all σ.pos).take (n + 1)).getLast? with | none => _ | some (k, _) => _) = _ at hz
  cases hl : ((Spec.above all σ.pos).take (n + 1)).getLast? with
  | none =>
    rw [hl] at hz
    cases hz
    rfl
  | some e =>
    rw [hl] at hz
    simp only [] at hz ⊢
    rw [hsame.range]
    obtain ⟨P, h1, h2⟩ := bind_ok_inv hz
    rw [h1, ok_bind]
    change (match σ.receiver.addChunk H checked σ.store ((Spec.above all σ.pos).take (n + 1)) P with | (r, s, .ok ()) => _ | (_, _, .error e) => _) = _ at h2
    cases ha : σ.receiver.addChunk H checked σ.store ((Spec.above all σ.pos).take (n + 1)) P with
    | mk r1 t =>
      obtain ⟨s1, res⟩ := t
      rw [ha] at h2
      cases res with
      | ok u => cases h2; rfl
      | error e => cases h2

/-- A sync never fails, and its state is that of an honest session. -/
theorem sync_run (hr0 : Reached H ops0 y0) (hb0 : (setsOf ops0).length < 2 ^ 64) (hv0 : Readable ops0 v)
    (hall : SortedPairs (mapAt ops0 v) all) (hroot : getRootHash H y0.store.reader v = .ok root) (hnp : NP H (entriesOf H all)) :
    ∀ (evs : List SyncEvent) {ops : List Op} {σ : Sync} {p0 gp : List (KeyHash × Value)} {a : Nat}, Reached H ops σ.src →
    v < (setsOf ops).length → mapAt ops v = mapAt ops0 v → SessInv H all w root σ.sess p0 gp → min all.length a ≤ gp.length →
    (∀ op ∈ Spec.sourceOps evs, op.Allowed) → (setsOf (ops ++ Spec.sourceOps evs)).length < 2 ^ 64 →
    (horizon (ops ++ Spec.sourceOps evs)).2 ≤ v →
    ∃ σ' p0' gp', σ.run H checked v w root evs = .ok σ' ∧ Reached H (ops ++ Spec.sourceOps evs) σ'.src ∧
      SessInv H all w root σ'.sess p0' gp' ∧
      min all.length (evs.foldl (fun a e => match e with | .feed n => a + (n + 1) | .restart => 0 | .source _ => a) a) ≤ gp'.length ∧
      σ'.store.stale = σ.store.stale := by
  intro evs
  induction evs with
  | nil =>
    intro ops σ p0 gp a hr _ _ h ha _ _ _
    exact ⟨σ, p0, gp, rfl, by simpa [Spec.sourceOps] using hr, h, ha, rfl⟩
  | cons ev evs ih =>
    intro ops σ p0 gp a hr hlt hmap h ha hok hb hh
    have hmono : (horizon ops).2 ≤ v := Nat.le_trans (horizon_mono ops _) hh
    have hbo : (setsOf ops).length < 2 ^ 64 := by rw [length_setsOf_append] at hb; omega
    cases ev with
    | source op =>
      have happ : ops ++ Spec.sourceOps (.source op :: evs) = (ops ++ [op]) ++ Spec.sourceOps evs := by simp [Spec.sourceOps]
      rw [happ] at hb hh ⊢
      obtain ⟨g1, g2⟩ := hr.inv hbo
      obtain ⟨y', h1, -, -⟩ := Sys.step_ok g2 g1 op (hok op (by simp [Spec.sourceOps])) (by
        unfold preGenesisVersion u64Size; rw [length_setsOf_append] at hb; omega)
      have hr' : Reached H (ops ++ [op]) y' := hr.run (by unfold Sys.run; rw [h1, ok_bind]; rfl)
      have hlt' : v < (setsOf (ops ++ [op])).length := by rw [length_setsOf_append]; omega
      have hmap' : mapAt (ops ++ [op]) v = mapAt ops0 v := by
        rw [← hmap]
        unfold mapAt Spec.stateAfter
        rw [setsOf_append, List.take_append_of_le_length (by omega)]
      obtain ⟨σ', p0', gp', a1, a2, a3, a4, a5⟩ := ih (σ := { σ with src := y' }) hr' hlt' hmap' h ha
        (fun op' ho => hok op' (by simp only [Spec.sourceOps]; exact List.mem_cons_of_mem _ ho)) hb hh
      refine ⟨σ', p0', gp', ?_, a2, a3, a4, a5⟩
      unfold Sync.run Sync.step
      simp only [h1, ok_bind]
      exact a1
    | feed n =>
      obtain ⟨z', p1, g1, h1, h2, h3, h4⟩ := sess_step (checked := checked) hr0 hb0 hv0 hall hroot hnp (.feed n) h ha
      have hst := sync_feed hr0 hb0 hv0 hall hr hbo ⟨hmono, hlt⟩ hmap h n h1
      obtain ⟨σ', p0', gp', a1, a2, a3, a4, a5⟩ := ih (σ := ⟨σ.src, z'.receiver, z'.store, z'.pos⟩) hr hlt hmap h2 h3 hok hb hh
      refine ⟨σ', p0', gp', ?_, a2, a3, a4, a5.trans h4⟩
      unfold Sync.run
      rw [hst, ok_bind]
      exact a1
    | restart =>
      obtain ⟨z', p1, g1, h1, h2, h3, h4⟩ := sess_step (checked := checked) hr0 hb0 hv0 hall hroot hnp .restart h ha
      have hst : σ.step H checked v w root .restart = .ok ⟨σ.src, z'.receiver, z'.store, z'.pos⟩ := by
        unfold Sess.step at h1
        unfold Sync.step
        obtain ⟨r, g2, g3⟩ := bind_ok_inv h1
        change Restore.new H σ.store.reader w root = _ at g2
        cases g3
        simp only [g2, ok_bind]
        rfl
      obtain ⟨σ', p0', gp', a1, a2, a3, a4, a5⟩ := ih (σ := ⟨σ.src, z'.receiver, z'.store, z'.pos⟩) hr hlt hmap h2 h3 hok hb hh
      refine ⟨σ', p0', gp', ?_, a2, a3, a4, a5.trans h4⟩
      unfold Sync.run
      rw [hst, ok_bind]
      exact a1

/-- C60: the sync never fails, however its events interleave with what the source does, as long as the source keeps the version. -/
theorem C60_sync_never_fails (hr : Reached H ops y) (hv : v < (setsOf ops).length) (hall : SortedPairs (mapAt ops v) all)
    (hroot : getRootHash H y.store.reader v = .ok root)
    (hph : ∀ p ∈ Spec.treeStrings H (Spec.hashed H all), p.hash H ≠ placeholder) (evs : List SyncEvent)
    (hok : ∀ op ∈ Spec.sourceOps evs, op.Allowed) (hb : (setsOf (ops ++ Spec.sourceOps evs)).length < 2 ^ 64)
    (hkept : Readable (ops ++ Spec.sourceOps evs) v) :
    ∃ σ, (Sync.start y ow w root).run H checked v w root evs = .ok σ ∧ Reached H (ops ++ Spec.sourceOps evs) σ.src := by
  have hb0 : (setsOf ops).length < 2 ^ 64 := by rw [length_setsOf_append] at hb; omega
  have hv0 : Readable ops v := ⟨Nat.le_trans (horizon_mono ops _) hkept.1, hv⟩
  obtain ⟨hasc, -, -, -⟩ := honest_setting hr hb0 hv0 hall hroot
  obtain ⟨σ, p0, gp, h1, h2, -⟩ := sync_run (checked := checked) hr hb0 hv0 hall hroot (np_of' hasc.nodup hph) evs
    (σ := Sync.start y ow w root) (a := 0) hr hv rfl (sess_start (H := H) (all := all) (w := w) (root := root) ow) (by simp) hok hb hkept.1
  exact ⟨σ, h1, h2⟩

theorem mapAt_follow {ops' : List Op} (hall : SortedPairs (mapAt ops v) all) (hlt : v < (setsOf ops).length) {d : Nat}
    (hs : setsOf ops' = (setsOf ops).drop (v + 1)) :
    mapAt (restoredAs v all ++ ops') (v + d) = mapAt ops (v + d) := by
  have h0 := (C44_restoredAs_map (w := v) hall).1
  unfold mapAt Spec.stateAfter at h0 ⊢
  have hl : (setsOf (restoredAs v all)).length = v + 1 := by rw [setsOf_restoredAs]; simp
  rw [List.take_of_length_le (by omega)] at h0
  rw [setsOf_append, hs, show v + d + 1 = (setsOf (restoredAs v all)).length + d by omega, List.take_length_add_append, List.foldl_append, h0]
  rw [← List.foldl_append]
  congr 1
  rw [hl]
  exact List.take_add.symm

/-- C60: whenever at least as many pairs were asked for since the last restart as the version has, or the source has nothing more to
send, `finish` succeeds, and the receiver then answers every query about `w` as the source does about `v`.  If it keeps the source's version
number, it can replay what the source has committed since, in any grouping and with purges of its own, and answers every query about
every version that both keep as the source does. -/
theorem C60_sync_completes (hr : Reached H ops y) (hv : v < (setsOf ops).length) (hall : SortedPairs (mapAt ops v) all) (hne : all ≠ [])
    (hroot : getRootHash H y.store.reader v = .ok root)
    (hph : ∀ p ∈ Spec.treeStrings H (Spec.hashed H all), p.hash H ≠ placeholder) (evs : List SyncEvent)
    (hok : ∀ op ∈ Spec.sourceOps evs, op.Allowed) (hb : (setsOf (ops ++ Spec.sourceOps evs)).length < 2 ^ 64)
    (hkept : Readable (ops ++ Spec.sourceOps evs) v) {σ : Sync} (hσ : (Sync.start y ow w root).run H checked v w root evs = .ok σ)
    (hdone : all.length ≤ Spec.asked evs ∨ Sync.fetch σ.src.store.reader v σ.pos 1 = .ok []) :
    ∃ s', σ.receiver.finish H σ.store = .ok s' ∧ SameQueries H s'.reader σ.src.store.reader w v ∧
      (w = v → ∀ ops' : List Op, (∀ op ∈ ops', op.Allowed) → setsOf ops' = (setsOf (ops ++ Spec.sourceOps evs)).drop (v + 1) →
        ∃ z, Sys.run H ops' ⟨s', v + 1⟩ = .ok z ∧ z.next = (setsOf (ops ++ Spec.sourceOps evs)).length ∧
          ∀ u, Readable (ops ++ Spec.sourceOps evs) u → Readable (restoredAs v all ++ ops') u →
            SameQueries H z.store.reader σ.src.store.reader u u) := by
  have hb0 : (setsOf ops).length < 2 ^ 64 := by rw [length_setsOf_append] at hb; omega
  have hv0 : Readable ops v := ⟨Nat.le_trans (horizon_mono ops _) hkept.1, hv⟩
  obtain ⟨hasc, -, -, -⟩ := honest_setting hr hb0 hv0 hall hroot
  obtain ⟨σ', p0, gp, h1, h2, h3, h4, h5⟩ := sync_run (checked := checked) hr hb0 hv0 hall hroot (np_of' hasc.nodup hph) evs
    (σ := Sync.start y ow w root) (a := 0) hr hv rfl (sess_start (H := H) (all := all) (w := w) (root := root) ow) (by simp) hok hb hkept.1
  rw [hσ] at h1; cases h1
  have hmap : mapAt (ops ++ Spec.sourceOps evs) v = mapAt ops v := by
    unfold mapAt Spec.stateAfter
    rw [setsOf_append, List.take_append_of_le_length (by omega)]
  have hgp : gp = all := by
    rcases hdone with hd | hd
    · refine h3.got.eq_of_length_le ?_
      change min all.length (Spec.asked evs) ≤ gp.length at h4
      omega
    · have r := h2.readAt hb hkept
      rw [hmap] at r
      rw [fetch_eq r hall (pos := σ.pos) (fun k hk => sess_pos_mem h3 hk)] at hd
      obtain ⟨t, ht⟩ := h3.got
      have hab : Spec.above all σ.pos = t := by
        have := h3.pos
        change σ.pos = _ at this
        rw [this, ← ht]
        exact above_append (by rw [ht]; exact hall.sorted)
      rw [hab] at hd
      cases t with
      | nil => simpa using ht
      | cons a t => simp at hd
  subst hgp
  obtain ⟨s', g1, g2, -⟩ := finish_same h2 hb hkept (by rw [hmap]; exact hall) hne
    (by rw [(C03_same_map_same_queries h2 hb hkept hr hb0 hv0 hmap).rootHash]; exact hroot) h3
  refine ⟨s', g1, g2, ?_⟩
  rintro rfl ops' hok' hs
  have hi := restored_sysInv hall.sorted hne h3 (by rw [show σ.sess.store = σ.store from rfl, h5]; rfl) g1
  have hlen : (setsOf (restoredAs w gp ++ ops')).length = (setsOf (ops ++ Spec.sourceOps evs)).length := by
    rw [setsOf_append, List.length_append, hs, setsOf_restoredAs, List.length_drop]
    have := hkept.2
    simp only [List.length_append, List.length_replicate, List.length_singleton] at this ⊢
    omega
  obtain ⟨z, a1, a2, a3⟩ := Sys.run_from (y := ⟨s', w + 1⟩) hi (by rw [setsOf_restoredAs]; simp) ops' hok'
    (by unfold preGenesisVersion u64Size; omega)
  refine ⟨z, a1, by rw [a2, hlen], fun u hu hu' => ?_⟩
  have hwu : w ≤ u := by
    have := horizon_mono (restoredAs w gp) ops'
    rw [horizon_restoredAs] at this
    exact Nat.le_trans this hu'.1
  have rz := a3.reads.readAt hu'.1 hu'.2
  have hm : mapAt (restoredAs w gp ++ ops') u = mapAt (ops ++ Spec.sourceOps evs) u := by
    obtain ⟨d, rfl⟩ := Nat.exists_eq_add_of_le hwu
    exact mapAt_follow (by rw [hmap]; exact hall) hkept.2 hs
  have rs := h2.readAt hb hu
  rw [← hm] at rs
  exact rz.sameQueries rs

namespace Sample

/-- Between the chunks the source commits twice and prunes, and the receiver is restarted. -/
def syncEvs : List SyncEvent :=
  [.feed 0, .source (.commit [[(key 0x10, none)], [(key 0x42, some [6])]]), .restart, .feed 0, .source (.purge 1), .feed 7]

end Sample

/-- The hypotheses are met by a sync of version 1 of the sample history; the receiver then replays the versions after it. -/
example : ∃ y root σ s' z, Reached Sample.T Sample.ops y ∧
    (Sync.start y false 1 root).run Sample.T true 1 1 root Sample.syncEvs = .ok σ ∧ σ.receiver.finish Sample.T σ.store = .ok s' ∧
    Sys.run Sample.T [.commit ((setsOf (Sample.ops ++ Spec.sourceOps Sample.syncEvs)).drop 2), .purge 3] ⟨s', 2⟩ = .ok z ∧
    SameQueries Sample.T z.store.reader σ.src.store.reader 6 6 := by
  obtain ⟨y, hy⟩ := Sample.reached Sample.T
  have hroot := (hy.readAt Sample.bound Sample.readable1).rootHash
  have hok : ∀ op ∈ Spec.sourceOps Sample.syncEvs, op.Allowed := by
    intro op hop
    simp only [Sample.syncEvs, Spec.sourceOps, List.mem_cons, List.not_mem_nil, or_false] at hop
    rcases hop with rfl | rfl <;> trivial
  obtain ⟨σ, h1, h2⟩ := C60_sync_never_fails (w := 1) (checked := true) (ow := false) hy (by decide) Sample.sorted1 hroot
    Sample.noPlaceholder1 Sample.syncEvs hok (by decide) ⟨by decide, by decide⟩
  obtain ⟨s', h3, -, h4⟩ := C60_sync_completes hy (by decide) Sample.sorted1 (by decide) hroot Sample.noPlaceholder1 Sample.syncEvs hok
    (by decide) ⟨by decide, by decide⟩ h1 (.inl (by decide))
  obtain ⟨z, h5, -, h6⟩ := h4 rfl [.commit ((setsOf (Sample.ops ++ Spec.sourceOps Sample.syncEvs)).drop 2), .purge 3] (by
    intro op hop
    simp only [List.mem_cons, List.not_mem_nil, or_false] at hop
    rcases hop with rfl | rfl <;> trivial) (by simp [setsOf])
  exact ⟨y, _, σ, s', z, hy, h1, h3, h5, h6 6 ⟨by decide, by decide⟩ ⟨by decide, by decide⟩⟩

end Jmt

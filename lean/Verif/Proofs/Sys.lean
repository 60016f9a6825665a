import Verif.Proofs.Store
import Verif.Spec.History
/-!
# Histories: every operation succeeds and keeps the invariant; `get` is the versioned map
-/
namespace Jmt
open Spec (Entry)

theorem lists_upd {H : Hasher} {s : Spec.Map} {m : List Entry} (h : Spec.Lists H s m) (k : KeyHash)
    (x : Option Value) : Spec.Lists H (s.write (k, x)) (upd m k (x.map H.hash)) := by
  refine ⟨NodupE.upd h.nodup k _, fun k' vh => ?_⟩
  rw [mem_upd]
  unfold Spec.Map.write
  by_cases hk : k' = k
  · subst hk
    cases x <;> simp [eq_comm]
  · have := h.mem k' vh
    simp [hk, this]

theorem lists_updAll {H : Hasher} (ws : ValueSet) : ∀ {s : Spec.Map} {m : List Entry},
    Spec.Lists H s m → Spec.Lists H (s.writes ws) (updAll H m ws) := by
  induction ws with
  | nil => intro s m h; exact h
  | cons w ws ih => intro s m h; exact ih (lists_upd h w.1 w.2)

theorem lists_entriesAfter (H : Hasher) (hist : List ValueSet) (i : Nat) :
    Spec.Lists H (Spec.stateAfter Spec.Map.empty hist i) (entriesAfter H hist i) := by
  unfold Spec.stateAfter entriesAfter
  have : ∀ (l : List ValueSet) (s : Spec.Map) (m : List Entry), Spec.Lists H s m →
      Spec.Lists H (l.foldl Spec.Map.writes s) (l.foldl (updAll H) m) := by
    intro l
    induction l with
    | nil => intro s m h; exact h
    | cons w l ih => intro s m h; exact ih _ _ (lists_updAll w h)
  exact this _ _ _ ⟨by simp, by simp [Spec.Map.empty]⟩

theorem stateAfter_succ (s : Spec.Map) (hist : List ValueSet) (v : Nat) (k : KeyHash) :
    Spec.stateAfter s hist (v + 1) k =
      match hist[v]?.bind (fun ws => lastWrite ws k) with
      | some x => x
      | none => Spec.stateAfter s hist v k := by
  unfold Spec.stateAfter
  rw [List.take_add_one, List.foldl_append]
  cases hist[v]? with
  | none => rfl
  | some ws =>
    show Spec.Map.writes _ ws k = _
    rw [writes_eq]; rfl

theorem find_last {l : List (Version × Option Value)} (hs : l.Pairwise (fun a b => a.1 < b.1)) {v : Nat}
    {x : Option Value} (hm : (v, x) ∈ l) : l.reverse.find? (fun e => decide (e.1 ≤ v)) = some (v, x) := by
  have hs' : l.reverse.Pairwise (fun a b => b.1 < a.1) := List.pairwise_reverse.2 hs
  have hm' : (v, x) ∈ l.reverse := List.mem_reverse.2 hm
  generalize l.reverse = r at hs' hm'
  induction r with
  | nil => simp at hm'
  | cons e r ih =>
    rw [List.pairwise_cons] at hs'
    rcases List.mem_cons.1 hm' with h | h
    · subst h; simp
    · have := hs'.1 _ h
      dsimp only at this
      rw [List.find?_cons_of_neg (by simp; omega)]
      exact ih hs'.2 h

theorem find_congr {α : Type} {l : List α} {p q : α → Bool} (h : ∀ a ∈ l, p a = q a) : l.find? p = l.find? q := by
  induction l with
  | nil => rfl
  | cons a l ih =>
    simp only [List.find?_cons]
    rw [h a (by simp), ih (fun b hb => h b (by simp [hb]))]

theorem ValInv.get {s : Store} {hist : List ValueSet} (h : ValInv s.values hist) (k : KeyHash) (v : Nat) :
    s.getValueOption v k = Spec.stateAfter Spec.Map.empty hist (v + 1) k := by
  have hred : s.getValueOption v k =
      match (Store.histOf s.values k).reverse.find? (fun e => decide (e.1 ≤ v)) with
      | some e => e.2
      | none => none := by
    unfold Store.getValueOption Store.histOf
    cases s.values.get? k <;> rfl
  rw [hred]
  have hs := h.sorted k
  have hm := h.mem k
  generalize Store.histOf s.values k = l at hs hm
  clear hred
  induction v with
  | zero =>
    rw [stateAfter_succ]
    cases hw : (hist[0]?.bind fun ws => lastWrite ws k) with
    | some x => rw [find_last hs ((hm 0 x).2 hw)]
    | none =>
      have : l.reverse.find? (fun e => decide (e.1 ≤ 0)) = none := by
        rw [List.find?_eq_none]
        rintro ⟨v, x⟩ he
        simp only [decide_eq_true_eq]
        intro h0
        have : v = 0 := by omega
        subst this
        have := (hm 0 x).1 (List.mem_reverse.1 he)
        rw [hw] at this; cases this
      rw [this]; rfl
  | succ v ih =>
    rw [stateAfter_succ]
    cases hw : (hist[v + 1]?.bind fun ws => lastWrite ws k) with
    | some x => rw [find_last hs ((hm (v + 1) x).2 hw)]
    | none =>
      have : l.reverse.find? (fun e => decide (e.1 ≤ v + 1)) = l.reverse.find? (fun e => decide (e.1 ≤ v)) := by
        apply find_congr
        rintro ⟨w, x⟩ he
        have : w ≠ v + 1 := by
          rintro rfl
          have := (hm (v + 1) x).1 (List.mem_reverse.1 he)
          rw [hw] at this; cases this
        rw [Bool.eq_iff_iff]
        simp only [decide_eq_true_eq]
        omega
      rw [this, ih]

theorem setsOf_append (a b : List Op) : setsOf (a ++ b) = setsOf a ++ setsOf b := by
  induction a with
  | nil => rfl
  | cons op a ih => cases op <;> simp [setsOf, ih]

theorem horizon_fst (ops : List Op) : (horizon ops).1 = (setsOf ops).length := by
  unfold horizon
  have : ∀ (ops : List Op) (a : Nat × Nat), (ops.foldl horizonStep a).1 = a.1 + (setsOf ops).length := by
    intro ops
    induction ops with
    | nil => intro a; simp [setsOf]
    | cons op ops ih =>
      intro a
      cases op <;> simp [setsOf, ih, horizonStep, Nat.add_assoc]
  rw [this]; simp

theorem horizon_snoc_commit (ops : List Op) (sets) :
    (horizon (ops ++ [.commit sets])).2 = (horizon ops).2 := by
  simp [horizon, List.foldl_append, horizonStep]

theorem horizon_snoc_batch (ops : List Op) (sets) :
    (horizon (ops ++ [.batch sets])).2 = (horizon ops).2 := by
  simp [horizon, List.foldl_append, horizonStep]

theorem horizon_snoc_purge (ops : List Op) (r) :
    (horizon (ops ++ [.purge r])).2 = max (horizon ops).2 (min r ((setsOf ops).length - 1)) := by
  rw [← horizon_fst]
  simp [horizon, List.foldl_append, horizonStep]

/-- One operation from a well-formed store. -/
theorem Sys.step_ok {H : Hasher} {ops : List Op} {y : Sys} (hi : SysInv H y.store (setsOf ops) (horizon ops).2)
    (hn : y.next = (setsOf ops).length) (op : Op)
    (hok : op.Allowed) (hb : (setsOf (ops ++ [op])).length ≤ preGenesisVersion) :
    ∃ y', y.step H op = .ok y' ∧ y'.next = (setsOf (ops ++ [op])).length ∧
      SysInv H y'.store (setsOf (ops ++ [op])) (horizon (ops ++ [op])).2 := by
  cases op with
  | commit sets =>
    rw [setsOf_append] at hb
    simp only [setsOf, List.append_nil, List.length_append] at hb
    obtain ⟨hs, b, s', a1, a2, a3⟩ := hi.commit sets hb
    refine ⟨⟨s', y.next + sets.length⟩, ?_, ?_, ?_⟩
    · unfold Sys.step Store.commit
      simp only [hn, a1, ok_bind, a2]
    · rw [setsOf_append]; simp [setsOf, hn]
    · rw [horizon_snoc_commit, setsOf_append]
      simp only [setsOf, List.append_nil]
      exact a3.inv
  | batch sets =>
    rw [setsOf_append] at hb
    simp only [setsOf, List.append_nil, List.length_append, List.length_map] at hb
    obtain ⟨hs, b, s', a1, a2, a3⟩ := hi.batch sets none hok (cachesFor_none _ _) hb
    refine ⟨⟨s', y.next + sets.length⟩, ?_, ?_, ?_⟩
    · unfold Sys.step Store.commitBatch
      simp only [hn, a1, ok_bind, a2]
    · rw [setsOf_append]; simp [setsOf, hn]
    · rw [horizon_snoc_batch, setsOf_append]
      simp only [setsOf, List.append_nil]
      exact a3.inv
  | purge r =>
    obtain ⟨s', a1, a2, -⟩ := hi.purge r
    refine ⟨⟨s', y.next⟩, ?_, ?_, ?_⟩
    · unfold Sys.step
      simp only [a1, ok_bind]
    · rw [setsOf_append]; simp [setsOf, hn]
    · rw [horizon_snoc_purge, setsOf_append]
      simp only [setsOf, List.append_nil]
      exact a2

theorem Sys.run_snoc {H : Hasher} (ops : List Op) (op : Op) : ∀ y : Sys,
    Sys.run H (ops ++ [op]) y = (Sys.run H ops y >>= fun y' => y'.step H op) := by
  induction ops with
  | nil =>
    intro y
    simp only [List.nil_append, Sys.run, ok_bind]
    cases y.step H op <;> rfl
  | cons o ops ih =>
    intro y
    simp only [List.cons_append, Sys.run]
    cases y.step H o with
    | error e => rfl
    | ok y' => simp only [ok_bind]; exact ih y'

theorem list_snoc_ind {α : Type} {P : List α → Prop} (h0 : P []) (h1 : ∀ l a, P l → P (l ++ [a])) (l) : P l := by
  rw [← List.reverse_reverse l]
  induction l.reverse with
  | nil => exact h0
  | cons a l ih => rw [List.reverse_cons]; exact h1 _ _ ih

/-- Every history succeeds and leads to a well-formed store. -/
theorem Sys.run_ok (H : Hasher) (ow : Bool) (ops : List Op) (hok : ∀ op ∈ ops, op.Allowed)
    (hb : (setsOf ops).length ≤ preGenesisVersion) :
    ∃ y, Sys.run H ops ⟨Store.new ow, 0⟩ = .ok y ∧ y.next = (setsOf ops).length ∧
      SysInv H y.store (setsOf ops) (horizon ops).2 := by
  induction ops using list_snoc_ind with
  | h0 => exact ⟨_, rfl, rfl, SysInv.init ow⟩
  | h1 ops op ih =>
    obtain ⟨y, a1, a2, a3⟩ := ih (fun o h => hok o (by simp [h])) (by rw [setsOf_append] at hb; simp at hb; omega)
    obtain ⟨y', b1, b2, b3⟩ := Sys.step_ok a3 a2 op (hok op (by simp)) hb
    exact ⟨y', by rw [Sys.run_snoc, a1, ok_bind, b1], b2, b3⟩

theorem Sys.step_allowed {H : Hasher} {y y' : Sys} {op : Op} (h : y.step H op = .ok y') : op.Allowed := by
  cases op with
  | commit sets => trivial
  | purge r => trivial
  | batch sets =>
    unfold Sys.step Store.commitBatch at h
    obtain ⟨a, h, -⟩ := bind_ok_inv h
    obtain ⟨b, h, -⟩ := bind_ok_inv h
    exact batch_nonempty h

theorem Sys.run_allowed {H : Hasher} (ops : List Op) : ∀ {y y' : Sys}, Sys.run H ops y = .ok y' →
    ∀ op ∈ ops, op.Allowed := by
  induction ops with
  | nil => simp
  | cons o ops ih =>
    intro y y' h op hop
    unfold Sys.run at h
    obtain ⟨y1, h1, h2⟩ := bind_ok_inv h
    rcases List.mem_cons.1 hop with rfl | hop
    · exact Sys.step_allowed h1
    · exact ih h2 op hop

theorem Reached.allowed {H : Hasher} {ops : List Op} {y : Sys} (h : Reached H ops y) : ∀ op ∈ ops, op.Allowed := by
  obtain ⟨ow, h⟩ := h
  exact Sys.run_allowed ops h

theorem Reached.inv {H : Hasher} {ops : List Op} {y : Sys} (h : Reached H ops y)
    (hb : (setsOf ops).length < 2 ^ 64) :
    y.next = (setsOf ops).length ∧ SysInv H y.store (setsOf ops) (horizon ops).2 := by
  obtain ⟨ow, h⟩ := h
  obtain ⟨y', a1, a2, a3⟩ := Sys.run_ok H ow ops (Sys.run_allowed ops h) (by unfold preGenesisVersion u64Size; omega)
  rw [h] at a1; cases a1
  exact ⟨a2, a3⟩

end Jmt

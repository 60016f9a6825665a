import Verif.Spec.IterResume
import Verif.Proofs.Faults
import Verif.Props.Iterate
/-!
# An iterator after an error
-/
namespace Jmt
open Spec (FaultyView AnyFault Entry)

variable {P : NodeKey → Prop} {Q : Version → KeyHash → Prop} {R R' : Reader}

theorem nextLoop_more (version : Nat) : ∀ (f : Nat) (stack : List VisitInfo) (r : Iter.Item × Iter),
    Iter.nextLoop R version f stack = .ok r → Iter.nextLoop R version (f + 1) stack = .ok r := by
  intro f
  induction f with
  | zero => intro stack r h; cases h
  | succ f ih =>
    intro stack r h
    cases stack with
    | nil => cases h
    | cons top rest =>
      unfold Iter.nextLoop at h ⊢
      obtain ⟨⟨i, c⟩, h1, h⟩ := bind_ok_inv h
      rw [h1, ok_bind]
      obtain ⟨nk, h2, h⟩ := bind_ok_inv h
      simp only [h2, ok_bind]
      cases hn : R.getNode nk with
      | error e => rw [hn] at h; exact h
      | ok n =>
        rw [hn] at h
        cases n with
        | null => exact h
        | internal n =>
          obtain ⟨info, h3, h⟩ := bind_ok_inv h
          simp only [h3, ok_bind]
          exact ih _ _ h
        | leaf l => exact h

theorem nextLoop_le {version f g : Nat} (hfg : f ≤ g) {stack : List VisitInfo} {r : Iter.Item × Iter}
    (h : Iter.nextLoop R version f stack = .ok r) : Iter.nextLoop R version g stack = .ok r := by
  induction hfg with
  | refl => exact h
  | step _ ih => exact nextLoop_more _ _ _ _ ih

theorem getNode_cases (hf : FaultyView P Q R' R) (k : NodeKey) : R'.getNode k = R.getNode k ∨ ∃ e, R'.getNode k = .error e := by
  cases h : R'.getNode k with
  | error e => exact .inr ⟨e, rfl⟩
  | ok n => exact .inl ((hf.getNode k).eq h).symm

theorem getValue_cases (hf : FaultyView P Q R' R) (v : Version) (k : KeyHash) :
    R'.getValue v k = R.getValue v k ∨ ∃ e, R'.getValue v k = .error e := by
  cases h : R'.getValue v k with
  | error e => exact .inr ⟨e, rfl⟩
  | ok n => exact .inl ((hf.getValue v k).eq h).symm

theorem nextLoop_resume (hf : FaultyView P Q R' R) (version : Nat) :
    ∀ (f : Nat), f ≤ 65 → ∀ (stack : List VisitInfo) (x : Iter.Item) (it : Iter),
    Iter.nextLoop R version f stack = .ok (x, it) →
    Iter.nextLoop R' version f stack = .ok (x, it) ∨ ∃ e stack', stack' ≠ [] ∧
      Iter.nextLoop R' version f stack = .ok (some (.error e), ⟨version, stack', false⟩) ∧
      Iter.nextLoop R version 65 stack' = .ok (x, it) := by
  intro f
  induction f with
  | zero => intro _ stack x it h; cases h
  | succ f ih =>
    intro hle stack x it h
    cases stack with
    | nil => cases h
    | cons top rest =>
      have h0 := nextLoop_le hle h
      unfold Iter.nextLoop at h
      obtain ⟨⟨i, c⟩, h1, h⟩ := bind_ok_inv h
      obtain ⟨nk, h2, h⟩ := bind_ok_inv h
      have hstop : ∀ e, R'.getNode nk = .error e → Iter.nextLoop R' version (f + 1) (top :: rest) =
          .ok (some (.error e), ⟨version, top :: rest, false⟩) := by
        intro e he
        unfold Iter.nextLoop
        simp only [h1, h2, ok_bind, he]
      rcases getNode_cases hf nk with hn | ⟨e, hn⟩
      · cases hn' : R.getNode nk with
        | error e =>
          exact .inr ⟨e, top :: rest, by simp, hstop e (hn.trans hn'), h0⟩
        | ok n =>
          rw [hn'] at h
          cases n with
          | null =>
            left
            unfold Iter.nextLoop
            simp only [h1, h2, ok_bind, hn, hn']
            exact h
          | internal n =>
            obtain ⟨info, h3, h⟩ := bind_ok_inv h
            have hun : ∀ R0 : Reader, R0.getNode nk = .ok (.internal n) → Iter.nextLoop R0 version (f + 1) (top :: rest) =
                Iter.nextLoop R0 version f (info :: top :: rest) := by
              intro R0 hR0
              rw [Iter.nextLoop]
              simp only [h1, h2, ok_bind, hR0, h3]
            rw [hun R' (hn.trans hn')]
            exact ih (by omega) _ _ _ h
          | leaf l =>
            rcases getValue_cases hf nk.version l.keyHash with hv | ⟨e, hv⟩
            · left
              unfold Iter.nextLoop
              simp only [h1, h2, ok_bind, hn, hn', hv]
              exact h
            · refine .inr ⟨e, top :: rest, by simp, ?_, h0⟩
              unfold Iter.nextLoop
              simp only [h1, h2, ok_bind, hn, hn', hv]
      · exact .inr ⟨e, top :: rest, by simp, hstop e hn, h0⟩

/-- One call: the same item, or an error after which the iterator returns on a sound reader what it would have returned; the
exception is the tree of one leaf. -/
theorem next_resume (hf : FaultyView P Q R' R) {it it2 : Iter} {x : Iter.Item} (h : it.next R = .ok (x, it2)) :
    it.next R' = .ok (x, it2) ∨ ∃ e it', it'.version = it.version ∧ it.next R' = .ok (some (.error e), it') ∧
      (it'.next R = .ok (x, it2) ∨
        ∃ l, R.getNode (NodeKey.root it.version) = .ok (.leaf l) ∧
          R'.getValue it.version l.keyHash ≠ R.getValue it.version l.keyHash) := by
  have h0 := h
  unfold Iter.next at h
  by_cases hd : it.done = true
  · left
    rw [if_pos hd] at h
    unfold Iter.next
    rw [if_pos hd]; exact h
  · rw [if_neg hd] at h
    cases hs : it.stack with
    | nil =>
      rw [hs] at h
      simp only at h
      rcases getNode_cases hf (NodeKey.root it.version) with hn | ⟨e, hn⟩
      · cases hn' : R.getNode (NodeKey.root it.version) with
        | error e =>
          refine .inr ⟨e, it, rfl, ?_, .inl h0⟩
          unfold Iter.next
          rw [if_neg hd, hs]
          simp only [hn, hn']
        | ok n =>
          rw [hn'] at h
          cases n with
          | null => cases h
          | internal n =>
            left
            unfold Iter.next
            rw [if_neg hd, hs]
            simp only [hn, hn']
            exact h
          | leaf l =>
            by_cases hv : R'.getValue it.version l.keyHash = R.getValue it.version l.keyHash
            · left
              unfold Iter.next
              rw [if_neg hd, hs]
              simp only [hn, hn', hv]
              exact h
            · obtain ⟨e, hv'⟩ := (getValue_cases hf it.version l.keyHash).resolve_left hv
              refine .inr ⟨e, ⟨it.version, [], true⟩, rfl, ?_, .inr ⟨l, rfl, hv⟩⟩
              unfold Iter.next
              rw [if_neg hd, hs]
              simp only [hn, hn', hv']
      · refine .inr ⟨e, it, rfl, ?_, .inl h0⟩
        unfold Iter.next
        rw [if_neg hd, hs]
        simp only [hn]
    | cons top rest =>
      rw [hs] at h
      simp only at h
      rcases nextLoop_resume hf it.version 65 (Nat.le_refl _) _ _ _ h with h1 | ⟨e, stack', h1, h2, h3⟩
      · left
        unfold Iter.next
        rw [if_neg hd, hs]
        exact h1
      · refine .inr ⟨e, ⟨it.version, stack', false⟩, rfl, ?_, .inl ?_⟩
        · unfold Iter.next
          rw [if_neg hd, hs]
          exact h2
        · cases hs' : stack' with
          | nil => exact absurd hs' h1
          | cons a l =>
            subst hs'
            unfold Iter.next
            simp only [Bool.false_eq_true, if_false]
            exact h3

theorem nextLoop_version {version : Nat} : ∀ {f : Nat} {stack : List VisitInfo} {x : Iter.Item} {it : Iter},
    Iter.nextLoop R version f stack = .ok (x, it) → it.version = version := by
  intro f
  induction f with
  | zero => intro stack x it h; cases h
  | succ f ih =>
    intro stack x it h
    cases stack with
    | nil => cases h
    | cons top rest =>
      unfold Iter.nextLoop at h
      obtain ⟨⟨i, c⟩, h1, h⟩ := bind_ok_inv h
      obtain ⟨nk, h2, h⟩ := bind_ok_inv h
      cases hn : R.getNode nk with
      | error e => rw [hn] at h; cases h; rfl
      | ok n =>
        rw [hn] at h
        cases n with
        | null => cases h; rfl
        | internal n =>
          obtain ⟨info, h3, h⟩ := bind_ok_inv h
          exact ih h
        | leaf l =>
          simp only at h
          cases hv : R.getValue nk.version l.keyHash with
          | error e => rw [hv] at h; cases h; rfl
          | ok v =>
            rw [hv] at h
            obtain ⟨st, h4, h⟩ := bind_ok_inv h
            cases h; rfl

theorem next_version {it it' : Iter} {x : Iter.Item} (h : it.next R = .ok (x, it')) : it'.version = it.version := by
  unfold Iter.next at h
  split at h
  · cases h; rfl
  · split at h
    · split at h
      · cases h; rfl
      · cases h
      · cases h; rfl
      · split at h <;> (cases h; rfl)
    · exact nextLoop_version h

theorem newFinish_version {v : Nat} {start : KeyHash} {key : NodeKey} {stack : List VisitInfo} {it : Iter}
    (h : Iter.newFinish R v start key stack = .ok it) : it.version = v := by
  unfold Iter.newFinish at h
  obtain ⟨n, -, h⟩ := bind_ok_inv h
  cases n with
  | null => cases h; rfl
  | internal n => cases h
  | leaf l =>
    simp only at h
    split at h
    · obtain ⟨st, -, h⟩ := bind_ok_inv h
      cases h; rfl
    · cases h; rfl

theorem newLoop_version {v : Nat} {start : KeyHash} : ∀ {rem : List Nibble} {key : NodeKey} {stack : List VisitInfo} {it : Iter},
    Iter.newLoop R v start rem key stack = .ok it → it.version = v := by
  intro rem
  induction rem with
  | nil =>
    intro key stack it h
    unfold Iter.newLoop at h
    obtain ⟨n, -, h⟩ := bind_ok_inv h
    cases n with
    | null => exact newFinish_version h
    | internal n => cases h
    | leaf l => exact newFinish_version h
  | cons i rest ih =>
    intro key stack it h
    unfold Iter.newLoop at h
    obtain ⟨n, -, h⟩ := bind_ok_inv h
    cases n with
    | null => exact newFinish_version h
    | leaf l => exact newFinish_version h
    | internal n =>
      simp only at h
      obtain ⟨r, hr, h⟩ := bind_ok_inv h
      cases r with
      | inr r => exact ih h
      | inl it' =>
        cases h
        unfold Iter.newStep at hr
        split at hr
        · obtain ⟨_, -, hr⟩ := bind_ok_inv hr
          obtain ⟨_, -, hr⟩ := bind_ok_inv hr
          cases hr
        · obtain ⟨_, -, hr⟩ := bind_ok_inv hr
          split at hr
          · cases hr
          · split at hr
            · obtain ⟨_, -, hr⟩ := bind_ok_inv hr
              cases hr; rfl
            · obtain ⟨_, -, hr⟩ := bind_ok_inv hr
              cases hr; rfl

theorem byIndexLoop_version {v idx : Nat} : ∀ {f : Nat} {key : NodeKey} {node : Node} {sk : Nat} {stack : List VisitInfo} {it : Iter},
    Iter.byIndexLoop R v idx f key node sk stack = .ok it → it.version = v := by
  intro f
  induction f with
  | zero => intro key node sk stack it h; cases h
  | succ f ih =>
    intro key node sk stack it h
    unfold Iter.byIndexLoop at h
    cases node with
    | null => cases h
    | leaf l =>
      simp only at h
      split at h
      · cases h; rfl
      · cases h
    | internal n =>
      simp only at h
      obtain ⟨⟨⟨i, c⟩, s⟩, -, h⟩ := bind_ok_inv h
      obtain ⟨_, -, h⟩ := bind_ok_inv h
      obtain ⟨_, -, h⟩ := bind_ok_inv h
      obtain ⟨_, -, h⟩ := bind_ok_inv h
      exact ih h

theorem newByIndex_version {v idx : Nat} {it : Iter} (h : Iter.newByIndex R v idx = .ok it) : it.version = v := by
  unfold Iter.newByIndex at h
  obtain ⟨_, -, h⟩ := bind_ok_inv h
  split at h
  · cases h; rfl
  · exact byIndexLoop_version h

/-- Calls over faulty views of a reader; if the root is a leaf its value must be readable. -/
theorem calls_resume {v : Version} : ∀ (Rs : List Reader),
    (∀ R' ∈ Rs, AnyFault R' R) → (∀ R' ∈ Rs, ∀ l, R.getNode (NodeKey.root v) = .ok (.leaf l) →
      R'.getValue v l.keyHash = R.getValue v l.keyHash) → ∀ {it : Iter} {items : List (KeyHash × Value)}, it.version = v → it.Yields R items →
    ∃ outs it' later, Iter.calls Rs it = .ok (outs, it') ∧ it'.version = v ∧ items = Spec.served outs ++ later ∧
      it'.Yields R later ∧ (none ∈ outs → later = []) := by
  intro Rs
  induction Rs with
  | nil => intro _ _ it items hv hy; exact ⟨[], it, items, rfl, hv, rfl, hy, fun h => by cases h⟩
  | cons R' Rs ih =>
    intro hR hL it items hv hy
    have hf := hR R' (by simp)
    have hroot := hL R' (by simp)
    have hLs : ∀ R' ∈ Rs, ∀ l, R.getNode (NodeKey.root v) = .ok (.leaf l) → R'.getValue v l.keyHash = R.getValue v l.keyHash :=
      fun r hr => hL r (List.mem_cons_of_mem _ hr)
    have hRs : ∀ R' ∈ Rs, AnyFault R' R := fun r hr => hR r (List.mem_cons_of_mem _ hr)
    have herr : ∀ {x it2 e it'}, it'.version = it.version → it.next R' = .ok (some (.error e), it') →
        it.next R = .ok (x, it2) → (it'.next R = .ok (x, it2) ∨
        ∃ l, R.getNode (NodeKey.root it.version) = .ok (.leaf l) ∧
          R'.getValue it.version l.keyHash ≠ R.getValue it.version l.keyHash) → it'.Yields R items →
        ∃ outs it' later, Iter.calls (R' :: Rs) it = .ok (outs, it') ∧ it'.version = v ∧ items = Spec.served outs ++ later ∧
          it'.Yields R later ∧ (none ∈ outs → later = []) := by
      intro x it2 e it' g1 g2 g3 g4 g5
      obtain ⟨outs, it'', later, a1, a2, a3, a4, a5⟩ := ih hRs hLs (g1.trans hv) g5
      refine ⟨some (.error e) :: outs, it'', later, ?_, a2, a3, a4, fun h => a5 ?_⟩
      · unfold Iter.calls
        simp only [g2, ok_bind, a1]
      · rcases List.mem_cons.1 h with h | h
        · cases h
        · exact h
    cases hy with
    | done h =>
      rcases next_resume hf h with h1 | ⟨e, it', h1, h2, h3⟩
      · obtain ⟨outs, it'', later, a1, a2, a3, a4, a5⟩ := ih hRs hLs hv (.done h)
        refine ⟨none :: outs, it'', later, ?_, a2, a3, a4, fun _ => ?_⟩
        · unfold Iter.calls
          simp only [h1, ok_bind, a1]
        · exact (List.append_eq_nil_iff.1 a3.symm).2
      · refine herr h1 h2 h h3 ?_
        rcases h3 with h3 | ⟨l, h3, h4⟩
        · -- `next` on `it'` gives the end and `it`; the end state repeats
          by_cases hd : it' = it
          · rw [hd]; exact .done h
          · exact absurd (next_none_self h3) (by intro hc; exact hd hc.symm)
        · exact absurd (hroot l (hv ▸ h3)) (hv ▸ h4)
    | @item _ _ kv _ h hy' =>
      rcases next_resume hf h with h1 | ⟨e, it', h1, h2, h3⟩
      · obtain ⟨outs, it'', later, a1, a2, a3, a4, a5⟩ := ih hRs hLs ((next_version h).trans hv) hy'
        refine ⟨some (.ok kv) :: outs, it'', later, ?_, a2, ?_, a4, fun h => a5 ?_⟩
        · unfold Iter.calls
          simp only [h1, ok_bind, a1]
        · rw [a3]; rfl
        · rcases List.mem_cons.1 h with h | h
          · cases h
          · exact h
      · refine herr h1 h2 h h3 ?_
        rcases h3 with h3 | ⟨l, h3, h4⟩
        · exact .item h3 hy'
        · exact absurd (hroot l (hv ▸ h3)) (hv ▸ h4)
where
  next_none_self {it' it : Iter} (h : it'.next R = .ok (none, it)) : it = it' := by
    unfold Iter.next at h
    split at h
    · cases h; rfl
    · split at h
      · split at h
        · cases h
        · cases h
        · cases h; rfl
        · split at h <;> cases h
      · exact absurd h (nextLoop_not_none _ _)
  nextLoop_not_none {v : Nat} {it : Iter} (f : Nat) : ∀ stack, Iter.nextLoop R v f stack ≠ .ok (none, it) := by
    induction f with
    | zero => intro stack h; cases h
    | succ f ih =>
      intro stack h
      cases stack with
      | nil => cases h
      | cons top rest =>
        unfold Iter.nextLoop at h
        obtain ⟨⟨i, c⟩, h1, h⟩ := bind_ok_inv h
        obtain ⟨nk, h2, h⟩ := bind_ok_inv h
        cases hn : R.getNode nk with
        | error e => rw [hn] at h; cases h
        | ok n =>
          rw [hn] at h
          cases n with
          | null => cases h
          | internal n =>
            obtain ⟨info, h3, h⟩ := bind_ok_inv h
            exact ih _ h
          | leaf l =>
            simp only at h
            cases hv : R.getValue nk.version l.keyHash with
            | error e => rw [hv] at h; cases h
            | ok v =>
              rw [hv] at h
              obtain ⟨st, h4, h⟩ := bind_ok_inv h
              cases h

end Jmt

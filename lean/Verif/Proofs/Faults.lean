import Verif.Spec.Faults
import Verif.Proofs.InsertAt
import Verif.Model.Ics23
import Verif.Model.Iterator
/-!
# Results of a computation over a reader with faults
-/
namespace Jmt
open Spec (FaultyView AnyFault OnlyErrors RootsNotLost)

/-- When `a` succeeds, so does `b`, with a related result. -/
def Le {α β : Type} (Q : α → β → Prop) (a : Except Err α) (b : Except Err β) : Prop :=
  ∀ x, a = .ok x → ∃ y, b = .ok y ∧ Q x y

theorem Le.bind {α β γ δ : Type} {Q : α → β → Prop} {P : γ → δ → Prop} {a : Except Err α} {b : Except Err β}
    {f : α → Except Err γ} {g : β → Except Err δ} (h : Le Q a b) (hf : ∀ x y, Q x y → Le P (f x) (g y)) :
    Le P (a >>= f) (b >>= g) := by
  intro x hx
  obtain ⟨z, h1, h2⟩ := bind_ok_inv hx
  obtain ⟨y, h3, h4⟩ := h z h1
  rw [h3]
  exact hf z y h4 x h2

theorem Le.bindEq {α γ δ : Type} {P : γ → δ → Prop} {a b : Except Err α}
    {f : α → Except Err γ} {g : α → Except Err δ} (h : Le Eq a b) (hf : ∀ x, Le P (f x) (g x)) :
    Le P (a >>= f) (b >>= g) := h.bind (fun x _ e => e ▸ hf x)

theorem Le.refl {α : Type} (a : Except Err α) : Le Eq a a := fun x h => ⟨x, h, rfl⟩

theorem Le.same {α γ δ : Type} {P : γ → δ → Prop} {a : Except Err α}
    {f : α → Except Err γ} {g : α → Except Err δ} (hf : ∀ x, Le P (f x) (g x)) :
    Le P (a >>= f) (a >>= g) := (Le.refl a).bindEq hf

theorem Le.err {α β : Type} {Q : α → β → Prop} {e : Err} {b : Except Err β} : Le Q (.error e) b := by
  intro x h; cases h

theorem Le.ok {α β : Type} {Q : α → β → Prop} {x : α} {y : β} (h : Q x y) : Le Q (.ok x) (.ok y) := by
  intro x' h'; cases h'; exact ⟨y, rfl, h⟩

theorem Le.eq {α : Type} {a b : Except Err α} (h : Le Eq a b) {x : α} (hx : a = .ok x) : b = .ok x := by
  obtain ⟨y, h1, rfl⟩ := h x hx
  exact h1

variable {H : Hasher} {R' R : Reader} {P : NodeKey → Prop} {Q : Version → KeyHash → Prop}

theorem Spec.FaultyView.getNode (hf : FaultyView P Q R' R) (k : NodeKey) : Le Eq (R'.getNode k) (R.getNode k) := by
  intro n h
  refine ⟨n, ?_, rfl⟩
  unfold Reader.getNode at h ⊢
  rcases hf.node k with h1 | ⟨e, h1⟩ | ⟨-, h1⟩
  · rw [← h1]; exact h
  · rw [h1] at h; cases h
  · rw [h1] at h; cases h

theorem Spec.FaultyView.getValue (hf : FaultyView P Q R' R) (v : Version) (k : KeyHash) :
    Le Eq (R'.getValue v k) (R.getValue v k) := by
  intro n h
  refine ⟨n, ?_, rfl⟩
  unfold Reader.getValue at h ⊢
  rcases hf.value v k with h1 | ⟨e, h1⟩ | ⟨-, h1⟩
  · rw [← h1]; exact h
  · rw [h1] at h; cases h
  · rw [h1] at h; cases h

/-- Two `get_node`s, the first of which only fails more often. -/
def GLe (g g' : NodeKey → Except Err Node) : Prop := ∀ k, Le Eq (g k) (g' k)

theorem Spec.FaultyView.gle (hf : FaultyView P Q R' R) : GLe R'.getNode R.getNode := hf.getNode

theorem unwrapNode_le {a b : Except Err Node} (h : Le Eq a b) :
    Le Eq (InternalNode.unwrapNode a) (InternalNode.unwrapNode b) := by
  intro n hn
  cases a with
  | error e => cases hn
  | ok x => rw [h.eq rfl]; exact ⟨n, hn, rfl⟩

theorem buildSibling_le {g g' : NodeKey → Except Err Node} (hg : GLe g g') (n : InternalNode) (nk : NodeKey)
    (start h : Nat) (bm : BitVec 16 × BitVec 16) :
    Le Eq (n.buildSibling H g nk start h bm) (n.buildSibling H g' nk start h bm) := by
  unfold InternalNode.buildSibling
  refine Le.same fun r => ?_
  split
  · exact Le.refl _
  · split
    · refine Le.same fun x => Le.same fun ck => (unwrapNode_le (hg ck)).bindEq fun cn => Le.refl _
    · exact Le.refl _

theorem getChildWithSiblingsLoop_le {g g' : NodeKey → Except Err Node} (hg : GLe g g') (n : InternalNode) (nk : NodeKey)
    (i : Nibble) (oc : Bool) (bm : BitVec 16 × BitVec 16) : ∀ (h : Nat) (acc : List SMNode),
    Le Eq (n.getChildWithSiblingsLoop H g nk i oc bm h acc) (n.getChildWithSiblingsLoop H g' nk i oc bm h acc) := by
  intro h
  induction h with
  | zero => intro acc; exact Le.refl _
  | succ h ih =>
    intro acc
    unfold InternalNode.getChildWithSiblingsLoop
    refine (buildSibling_le hg n nk _ h bm).bindEq fun sib => Le.same fun r => ?_
    split
    · exact Le.refl _
    · split
      · exact Le.refl _
      · split
        · exact Le.refl _
        · exact ih _

theorem getChildWithSiblings_le {g g' : NodeKey → Except Err Node} (hg : GLe g g') (n : InternalNode) (nk : NodeKey)
    (i : Nibble) (oc : Bool) :
    Le Eq (n.getChildWithSiblings H g nk i oc) (n.getChildWithSiblings H g' nk i oc) := by
  unfold InternalNode.getChildWithSiblings
  exact Le.same fun bm => getChildWithSiblingsLoop_le hg n nk i oc bm 4 []

theorem rootErr_le (hf : FaultyView P Q R' R) (version depth : Nat) (nk : NodeKey) :
    Le Eq (match R'.getNode nk with
      | .ok n => .ok n
      | .error e => if depth = 0 then .error (.missingRoot version) else .error e : Except Err Node)
    (match R.getNode nk with
      | .ok n => .ok n
      | .error e => if depth = 0 then .error (.missingRoot version) else .error e) := by
  intro n h
  cases hr : R'.getNode nk with
  | error e => rw [hr] at h; simp only at h; split at h <;> cases h
  | ok n' =>
    rw [hr] at h
    rw [(hf.getNode nk).eq hr]
    exact ⟨n, h, rfl⟩

theorem getWithProofLoop_le (hf : FaultyView P Q R' R) (key : KeyHash) (version : Nat) :
    ∀ (fuel depth : Nat) (nk : NodeKey) (rem : List Nibble) (sibs : List SMNode),
    Le Eq (getWithProofLoop H R' key version fuel depth nk rem sibs)
      (getWithProofLoop H R key version fuel depth nk rem sibs) := by
  intro fuel
  induction fuel with
  | zero => intro depth nk rem sibs; exact Le.refl _
  | succ fuel ih =>
    intro depth nk rem sibs
    unfold getWithProofLoop
    refine (rootErr_le hf version depth nk).bindEq fun node => ?_
    cases node with
    | internal n =>
      cases rem with
      | nil => exact Le.refl _
      | cons idx rem =>
        refine (getChildWithSiblings_le hf.gle n nk idx true).bindEq fun x => ?_
        obtain ⟨ck, s⟩ := x
        cases ck with
        | none => exact Le.refl _
        | some ck => exact ih _ _ _ _
    | leaf l =>
      refine Le.bindEq ?_ fun v => Le.refl _
      split
      · exact (hf.getValue _ _).bindEq fun v => Le.refl _
      · exact Le.refl _
    | null => exact Le.refl _

theorem getWithProof_le (hf : FaultyView P Q R' R) (key : KeyHash) (version : Nat) :
    Le Eq (getWithProof H R' key version) (getWithProof H R key version) :=
  getWithProofLoop_le hf key version _ _ _ _ _

theorem getRangeProof_le (hf : FaultyView P Q R' R) (key : KeyHash) (version : Nat) :
    Le Eq (getRangeProof H R' key version) (getRangeProof H R key version) := by
  unfold getRangeProof
  exact (getWithProof_le hf key version).bindEq fun x => Le.refl _

theorem getExtremeKeyHash_le (hf : FaultyView P Q R' R) (version : Nat) (ex : Extreme) :
    ∀ (fuel depth : Nat) (nk : NodeKey),
    Le Eq (getExtremeKeyHash R' version ex fuel depth nk) (getExtremeKeyHash R version ex fuel depth nk) := by
  intro fuel
  induction fuel with
  | zero => intro depth nk; exact Le.refl _
  | succ fuel ih =>
    intro depth nk
    unfold getExtremeKeyHash
    refine (rootErr_le hf version depth nk).bindEq fun node => ?_
    cases node with
    | internal n =>
      simp only
      split
      · exact Le.refl _
      · refine Le.same fun ck => ?_
        cases ck with
        | none => exact Le.refl _
        | some ck => exact ih _ _
    | leaf l => exact Le.refl _
    | null => exact Le.refl _

theorem searchClosestLoop_le (hf : FaultyView P Q R' R) (version : Nat) (ex : Extreme) :
    ∀ (path : List Nibble) (ps : List InternalNode),
    Le Eq (searchClosestLoop R' version ex path ps) (searchClosestLoop R version ex path ps) := by
  intro path
  induction path with
  | nil => intro ps; unfold searchClosestLoop; exact Le.refl _
  | cons i path ih =>
    intro ps
    cases ps with
    | nil => unfold searchClosestLoop; exact Le.refl _
    | cons p ps =>
      unfold searchClosestLoop
      split
      · exact (getExtremeKeyHash_le hf version _ _ _ _).bindEq fun k => Le.refl _
      · exact ih ps

theorem searchForClosestLoop_le (hf : FaultyView P Q R' R) (version : Nat) :
    ∀ (fuel depth : Nat) (nk : NodeKey) (visited rem : List Nibble) (ps : List InternalNode),
    Le Eq (searchForClosestLoop R' version fuel depth nk visited rem ps)
      (searchForClosestLoop R version fuel depth nk visited rem ps) := by
  intro fuel
  induction fuel with
  | zero => intro depth nk visited rem ps; exact Le.refl _
  | succ fuel ih =>
    intro depth nk visited rem ps
    unfold searchForClosestLoop
    refine (rootErr_le hf version depth nk).bindEq fun node => ?_
    cases node with
    | internal n =>
      cases rem with
      | nil => exact Le.refl _
      | cons i rem =>
        refine Le.same fun ck => ?_
        cases ck with
        | none => exact Le.refl _
        | some ck => exact ih _ _ _ _ _
    | leaf l => exact Le.refl _
    | null => exact Le.refl _

theorem getBoundingPath_le (hf : FaultyView P Q R' R) (key : KeyHash) (version : Nat) :
    Le Eq (getBoundingPath R' key version) (getBoundingPath R key version) := by
  unfold getBoundingPath
  refine (searchForClosestLoop_le hf version _ _ _ _ _ _).bindEq fun r => ?_
  cases r with
  | foundLeaf leaf path ps =>
    simp only
    split
    · exact (searchClosestLoop_le hf version _ _ _).bindEq fun k => Le.refl _
    · split
      · exact (searchClosestLoop_le hf version _ _ _).bindEq fun k => Le.refl _
      · exact Le.refl _
  | foundInternal path ps =>
    exact (searchClosestLoop_le hf version _ _ _).bindEq fun k =>
      (searchClosestLoop_le hf version _ _ _).bindEq fun k => Le.refl _

theorem getWithExclusionProof_le (hf : FaultyView P Q R' R) (key : KeyHash) (version : Nat) :
    Le Eq (getWithExclusionProof H R' key version) (getWithExclusionProof H R key version) := by
  unfold getWithExclusionProof
  refine (getWithProof_le hf key version).bindEq fun r => ?_
  obtain ⟨x, p⟩ := r
  cases x with
  | some x => exact Le.refl _
  | none =>
    refine (getBoundingPath_le hf key version).bindEq fun b => ?_
    obtain ⟨l, r⟩ := b
    cases l with
    | none =>
      cases r with
      | none => exact Le.refl _
      | some r => exact (getWithProof_le hf r version).bindEq fun _ => Le.refl _
    | some l =>
      cases r with
      | none => exact (getWithProof_le hf l version).bindEq fun _ => Le.refl _
      | some r =>
        exact (getWithProof_le hf l version).bindEq fun _ => (getWithProof_le hf r version).bindEq fun _ => Le.refl _

theorem ics23Value_le (hf : FaultyView P Q R' R) (key : KeyHash) (version : Nat) :
    Le Eq (ics23Value R' key version) (ics23Value R key version) := by
  intro x h
  refine ⟨x, ?_, rfl⟩
  unfold ics23Value Jmt.get at h ⊢
  rcases hf.value version key with h1 | ⟨e, h1⟩ | ⟨-, h1⟩
  · rw [← h1]; exact h
  · rw [h1] at h; cases h
  · rw [h1] at h; cases h

theorem ics23Neighbour_le (hf : FaultyView P Q R' R) {pre' pre : KeyHash → Except Err (Option (List UInt8))}
    (hp : ∀ k, pre' k = pre k ∨ (∃ e, pre' k = .error e) ∨ pre' k = .ok none) (checked pf : Bool) (version : Nat)
    (p : SMProof) : Le Eq (ics23Neighbour H checked pf R' pre' version p) (ics23Neighbour H checked pf R pre version p) := by
  have hpre : ∀ k, Le Eq (ics23Preimage pre' k) (ics23Preimage pre k) := by
    intro k x h
    refine ⟨x, ?_, rfl⟩
    unfold ics23Preimage at h ⊢
    rcases hp k with h1 | ⟨e, h1⟩ | h1
    · rw [← h1]; exact h
    · rw [h1] at h; cases h
    · rw [h1] at h; cases h
  unfold ics23Neighbour
  split
  · exact Le.refl _
  · split
    · exact (hpre _).bindEq fun _ => (ics23Value_le hf _ _).bindEq fun _ => Le.refl _
    · exact (ics23Value_le hf _ _).bindEq fun _ => (hpre _).bindEq fun _ => Le.refl _

theorem getWithIcs23Proof_le (hf : FaultyView P Q R' R) {pre' pre : KeyHash → Except Err (Option (List UInt8))}
    (hp : ∀ k, pre' k = pre k ∨ (∃ e, pre' k = .error e) ∨ pre' k = .ok none) (checked : Bool) (key : List UInt8)
    (version : Nat) :
    Le Eq (getWithIcs23Proof H checked R' pre' key version) (getWithIcs23Proof H checked R pre key version) := by
  unfold getWithIcs23Proof
  refine (getWithExclusionProof_le hf _ version).bindEq fun r => ?_
  cases r with
  | inl x => exact Le.refl _
  | inr ep =>
    refine Le.bindEq ?_ fun _ => Le.refl _
    unfold ics23Nonexistence
    cases ep with
    | leftmost r => exact (ics23Neighbour_le hf hp _ _ _ _).bindEq fun _ => Le.refl _
    | middle r l =>
      exact (ics23Neighbour_le hf hp _ _ _ _).bindEq fun _ => (ics23Neighbour_le hf hp _ _ _ _).bindEq fun _ => Le.refl _
    | rightmost l => exact (ics23Neighbour_le hf hp _ _ _ _).bindEq fun _ => Le.refl _

theorem getRootNode_le (hf : FaultyView P Q R' R) (version : Nat) :
    Le Eq (getRootNode R' version) (getRootNode R version) := by
  intro x h
  refine ⟨x, ?_, rfl⟩
  unfold getRootNode getRootNodeOption at h ⊢
  rcases hf.node (NodeKey.root version) with h1 | ⟨e, h1⟩ | ⟨-, h1⟩
  · rw [← h1]; exact h
  · rw [h1] at h; cases h
  · rw [h1] at h; cases h

theorem getRootHash_le (hf : FaultyView P Q R' R) (version : Nat) :
    Le Eq (getRootHash H R' version) (getRootHash H R version) :=
  (getRootNode_le hf version).bindEq fun _ => Le.refl _

theorem getLeafCount_le (hf : FaultyView P Q R' R) (version : Nat) :
    Le Eq (getLeafCount R' version) (getLeafCount R version) :=
  (getRootNode_le hf version).bindEq fun _ => Le.refl _

/-! ### The iterator -/

theorem iterNewLoop_le (hf : FaultyView P Q R' R) (version : Nat) (start : KeyHash) :
    ∀ (rem : List Nibble) (nk : NodeKey) (stack : List VisitInfo),
    Le Eq (Iter.newLoop R' version start rem nk stack) (Iter.newLoop R version start rem nk stack) := by
  have hfin : ∀ nk stack, Le Eq (Iter.newFinish R' version start nk stack) (Iter.newFinish R version start nk stack) :=
    fun nk stack => (hf.getNode nk).bindEq fun _ => Le.refl _
  intro rem
  induction rem with
  | nil =>
    intro nk stack
    unfold Iter.newLoop
    refine (hf.getNode nk).bindEq fun node => ?_
    cases node with
    | internal n => exact Le.refl _
    | leaf l => exact hfin _ _
    | null => exact hfin _ _
  | cons i rem ih =>
    intro nk stack
    unfold Iter.newLoop
    refine (hf.getNode nk).bindEq fun node => ?_
    cases node with
    | internal n =>
      refine Le.same fun r => ?_
      cases r with
      | inl it => exact Le.refl _
      | inr x => exact ih _ _
    | leaf l => exact hfin _ _
    | null => exact hfin _ _

theorem byIndexLoop_le (hf : FaultyView P Q R' R) (version idx : Nat) :
    ∀ (f : Nat) (nk : NodeKey) (node : Node) (sk : Nat) (stack : List VisitInfo),
    Le Eq (Iter.byIndexLoop R' version idx f nk node sk stack) (Iter.byIndexLoop R version idx f nk node sk stack) := by
  intro f
  induction f with
  | zero => intro nk node sk stack; exact Le.refl _
  | succ f ih =>
    intro nk node sk stack
    unfold Iter.byIndexLoop
    cases node with
    | null => exact Le.refl _
    | leaf l => exact Le.refl _
    | internal n =>
      exact Le.same fun x => Le.same fun nk' => Le.same fun info => (hf.getNode _).bindEq fun node => ih _ _ _ _

theorem newByIndex_le (hf : FaultyView P Q R' R) (version idx : Nat) :
    Le Eq (Iter.newByIndex R' version idx) (Iter.newByIndex R version idx) := by
  unfold Iter.newByIndex
  refine (hf.getNode _).bindEq fun node => ?_
  split
  · exact Le.refl _
  · exact byIndexLoop_le hf _ _ _ _ _ _ _

/-- Not an error item. -/
def NotErr (x : Iter.Item) : Prop := ∀ e, x ≠ some (.error e)

theorem nextLoop_same (hf : FaultyView P Q R' R) (version : Nat) :
    ∀ (f : Nat) (stack : List VisitInfo) (x : Iter.Item) (it : Iter),
    Iter.nextLoop R' version f stack = .ok (x, it) → NotErr x → Iter.nextLoop R version f stack = .ok (x, it) := by
  intro f
  induction f with
  | zero => intro stack x it h; cases h
  | succ f ih =>
    intro stack x it h hx
    cases stack with
    | nil => cases h
    | cons top rest =>
      unfold Iter.nextLoop at h ⊢
      obtain ⟨⟨i, c⟩, h1, h⟩ := bind_ok_inv h
      rw [h1, ok_bind]
      obtain ⟨nk, h2, h⟩ := bind_ok_inv h
      simp only [h2, ok_bind]
      cases hn : R'.getNode nk with
      | error e => rw [hn] at h; cases h; exact absurd rfl (hx e)
      | ok n =>
        rw [hn] at h
        rw [(hf.getNode nk).eq hn]
        cases n with
        | null => cases h; exact absurd rfl (hx _)
        | internal n =>
          obtain ⟨info, h3, h⟩ := bind_ok_inv h
          simp only [h3, ok_bind]
          exact ih _ _ _ h hx
        | leaf l =>
          simp only at h ⊢
          cases hv : R'.getValue nk.version l.keyHash with
          | error e => rw [hv] at h; cases h; exact absurd rfl (hx e)
          | ok v =>
            rw [hv] at h
            rw [(hf.getValue _ _).eq hv]
            exact h

theorem next_same (hf : FaultyView P Q R' R) {it it' : Iter} {x : Iter.Item} (h : it.next R' = .ok (x, it'))
    (hx : NotErr x) : it.next R = .ok (x, it') := by
  unfold Iter.next at h ⊢
  split
  · next hd => rw [if_pos hd] at h; exact h
  · next hd =>
    rw [if_neg hd] at h
    split
    · next hs =>
      rw [hs] at h
      simp only at h
      cases hn : R'.getNode (NodeKey.root it.version) with
      | error e => rw [hn] at h; cases h; exact absurd rfl (hx e)
      | ok n =>
        rw [hn] at h
        rw [(hf.getNode _).eq hn]
        cases n with
        | null => cases h
        | internal n => exact h
        | leaf l =>
          simp only at h ⊢
          cases hv : R'.getValue it.version l.keyHash with
          | error e => rw [hv] at h; cases h; exact absurd rfl (hx e)
          | ok v =>
            rw [hv] at h
            rw [(hf.getValue _ _).eq hv, hs]
            exact h
    · next hs =>
      rw [hs] at h
      exact nextLoop_same hf _ _ _ _ _ h hx

end Jmt

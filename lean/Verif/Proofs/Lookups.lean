import Verif.Spec.Shuffle
/-!
# Queries depend on the lookups of nodes and values only
-/
namespace Jmt
open Spec (SameLookups EqualQueries)

section
variable (H : Hasher) (R : Reader) (x : Except Err (Option (NodeKey × LeafNode)))

theorem getWithProofLoop_rm (key : KeyHash) (v : Version) : ∀ (fuel depth : Nat) (nk : NodeKey) (rem : List Nibble) (sibs : List SMNode),
    getWithProofLoop H { R with getRightmostLeaf := x } key v fuel depth nk rem sibs = getWithProofLoop H R key v fuel depth nk rem sibs := by
  intro fuel
  induction fuel with
  | zero => intros; rfl
  | succ fuel ih =>
    intro depth nk rem sibs
    unfold getWithProofLoop
    simp only [ih]
    rfl

theorem getWithProof_rm (key : KeyHash) (v : Version) :
    getWithProof H { R with getRightmostLeaf := x } key v = getWithProof H R key v := getWithProofLoop_rm ..

theorem getExtremeKeyHash_rm (v : Version) (e : Extreme) : ∀ (fuel depth : Nat) (nk : NodeKey),
    getExtremeKeyHash { R with getRightmostLeaf := x } v e fuel depth nk = getExtremeKeyHash R v e fuel depth nk := by
  intro fuel
  induction fuel with
  | zero => intros; rfl
  | succ fuel ih =>
    intro depth nk
    unfold getExtremeKeyHash
    simp only [ih]
    rfl

theorem searchClosestLoop_rm (v : Version) (e : Extreme) : ∀ (a : List Nibble) (b : List InternalNode),
    searchClosestLoop { R with getRightmostLeaf := x } v e a b = searchClosestLoop R v e a b := by
  intro a
  induction a with
  | nil => intros; rfl
  | cons i a ih =>
    intro b
    cases b with
    | nil => rfl
    | cons p b =>
      unfold searchClosestLoop
      simp only [ih, getExtremeKeyHash_rm]

theorem searchForClosestLoop_rm (v : Version) : ∀ (fuel depth : Nat) (nk : NodeKey) (vis rem : List Nibble) (ps : List InternalNode),
    searchForClosestLoop { R with getRightmostLeaf := x } v fuel depth nk vis rem ps = searchForClosestLoop R v fuel depth nk vis rem ps := by
  intro fuel
  induction fuel with
  | zero => intros; rfl
  | succ fuel ih =>
    intro depth nk vis rem ps
    unfold searchForClosestLoop
    simp only [ih]
    rfl

theorem getBoundingPath_rm (key : KeyHash) (v : Version) :
    getBoundingPath { R with getRightmostLeaf := x } key v = getBoundingPath R key v := by
  unfold getBoundingPath searchForClosestNode searchClosestExtremeNode
  simp only [searchForClosestLoop_rm, searchClosestLoop_rm]

theorem getWithExclusionProof_rm (key : KeyHash) (v : Version) :
    getWithExclusionProof H { R with getRightmostLeaf := x } key v = getWithExclusionProof H R key v := by
  unfold getWithExclusionProof
  simp only [getWithProof_rm, getBoundingPath_rm]

theorem getRangeProof_rm (key : KeyHash) (v : Version) :
    getRangeProof H { R with getRightmostLeaf := x } key v = getRangeProof H R key v := by
  unfold getRangeProof
  simp only [getWithProof_rm]

theorem getWithIcs23Proof_rm (checked : Bool) (pre : KeyHash → Except Err (Option (List UInt8))) (key : List UInt8) (v : Version) :
    getWithIcs23Proof H checked { R with getRightmostLeaf := x } pre key v = getWithIcs23Proof H checked R pre key v := by
  unfold getWithIcs23Proof
  simp only [getWithExclusionProof_rm]
  rfl

theorem iterNewLoop_rm (v : Version) (start : KeyHash) : ∀ (rem : List Nibble) (key : NodeKey) (stack : List VisitInfo),
    Iter.newLoop { R with getRightmostLeaf := x } v start rem key stack = Iter.newLoop R v start rem key stack := by
  intro rem
  induction rem with
  | nil => intro key stack; unfold Iter.newLoop; rfl
  | cons i rem ih =>
    intro key stack
    unfold Iter.newLoop
    simp only [ih]
    rfl

theorem byIndexLoop_rm (v : Version) (i : Nat) : ∀ (f : Nat) (key : NodeKey) (node : Node) (sk : Nat) (stack : List VisitInfo),
    Iter.byIndexLoop { R with getRightmostLeaf := x } v i f key node sk stack = Iter.byIndexLoop R v i f key node sk stack := by
  intro f
  induction f with
  | zero => intros; rfl
  | succ f ih =>
    intro key node sk stack
    unfold Iter.byIndexLoop
    simp only [ih]
    rfl

theorem newByIndex_rm (v : Version) (i : Nat) :
    Iter.newByIndex { R with getRightmostLeaf := x } v i = Iter.newByIndex R v i := by
  unfold Iter.newByIndex
  simp only [byIndexLoop_rm]
  rfl

theorem iterNextLoop_rm (v : Version) : ∀ (f : Nat) (stack : List VisitInfo),
    Iter.nextLoop { R with getRightmostLeaf := x } v f stack = Iter.nextLoop R v f stack := by
  intro f
  induction f with
  | zero => intros; rfl
  | succ f ih =>
    intro stack
    cases stack with
    | nil => rfl
    | cons a stack =>
      unfold Iter.nextLoop
      simp only [ih]
      rfl

theorem iterNext_rm (it : Iter) : Iter.next { R with getRightmostLeaf := x } it = Iter.next R it := by
  unfold Iter.next
  simp only [iterNextLoop_rm]
  rfl

end

variable {H : Hasher} {R R' : Reader}

/-- Two readers with the same lookups differ in `get_rightmost_leaf` only. -/
theorem sameLookups_eq (h : SameLookups R R') : R' = { R with getRightmostLeaf := R'.getRightmostLeaf } := by
  cases R; cases R'
  simp only [Reader.mk.injEq, and_true]
  exact ⟨funext fun k => (h.node k).symm, funext fun v => funext fun k => (h.value v k).symm⟩

theorem Spec.SameLookups.queries (h : SameLookups R R') : EqualQueries H R R' := by
  rw [sameLookups_eq h]
  exact
    { get := fun _ _ => rfl
      getWithProof := fun _ _ => (getWithProof_rm ..).symm
      rootHash := fun _ => rfl
      rootHashOption := fun _ => rfl
      leafCount := fun _ => rfl
      range := fun _ _ => (getRangeProof_rm ..).symm
      exclusion := fun _ _ => (getWithExclusionProof_rm ..).symm
      ics23 := fun _ _ _ _ => (getWithIcs23Proof_rm ..).symm
      iterNew := fun _ _ => (iterNewLoop_rm ..).symm
      iterByIndex := fun _ _ => (newByIndex_rm ..).symm
      iterNext := fun _ => (iterNext_rm ..).symm }

end Jmt

import Verif.Proofs.Faults
import Verif.Model.Batch
/-!
# Insertion over a reader with faults
-/
namespace Jmt
open Spec (FaultyView AnyFault OnlyErrors RootsNotLost)

variable {H : Hasher} {R' R : Reader} {P : NodeKey → Prop} {Q : Version → KeyHash → Prop}

/-- The same cache over two readers; its root key is a root key. -/
def TRel (R' R : Reader) (t t' : TreeCache) : Prop :=
  t.reader = R' ∧ t' = { t with reader := R } ∧ t.rootNodeKey.path = []

/-- The same result over two readers. -/
def PRel (α : Type) (R' R : Reader) (x y : α × TreeCache) : Prop := x.1 = y.1 ∧ TRel R' R x.2 y.2

/-- The same result over two readers. -/
def PRel2 (α β : Type) (R' R : Reader) (x y : α × β × TreeCache) : Prop := x.1 = y.1 ∧ x.2.1 = y.2.1 ∧ TRel R' R x.2.2 y.2.2

theorem TRel.getNodeOption_some (hf : FaultyView P Q R' R) {t t' : TreeCache} (h : TRel R' R t t') {k : NodeKey} {n : Node}
    (hn : t.getNodeOption k = .ok (some n)) : t'.getNodeOption k = .ok (some n) := by
  obtain ⟨h1, rfl, h0⟩ := h
  unfold TreeCache.getNodeOption TreeCache.base at hn ⊢
  simp only
  split
  · next hc => simp only [hc] at hn; exact hn
  · next hc =>
    simp only [hc] at hn
    split
    · next hb => simp only [hb] at hn; exact hn
    · next hb =>
      simp only [hb, h1] at hn
      rcases hf.node k with h2 | ⟨e, h2⟩ | ⟨-, h2⟩
      · rw [← h2]; exact hn
      · rw [h2] at hn; cases hn
      · rw [h2] at hn; cases hn

theorem TRel.getNodeOption_none (hf : FaultyView P Q R' R) {t t' : TreeCache} (h : TRel R' R t t') {k : NodeKey}
    (hk : ¬ P k) (hn : t.getNodeOption k = .ok none) : t'.getNodeOption k = .ok none := by
  obtain ⟨h1, rfl, h0⟩ := h
  unfold TreeCache.getNodeOption TreeCache.base at hn ⊢
  simp only
  split
  · next hc => simp only [hc] at hn; cases hn
  · next hc =>
    simp only [hc] at hn
    split
    · next hb => simp only [hb] at hn; cases hn
    · next hb =>
      simp only [hb, h1] at hn
      rcases hf.node k with h2 | ⟨e, h2⟩ | ⟨h3, -⟩
      · rw [← h2]; exact hn
      · rw [h2] at hn; cases hn
      · exact absurd h3 hk

theorem TRel.getNodeOption (hf : FaultyView P Q R' R) {t t' : TreeCache} (h : TRel R' R t t') {k : NodeKey}
    (hk : ¬ P k) : Le Eq (t.getNodeOption k) (t'.getNodeOption k) := by
  intro x hx
  cases x with
  | none => exact ⟨_, h.getNodeOption_none hf hk hx, rfl⟩
  | some n => exact ⟨_, h.getNodeOption_some hf hx, rfl⟩

theorem TRel.getNode (hf : FaultyView P Q R' R) {t t' : TreeCache} (h : TRel R' R t t') : GLe t.getNode t'.getNode := by
  intro k x hx
  refine ⟨x, ?_, rfl⟩
  unfold TreeCache.getNode at hx ⊢
  cases hg : t.getNodeOption k with
  | error e => rw [hg] at hx; cases hx
  | ok o =>
    cases o with
    | none => rw [hg] at hx; cases hx
    | some n => rw [h.getNodeOption_some hf hg]; rw [hg] at hx; exact hx

theorem TRel.putNode {t t' : TreeCache} (h : TRel R' R t t') (k : NodeKey) (n : Node) :
    Le (TRel R' R) (t.putNode k n) (t'.putNode k n) := by
  obtain ⟨h1, rfl, h0⟩ := h
  unfold TreeCache.putNode
  simp only
  split
  · exact Le.err
  · exact Le.ok ⟨h1, rfl, h0⟩

theorem TRel.deleteNode {t t' : TreeCache} (h : TRel R' R t t') (k : NodeKey) (b : Bool) :
    Le (TRel R' R) (t.deleteNode k b) (t'.deleteNode k b) := by
  obtain ⟨h1, rfl, h0⟩ := h
  unfold TreeCache.deleteNode
  simp only
  split
  · split
    · exact Le.err
    · exact Le.ok ⟨h1, rfl, h0⟩
  · split
    · exact Le.err
    · exact Le.ok ⟨h1, rfl, h0⟩

theorem TRel.putValue {t t' : TreeCache} (h : TRel R' R t t') (v : Nat) (k : KeyHash) (x : Option Value) :
    TRel R' R (t.putValue v k x) (t'.putValue v k x) := by
  obtain ⟨h1, rfl, h0⟩ := h
  exact ⟨h1, rfl, h0⟩

theorem TRel.setRoot {t t' : TreeCache} (h : TRel R' R t t') {k : NodeKey} (hk : k.path = []) :
    TRel R' R (t.setRootNodeKey k) (t'.setRootNodeKey k) := by
  obtain ⟨h1, rfl, h0⟩ := h
  exact ⟨h1, rfl, hk⟩

theorem TRel.rootNodeKey {t t' : TreeCache} (h : TRel R' R t t') : t'.rootNodeKey = t.rootNodeKey := by
  obtain ⟨h1, rfl, h0⟩ := h
  rfl

theorem createLeafNode_le {t t' : TreeCache} (h : TRel R' R t t') (nk : NodeKey) (vis rem : List Nibble) (vh : ValueHash) :
    Le (PRel2 _ _ R' R) (createLeafNode t nk vis rem vh) (createLeafNode t' nk vis rem vh) := by
  unfold createLeafNode
  split
  · exact Le.err
  · exact (h.putNode _ _).bind fun _ _ h => Le.ok ⟨rfl, rfl, h⟩

theorem chainUp_le (version : Nat) : ∀ (c : Nat) {t t' : TreeCache} (_ : TRel R' R t t') (nk : NodeKey) (path : List Nibble)
    (node : InternalNode), Le (PRel2 _ _ R' R) (chainUp H version c t nk path node) (chainUp H version c t' nk path node) := by
  intro c
  induction c with
  | zero => intro t t' h nk path node; exact Le.ok ⟨rfl, rfl, h⟩
  | succ c ih =>
    intro t t' h nk path node
    unfold chainUp
    split
    · exact Le.err
    · exact Le.same fun _ => Le.same fun _ => (h.putNode _ _).bind fun _ _ h => ih h _ _ _

theorem insertAtLeafNode_le {t t' : TreeCache} (h : TRel R' R t t') (version : Nat) (value : Option ValueHash) (wp : Bool)
    (nk : NodeKey) (leaf : LeafNode) (vis rem : List Nibble) :
    Le (PRel2 _ _ R' R) (insertAtLeafNode H version value wp nk leaf vis rem t)
      (insertAtLeafNode H version value wp nk leaf vis rem t') := by
  unfold insertAtLeafNode
  simp only
  split
  · exact Le.err
  · split
    · split
      · exact Le.err
      · refine (h.deleteNode _ _).bind fun t t' h => ?_
        split
        · refine (createLeafNode_le h _ _ _ _).bind ?_
          rintro ⟨a, b, t⟩ ⟨a', b', t'⟩ ⟨h1, h2, h⟩
          cases h1; cases h2
          exact Le.ok ⟨rfl, rfl, h⟩
        · exact Le.ok ⟨rfl, rfl, h⟩
    · split
      · exact Le.ok ⟨rfl, rfl, h⟩
      · refine (h.deleteNode _ _).bind fun t t' h => ?_
        split
        · exact Le.err
        · split
          · exact Le.err
          · refine Le.same fun ok => (h.putNode _ _).bind fun t t' h => Le.same fun nk' =>
              (createLeafNode_le h _ _ _ _).bind ?_
            rintro ⟨a, b, t⟩ ⟨a', b', t'⟩ ⟨h1, h2, h⟩
            cases h1; cases h2
            refine Le.same fun nh => Le.same fun inode => (h.putNode _ _).bind fun t t' h => (chainUp_le _ _ h _ _ _).bind ?_
            rintro ⟨a, b, t⟩ ⟨a', b', t'⟩ ⟨h1, h2, h⟩
            cases h1; cases h2
            exact Le.ok ⟨rfl, rfl, h⟩

theorem rewriteInternal_le (hf : FaultyView P Q R' R) {t t' : TreeCache} (h : TRel R' R t t') (version : Nat) (nk : NodeKey)
    (cs : Children) (p : Option SMProof) :
    Le (PRel2 _ _ R' R) (rewriteInternal version nk cs p t) (rewriteInternal version nk cs p t') := by
  unfold rewriteInternal
  refine (h.deleteNode _ _).bind fun t t' h => ?_
  simp only
  split
  · exact Le.ok ⟨rfl, rfl, h⟩
  · split
    · exact Le.same fun ck => (h.getNode hf ck).bindEq fun cn => (h.deleteNode _ _).bind fun t t' h =>
        (h.putNode _ _).bind fun t t' h => Le.ok ⟨rfl, rfl, h⟩
    · exact Le.same fun _ => (h.putNode _ _).bind fun t t' h => Le.ok ⟨rfl, rfl, h⟩
  · exact Le.same fun _ => (h.putNode _ _).bind fun t t' h => Le.ok ⟨rfl, rfl, h⟩

theorem rebuildInternal_le (hf : FaultyView P Q R' R) {t t' : TreeCache} (h : TRel R' R t t') (version : Nat) (wp : Bool)
    (nk : NodeKey) (node : InternalNode) (idx : Nibble) (r : PutResult) (p : Option SMProof) :
    Le (PRel2 _ _ R' R) (rebuildInternal H version wp nk node idx r p t) (rebuildInternal H version wp nk node idx r p t') := by
  unfold rebuildInternal
  split
  · exact Le.ok ⟨rfl, rfl, h⟩
  · exact Le.same fun cs => rewriteInternal_le hf h _ _ _ _

theorem closestLeaf_le (hf : FaultyView P Q R' R) {t t' : TreeCache} (h : TRel R' R t t') (ck : Option NodeKey) :
    Le Eq (closestLeaf t ck) (closestLeaf t' ck) := by
  intro x hx
  refine ⟨x, ?_, rfl⟩
  unfold closestLeaf at hx ⊢
  cases ck with
  | none => exact hx
  | some k =>
    simp only at hx ⊢
    cases hn : t.getNode k with
    | error e => rw [hn] at hx; cases hx
    | ok n => rw [hn] at hx; rw [(h.getNode hf k).eq hn]; exact hx

theorem insertAtInternalNode_le (hf : FaultyView P Q R' R) {t t' : TreeCache} (h : TRel R' R t t') (version : Nat)
    (value : Option ValueHash) (wp : Bool) {rec : NodeKey → TreeCache → InsertRes}
    (hrec : ∀ nk {t t' : TreeCache}, TRel R' R t t' → Le (PRel2 _ _ R' R) (rec nk t) (rec nk t'))
    (nk : NodeKey) (node : InternalNode) (idx : Nibble) (vis rem : List Nibble) :
    Le (PRel2 _ _ R' R) (insertAtInternalNode H version value wp rec nk node idx vis rem t)
      (insertAtInternalNode H version value wp rec nk node idx vis rem t') := by
  unfold insertAtInternalNode
  have key : ∀ (x y : PutResult × Option SMProof × TreeCache), PRel2 _ _ R' R x y →
      Le (PRel2 _ _ R' R) (match x with | (r, p, t) => rebuildInternal H version wp nk node idx r p t)
        (match y with | (r, p, t) => rebuildInternal H version wp nk node idx r p t) := by
    rintro ⟨a, b, t⟩ ⟨a', b', t'⟩ ⟨h1, h2, h⟩
    cases h1; cases h2
    exact rebuildInternal_le hf h _ _ _ _ _ _ _
  refine Le.bind ?_ key
  split
  · refine Le.bindEq (a := childKeyAndSiblings H wp nk node idx _ t) ?_ fun x => (hrec _ h).bind ?_
    · unfold childKeyAndSiblings
      split
      · exact (getChildWithSiblings_le (h.getNode hf) _ _ _ _).bindEq fun x => Le.refl _
      · exact Le.refl _
    · rintro ⟨a, b, t⟩ ⟨a', b', t'⟩ ⟨h1, h2, h⟩
      cases h1; cases h2
      exact Le.ok ⟨rfl, rfl, h⟩
  · refine Le.bindEq ?_ fun p => ?_
    · split
      · exact (getChildWithSiblings_le (h.getNode hf) _ _ _ _).bindEq fun x =>
          (closestLeaf_le hf h _).bindEq fun _ => Le.refl _
      · exact Le.refl _
    · split
      · refine Le.same fun nk' => (createLeafNode_le h _ _ _ _).bind ?_
        rintro ⟨a, b, t⟩ ⟨a', b', t'⟩ ⟨h1, h2, h⟩
        cases h1; cases h2
        exact Le.ok ⟨rfl, rfl, h⟩
      · exact Le.ok ⟨rfl, rfl, h⟩

theorem insertAtNull_le {t t' : TreeCache} (h : TRel R' R t t') (version : Nat)
    (value : Option ValueHash) (wp : Bool) (nk : NodeKey) (ex : Bool) (vis rem : List Nibble) :
    Le (PRel2 _ _ R' R) (insertAtNull version value wp nk ex vis rem t) (insertAtNull version value wp nk ex vis rem t') := by
  unfold insertAtNull
  split
  · exact Le.err
  · refine Le.bind (Q := TRel R' R) ?_ fun t t' h => ?_
    · split
      · exact h.deleteNode _ _
      · exact Le.ok h
    · split
      · refine (createLeafNode_le h _ _ _ _).bind ?_
        rintro ⟨a, b, t⟩ ⟨a', b', t'⟩ ⟨h1, h2, h⟩
        cases h1; cases h2
        exact Le.ok ⟨rfl, rfl, h⟩
      · exact Le.ok ⟨rfl, rfl, h⟩

theorem insertAt_le (hf : RootsNotLost R' R) (version : Nat) (value : Option ValueHash) (wp : Bool) :
    ∀ (rem vis : List Nibble) (nk : NodeKey) {t t' : TreeCache}, TRel R' R t t' →
    Le (PRel2 _ _ R' R) (insertAt H version value wp rem vis nk t) (insertAt H version value wp rem vis nk t') := by
  intro rem
  induction rem with
  | nil =>
    intro vis nk t t' h x hx
    unfold insertAt at hx ⊢
    obtain ⟨o, h1, h2⟩ := bind_ok_inv hx
    cases o with
    | some n =>
      rw [h.getNodeOption_some hf h1, ok_bind]
      cases n with
      | internal n => exact Le.err x h2
      | leaf l => exact insertAtLeafNode_le h _ _ _ _ _ _ _ x h2
      | null => exact insertAtNull_le h _ _ _ _ _ _ _ x h2
    | none =>
      by_cases hp : nk.path = []
      · rw [h.getNodeOption_none hf (fun hn => hn hp) h1, ok_bind]
        exact insertAtNull_le h _ _ _ _ _ _ _ x h2
      · simp only [insertAtNull, if_pos hp] at h2
        cases h2
  | cons i rem ih =>
    intro vis nk t t' h x hx
    unfold insertAt at hx ⊢
    obtain ⟨o, h1, h2⟩ := bind_ok_inv hx
    cases o with
    | some n =>
      rw [h.getNodeOption_some hf h1, ok_bind]
      cases n with
      | internal n => exact insertAtInternalNode_le hf h _ _ _ (fun nk _ _ h => ih _ nk h) _ _ _ _ _ x h2
      | leaf l => exact insertAtLeafNode_le h _ _ _ _ _ _ _ x h2
      | null => exact insertAtNull_le h _ _ _ _ _ _ _ x h2
    | none =>
      by_cases hp : nk.path = []
      · rw [h.getNodeOption_none hf (fun hn => hn hp) h1, ok_bind]
        exact insertAtNull_le h _ _ _ _ _ _ _ x h2
      · simp only [insertAtNull, if_pos hp] at h2
        cases h2

/-! ### The root key stays a root key -/

theorem chainUp_path (version : Nat) : ∀ (c : Nat) (t : TreeCache) (nk : NodeKey) (path : List Nibble) (node : InternalNode)
    (nk' : NodeKey) (n' : InternalNode) (t' : TreeCache), path.length = c → nk.path = path →
    chainUp H version c t nk path node = .ok (nk', n', t') → nk'.path = [] := by
  intro c
  induction c with
  | zero =>
    intro t nk path node nk' n' t' h1 h2 h
    cases h
    rw [h2]; exact List.length_eq_zero_iff.1 h1
  | succ c ih =>
    intro t nk path node nk' n' t' h1 h2 h
    unfold chainUp at h
    split at h
    · cases h
    · obtain ⟨_, -, h⟩ := bind_ok_inv h
      obtain ⟨_, -, h⟩ := bind_ok_inv h
      obtain ⟨_, -, h⟩ := bind_ok_inv h
      exact ih _ _ _ _ _ _ _ (by simp [h1]) rfl h

theorem createLeafNode_key {t : TreeCache} {nk : NodeKey} {vis rem : List Nibble} {vh : ValueHash} {x}
    (h : createLeafNode t nk vis rem vh = .ok x) : x.1 = nk := by
  unfold createLeafNode at h
  split at h
  · cases h
  · obtain ⟨_, -, h⟩ := bind_ok_inv h
    cases h; rfl

/-- The node reported as the new node sits at the root path. -/
def RootPut : PutResult → Prop
  | .updated nk _ => nk.path = []
  | _ => True

theorem skipCommonPrefix_length {α : Type} [DecidableEq α] : ∀ (xs ys : List α),
    (skipCommonPrefix xs ys).1 ≤ xs.length := by
  intro xs
  induction xs with
  | nil => intro ys; cases ys <;> simp [skipCommonPrefix]
  | cons x xs ih =>
    intro ys
    cases ys with
    | nil => simp [skipCommonPrefix]
    | cons y ys =>
      unfold skipCommonPrefix
      split
      · have := ih ys; simp; omega
      · simp

theorem insertAtLeafNode_root {t : TreeCache} {version : Nat} {value : Option ValueHash} {wp : Bool}
    {nk : NodeKey} {leaf : LeafNode} {rem : List Nibble} (hp : nk.path = []) {x}
    (h : insertAtLeafNode H version value wp nk leaf [] rem t = .ok x) : RootPut x.1 := by
  unfold insertAtLeafNode at h
  simp only at h
  split at h
  · cases h
  · split at h
    · split at h
      · cases h
      · obtain ⟨_, -, h⟩ := bind_ok_inv h
        split at h
        · obtain ⟨y, h1, h⟩ := bind_ok_inv h
          cases h
          show y.1.path = []
          rw [createLeafNode_key h1]; exact hp
        · cases h; trivial
    · split at h
      · cases h; trivial
      · obtain ⟨_, -, h⟩ := bind_ok_inv h
        split at h
        · cases h
        · split at h
          · cases h
          · obtain ⟨_, -, h⟩ := bind_ok_inv h
            obtain ⟨_, -, h⟩ := bind_ok_inv h
            obtain ⟨_, -, h⟩ := bind_ok_inv h
            obtain ⟨_, -, h⟩ := bind_ok_inv h
            obtain ⟨_, -, h⟩ := bind_ok_inv h
            obtain ⟨_, -, h⟩ := bind_ok_inv h
            obtain ⟨_, -, h⟩ := bind_ok_inv h
            obtain ⟨⟨a, b, c⟩, h1, h⟩ := bind_ok_inv h
            cases h
            refine chainUp_path _ _ _ _ _ _ _ _ _ ?_ rfl h1
            simp only [List.nil_append, List.length_take]
            have := skipCommonPrefix_length rem (skipCommonPrefix [] leaf.keyHash.nibbles).2.2
            omega

theorem rewriteInternal_root {t : TreeCache} {version : Nat} {nk : NodeKey} {cs : Children} {p : Option SMProof}
    (hp : nk.path = []) {x} (h : rewriteInternal version nk cs p t = .ok x) : RootPut x.1 := by
  unfold rewriteInternal at h
  obtain ⟨_, -, h⟩ := bind_ok_inv h
  simp only at h
  split at h
  · cases h; trivial
  · split at h
    · obtain ⟨_, -, h⟩ := bind_ok_inv h
      obtain ⟨_, -, h⟩ := bind_ok_inv h
      obtain ⟨_, -, h⟩ := bind_ok_inv h
      obtain ⟨_, -, h⟩ := bind_ok_inv h
      cases h; exact hp
    · obtain ⟨_, -, h⟩ := bind_ok_inv h
      obtain ⟨_, -, h⟩ := bind_ok_inv h
      cases h; exact hp
  · obtain ⟨_, -, h⟩ := bind_ok_inv h
    obtain ⟨_, -, h⟩ := bind_ok_inv h
    cases h; exact hp

theorem insertAtNull_root {t : TreeCache} {version : Nat} {value : Option ValueHash} {wp : Bool}
    {nk : NodeKey} {ex : Bool} {vis rem : List Nibble} {x}
    (h : insertAtNull version value wp nk ex vis rem t = .ok x) : RootPut x.1 := by
  unfold insertAtNull at h
  split at h
  · cases h
  · obtain ⟨_, -, h⟩ := bind_ok_inv h
    split at h
    · obtain ⟨y, h1, h⟩ := bind_ok_inv h
      cases h
      show y.1.path = []
      rw [createLeafNode_key h1]; rfl
    · cases h; trivial

theorem insertAt_root {t : TreeCache} {version : Nat} {value : Option ValueHash} {wp : Bool}
    {nk : NodeKey} {rem : List Nibble} (hp : nk.path = []) {x}
    (h : insertAt H version value wp rem [] nk t = .ok x) : RootPut x.1 := by
  unfold insertAt at h
  obtain ⟨o, -, h⟩ := bind_ok_inv h
  split at h
  · split at h
    · cases h
    · unfold insertAtInternalNode at h
      obtain ⟨⟨a, b, c⟩, -, h⟩ := bind_ok_inv h
      simp only [rebuildInternal] at h
      split at h
      · cases h; trivial
      · obtain ⟨_, -, h⟩ := bind_ok_inv h
        exact rewriteInternal_root hp h
  · exact insertAtLeafNode_root hp h
  · exact insertAtNull_root h
  · exact insertAtNull_root h

theorem put_le (hf : RootsNotLost R' R) (key : KeyHash) (version : Nat) (value : Option ValueHash) (wp : Bool)
    {t t' : TreeCache} (h : TRel R' R t t') :
    Le (PRel _ R' R) (put H key value version t wp) (put H key value version t' wp) := by
  intro x hx
  unfold put at hx ⊢
  rw [h.rootNodeKey]
  obtain ⟨⟨a, b, t1⟩, h1, h6⟩ := bind_ok_inv hx
  clear hx
  obtain ⟨⟨a', b', t1'⟩, h2, h3, h4, h5⟩ := insertAt_le hf _ _ _ _ _ _ h _ h1
  rw [h2, ok_bind]
  have hr := insertAt_root h.2.2 h1
  cases h3; cases h4
  have h5 : TRel R' R t1 t1' := h5
  cases a with
  | updated nk n => cases h6; exact ⟨_, rfl, rfl, h5.setRoot hr⟩
  | notChanged => cases h6; exact ⟨_, rfl, rfl, h5⟩
  | removed =>
    have h7 : TRel R' R (t1.setRootNodeKey (NodeKey.root version)) (t1'.setRootNodeKey (NodeKey.root version)) := h5.setRoot rfl
    obtain ⟨u, h8, h6⟩ := bind_ok_inv h6
    obtain ⟨u', h9, h10⟩ := h7.putNode _ _ _ h8
    cases h6
    refine ⟨(b, u'), ?_, rfl, h10⟩
    show (_ >>= _) = _
    rw [h9]; rfl

theorem putAll_le (hf : RootsNotLost R' R) (version : Nat) (wp : Bool) : ∀ (vs : ValueSet) {t t' : TreeCache},
    TRel R' R t t' → Le (PRel _ R' R) (putAll H version wp vs t) (putAll H version wp vs t') := by
  intro vs
  induction vs with
  | nil => intro t t' h; exact Le.ok ⟨rfl, h⟩
  | cons e vs ih =>
    intro t t' h
    obtain ⟨k, x⟩ := e
    unfold putAll
    refine (put_le hf k version (x.map H.hash) wp (h.putValue version k x)).bind ?_
    rintro ⟨a, t⟩ ⟨a', t'⟩ ⟨h1, h⟩
    cases h1
    refine Le.same fun ps => (ih h).bind ?_
    rintro ⟨a, t⟩ ⟨a', t'⟩ ⟨h1, h⟩
    cases h1
    exact Le.ok ⟨rfl, h⟩

theorem freeze_le (hf : RootsNotLost R' R) {t t' : TreeCache} (h : TRel R' R t t') :
    Le (TRel R' R) (t.freeze H) (t'.freeze H) := by
  unfold TreeCache.freeze
  refine Le.bind (Q := PRel _ R' R) ?_ ?_
  · unfold TreeCache.freezeRoot
    rw [h.rootNodeKey]
    refine (h.getNodeOption hf (fun hn => hn h.2.2)).bindEq fun o => ?_
    cases o with
    | some n => exact Le.ok ⟨rfl, h⟩
    | none => exact (h.putNode _ _).bind fun _ _ h => Le.ok ⟨rfl, h⟩
  · rintro ⟨a, t⟩ ⟨a', t'⟩ ⟨h1, h⟩
    cases h1
    refine Le.same fun d => ?_
    have h' : TRel R' R { t with frozen := { t.frozen with rootHashes := t.frozen.rootHashes ++ [d] } }
        { t' with frozen := { t'.frozen with rootHashes := t'.frozen.rootHashes ++ [d] } } := by
      obtain ⟨h1, rfl, h0⟩ := h
      exact ⟨h1, rfl, h0⟩
    revert h'
    generalize ({ t with frozen := { t.frozen with rootHashes := t.frozen.rootHashes ++ [d] } } : TreeCache) = u
    generalize ({ t' with frozen := { t'.frozen with rootHashes := t'.frozen.rootHashes ++ [d] } } : TreeCache) = u'
    intro h
    refine Le.bind (Q := TRel R' R) ?_ fun t t' h => ?_
    · have hg := h.getNode hf u.rootNodeKey
      have h0 := h
      obtain ⟨h1, rfl, h2⟩ := h0
      unfold TreeCache.freezeCopy
      simp only
      split
      · exact hg.bindEq fun n => h.putNode _ _
      · exact Le.ok h
    · obtain ⟨h1, rfl, h0⟩ := h
      unfold TreeCache.freezeDrain
      simp only
      split
      · exact Le.ok ⟨h1, rfl, h0⟩
      · exact Le.err

theorem putSets_le (hf : RootsNotLost R' R) (wp : Bool) : ∀ (sets : List ValueSet) (version : Nat) {t t' : TreeCache},
    TRel R' R t t' → Le (PRel _ R' R) (putSets H wp version sets t) (putSets H wp version sets t') := by
  intro sets
  induction sets with
  | nil => intro version t t' h; exact Le.ok ⟨rfl, h⟩
  | cons vs sets ih =>
    intro version t t' h
    unfold putSets
    refine (putAll_le hf version wp vs h).bind ?_
    rintro ⟨a, t⟩ ⟨a', t'⟩ ⟨h1, h⟩
    cases h1
    refine (freeze_le hf h).bind fun t t' h => (ih _ h).bind ?_
    rintro ⟨a, t⟩ ⟨a', t'⟩ ⟨h1, h⟩
    cases h1
    exact Le.ok ⟨rfl, h⟩

theorem TRel.finish {t t' : TreeCache} (h : TRel R' R t t') : t.finish = t'.finish := by
  obtain ⟨h1, rfl, h0⟩ := h
  rfl

theorem new_le (hf : RootsNotLost R' R) (first : Nat) : Le (TRel R' R) (TreeCache.new R' first) (TreeCache.new R first) := by
  unfold TreeCache.new
  split
  · refine Le.bindEq (a := R'.getNodeOption (NodeKey.root preGenesisVersion)) ?_ fun o => ?_
    · intro x hx
      rcases hf.node (NodeKey.root preGenesisVersion) with h2 | ⟨e, h2⟩ | ⟨h3, -⟩
      · rw [← h2]; exact ⟨x, hx, rfl⟩
      · rw [h2] at hx; cases hx
      · exact absurd rfl h3
    · cases o with
      | some n => exact Le.ok ⟨rfl, rfl, rfl⟩
      | none => exact Le.ok ⟨rfl, rfl, rfl⟩
  · exact Le.ok ⟨rfl, rfl, rfl⟩

theorem putValueSets_le (hf : RootsNotLost R' R) (sets : List ValueSet) (first : Nat) :
    Le Eq (putValueSets H R' sets first) (putValueSets H R sets first) := by
  unfold putValueSets
  refine (new_le hf first).bind fun t t' h => (putSets_le hf false sets first h).bind ?_
  rintro ⟨a, t⟩ ⟨a', t'⟩ ⟨h1, h⟩
  exact Le.ok h.finish

theorem putValueSetsWithProof_le (hf : RootsNotLost R' R) (sets : List ValueSet) (first : Nat) :
    Le Eq (putValueSetsWithProof H R' sets first) (putValueSetsWithProof H R sets first) := by
  unfold putValueSetsWithProof
  refine (new_le hf first).bind fun t t' h => (putSets_le hf true sets first h).bind ?_
  rintro ⟨a, t⟩ ⟨a', t'⟩ ⟨h1, h⟩
  cases h1
  simp only [h.finish]
  exact Le.refl _

theorem appendValueSet_le (hf : RootsNotLost R' R) (vs : ValueSet) (v : Nat) :
    Le Eq (appendValueSet H R' vs v) (appendValueSet H R vs v) := by
  unfold appendValueSet
  refine Le.bind (Q := TRel R' R) ?_ fun t t' h => (putAll_le hf v false vs h).bind ?_
  · unfold TreeCache.newOverwrite
    refine Le.bindEq (a := R'.getRightmostLeaf) ?_ fun o => ?_
    · intro x hx
      rcases hf.rightmost with h | ⟨e, h⟩
      · rw [← h]; exact ⟨x, hx, rfl⟩
      · rw [h] at hx; cases hx
    · cases o with
      | none => exact Le.err
      | some y =>
        simp only
        split
        · exact Le.ok ⟨rfl, rfl, rfl⟩
        · exact Le.err
  · rintro ⟨a, t⟩ ⟨a', t'⟩ ⟨h1, h⟩
    refine (freeze_le hf h).bind fun t t' h => ?_
    simp only [h.finish]
    exact Le.refl _

/-! ### The batch API -/

/-- The same result over two readers, and the key of the new node is `K`. -/
def BRel (p : List Nibble) (R' R : Reader) (x y : NodeKey × Node × TreeCache) : Prop :=
  PRel2 _ _ R' R x y ∧ x.1.path = p

theorem batchLoop_le (cache : HashCache) (version : Nat)
    {ch : Nibble → List Kv → TreeCache → Except Err (NodeKey × Node × TreeCache)}
    (hch : ∀ c g {t t' : TreeCache}, TRel R' R t t' → Le (PRel2 _ _ R' R) (ch c g t) (ch c g t')) :
    ∀ (gs : List (Nibble × List Kv)) (cs : Children) {t t' : TreeCache}, TRel R' R t t' →
    Le (PRel _ R' R) (batchLoop H cache version ch gs cs t) (batchLoop H cache version ch gs cs t') := by
  intro gs
  induction gs with
  | nil => intro cs t t' h; exact Le.ok ⟨rfl, h⟩
  | cons g gs ih =>
    intro cs t t' h
    obtain ⟨c, g⟩ := g
    unfold batchLoop
    refine (hch c g h).bind ?_
    rintro ⟨a, b, t⟩ ⟨a', b', t'⟩ ⟨h1, h2, h⟩
    cases h1; cases h2
    exact Le.same fun d => Le.same fun ty => ih _ h

theorem batchFinish_le {t t' : TreeCache} (h : TRel R' R t t') (nk : NodeKey) (cs : Children) :
    Le (BRel nk.path R' R) (batchFinish nk cs t) (batchFinish nk cs t') := by
  unfold batchFinish
  exact Le.same fun n => (h.putNode _ _).bind fun _ _ h => Le.ok ⟨⟨rfl, rfl, h⟩, rfl⟩

theorem batchLeaf_le {t t' : TreeCache} (h : TRel R' R t t') (nk : NodeKey) (kv : Kv) :
    Le (BRel nk.path R' R) (batchLeaf nk kv t) (batchLeaf nk kv t') := by
  unfold batchLeaf
  exact (h.putNode _ _).bind fun _ _ h => Le.ok ⟨⟨rfl, rfl, h⟩, rfl⟩

theorem BRel.le {p : List Nibble} {a b : Except Err (NodeKey × Node × TreeCache)} (h : Le (BRel p R' R) a b) :
    Le (PRel2 _ _ R' R) a b := by
  intro x hx
  obtain ⟨y, h1, h2⟩ := h x hx
  exact ⟨y, h1, h2.1⟩

theorem batchCreateSubtree_le (cache : HashCache) (version : Nat) : ∀ (fuel : Nat) (nk : NodeKey) (kvs : List Kv)
    (depth : Nat) {t t' : TreeCache}, TRel R' R t t' →
    Le (BRel nk.path R' R) (batchCreateSubtree H cache version fuel nk kvs depth t)
      (batchCreateSubtree H cache version fuel nk kvs depth t') := by
  intro fuel
  induction fuel with
  | zero =>
    intro nk kvs depth t t' h
    unfold batchCreateSubtree
    split
    · exact batchLeaf_le h _ _
    · exact Le.err
    · next heq _ => cases heq
  | succ fuel ih =>
    intro nk kvs depth t t' h
    unfold batchCreateSubtree
    split
    · exact batchLeaf_le h _ _
    · exact Le.err
    · next heq _ =>
      cases heq
      refine Le.same fun gs => Le.bind (batchLoop_le cache version ?_ gs _ h) ?_
      · exact fun c g _ _ h => Le.same fun ck => BRel.le (ih ck g _ h)
      · rintro ⟨a, t⟩ ⟨a', t'⟩ ⟨h1, h⟩
        cases h1
        exact batchFinish_le h _ _

theorem batchWithLeaf_le (cache : HashCache) (version : Nat) (leaf : LeafNode) : ∀ (fuel : Nat) (nk : NodeKey)
    (kvs : List Kv) (depth : Nat) {t t' : TreeCache}, TRel R' R t t' →
    Le (BRel nk.path R' R) (batchWithLeaf H cache version leaf fuel nk kvs depth t)
      (batchWithLeaf H cache version leaf fuel nk kvs depth t') := by
  intro fuel
  induction fuel with
  | zero =>
    intro nk kvs depth t t' h
    unfold batchWithLeaf
    split
    · exact batchLeaf_le h _ _
    · exact Le.err
  | succ fuel ih =>
    intro nk kvs depth t t' h
    unfold batchWithLeaf
    split
    · exact batchLeaf_le h _ _
    · refine Le.same fun bucket => Le.same fun gs => Le.bind (batchLoop_le cache version ?_ gs _ h) ?_
      · refine fun c g _ _ h => Le.same fun ck => ?_
        split
        · exact BRel.le (ih ck g _ h)
        · exact BRel.le (batchCreateSubtree_le cache version fuel ck g _ h)
      · rintro ⟨a, t⟩ ⟨a', t'⟩ ⟨h1, h⟩
        cases h1
        refine Le.bind (Q := PRel _ R' R) ?_ ?_
        · unfold batchIsolate
          split
          · exact Le.same fun lk => (h.putNode _ _).bind fun _ _ h => Le.ok ⟨rfl, h⟩
          · exact Le.ok ⟨rfl, h⟩
        · rintro ⟨a, t⟩ ⟨a', t'⟩ ⟨h1, h⟩
          cases h1
          exact batchFinish_le h _ _

theorem batchInsertAt_le (hf : FaultyView P Q R' R) (cache : HashCache) (version : Nat) : ∀ (fuel : Nat) (nk : NodeKey)
    (kvs : List Kv) (depth : Nat) {t t' : TreeCache}, TRel R' R t t' →
    Le (BRel nk.path R' R) (batchInsertAt H cache version fuel nk kvs depth t)
      (batchInsertAt H cache version fuel nk kvs depth t') := by
  have hleaf : ∀ (fuel : Nat) (l : LeafNode) (nk : NodeKey) (kvs : List Kv) (depth : Nat) {t t' : TreeCache},
      TRel R' R t t' → Le (BRel nk.path R' R)
        (t.deleteNode nk true >>= fun t => batchWithLeaf H cache version l fuel (nk.setVersion version) kvs depth t)
        (t'.deleteNode nk true >>= fun t => batchWithLeaf H cache version l fuel (nk.setVersion version) kvs depth t) :=
    fun fuel l nk kvs depth _ _ h => (h.deleteNode _ _).bind fun _ _ h => batchWithLeaf_le cache version l fuel (nk.setVersion version) kvs depth h
  have hnull : ∀ (fuel : Nat) (nk : NodeKey) (kvs : List Kv) (depth : Nat) {t t' : TreeCache},
      TRel R' R t t' → Le (BRel nk.path R' R)
        (if nk.path ≠ [] then .error (.bail "Null node exists for non-root node")
          else do
          let tc ← (if nk.version = version then t.deleteNode nk false else .ok t)
          batchCreateSubtree H cache version fuel (NodeKey.root version) kvs depth tc)
        (if nk.path ≠ [] then .error (.bail "Null node exists for non-root node")
          else do
          let tc ← (if nk.version = version then t'.deleteNode nk false else .ok t')
          batchCreateSubtree H cache version fuel (NodeKey.root version) kvs depth tc) := by
    intro fuel nk kvs depth t t' h
    split
    · exact Le.err
    · next hp =>
      have hp : nk.path = [] := Classical.byContradiction hp
      rw [hp]
      refine Le.bind (Q := TRel R' R) ?_ fun t t' h => batchCreateSubtree_le cache version fuel (NodeKey.root version) kvs depth h
      split
      · exact h.deleteNode _ _
      · exact Le.ok h
  intro fuel
  induction fuel with
  | zero =>
    intro nk kvs depth t t' h
    unfold batchInsertAt
    split
    · exact Le.err
    · refine (h.getNode hf nk).bindEq fun node => ?_
      cases node with
      | internal n => exact (h.deleteNode _ _).bind fun _ _ h => Le.err
      | leaf l => exact hleaf _ _ _ _ _ h
      | null => exact hnull _ _ _ _ h
  | succ fuel ih =>
    intro nk kvs depth t t' h
    unfold batchInsertAt
    split
    · exact Le.err
    · refine (h.getNode hf nk).bindEq fun node => ?_
      cases node with
      | internal n =>
        refine (h.deleteNode _ _).bind fun t t' h => Le.same fun gs => Le.bind (batchLoop_le cache version ?_ gs _ h) ?_
        · intro c g t t' h
          split
          · exact Le.same fun ck => BRel.le (ih ck g _ h)
          · exact Le.same fun ck => BRel.le (batchCreateSubtree_le cache version fuel ck g _ h)
        · rintro ⟨a, t⟩ ⟨a', t'⟩ ⟨h1, h⟩
          cases h1
          exact batchFinish_le (nk := nk.setVersion version) h _
      | leaf l => exact hleaf _ _ _ _ _ h
      | null => exact hnull _ _ _ _ h

theorem batchPutValueSets_le (hf : RootsNotLost R' R) (sets : List (List (KeyHash × Value)))
    (nodeHashes : Option (List (List Nibble → Option Digest))) (first : Nat) :
    Le Eq (batchPutValueSets H R' sets nodeHashes first) (batchPutValueSets H R sets nodeHashes first) := by
  have hset : ∀ (version : Nat) (set : List (KeyHash × Value)) (cache : HashCache) {t t' : TreeCache}, TRel R' R t t' →
      Le (TRel R' R) (batchSet H version set cache t) (batchSet H version set cache t') := by
    intro version set cache t t' h
    unfold batchSet
    split
    · exact Le.err
    · have hv : ∀ (kvs : List (KeyHash × Value)) {t t' : TreeCache}, TRel R' R t t' →
          TRel R' R (kvs.foldl (fun tc kv => tc.putValue version kv.1 (some kv.2)) t)
            (kvs.foldl (fun tc kv => tc.putValue version kv.1 (some kv.2)) t') := by
        intro kvs
        induction kvs with
        | nil => intro t t' h; exact h
        | cons kv kvs ih => intro t t' h; exact ih (h.putValue _ _ _)
      have h := hv (dedupSorted set) h
      simp only
      rw [h.rootNodeKey]
      refine (batchInsertAt_le hf cache version 64 _ _ 0 h).bind ?_
      rintro ⟨a, b, u⟩ ⟨a', b', u'⟩ ⟨⟨h1, h2, h3⟩, h4⟩
      cases h1; cases h2
      exact freeze_le hf (h3.setRoot (h4.trans h.2.2))
  have hsets : ∀ (sets : List (List (KeyHash × Value))) (version : Nat) (caches : List HashCache) {t t' : TreeCache},
      TRel R' R t t' → Le (TRel R' R) (batchSets H version sets caches t) (batchSets H version sets caches t') := by
    intro sets
    induction sets with
    | nil =>
      intro version caches t t' h
      cases caches with
      | nil => exact Le.ok h
      | cons c cs => exact Le.err
    | cons s sets ih =>
      intro version caches t t' h
      cases caches with
      | nil => exact Le.err
      | cons c cs => exact (hset version s c h).bind fun _ _ h => ih _ _ h
  unfold batchPutValueSets
  exact (new_le hf first).bind fun t t' h => (hsets _ _ _ h).bind fun t t' h => Le.ok h.finish

end Jmt

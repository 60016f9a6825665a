import Verif.Proofs.FaultsPut
import Verif.Spec.Shuffle
/-!
# The update calls respect the order of hash tables
-/
namespace Jmt
open Spec (SameLookups)

/-! ### Calls that end alike -/

theorem Alike.bind {α β γ δ : Type} {Q : α → β → Prop} {P : γ → δ → Prop} {a : Except Err α} {b : Except Err β}
    {f : α → Except Err γ} {g : β → Except Err δ} (h : Alike Q a b) (hf : ∀ x y, Q x y → Alike P (f x) (g y)) :
    Alike P (a >>= f) (b >>= g) := by
  cases a with
  | error e =>
    cases b with
    | error e' => exact h
    | ok y => exact h.elim
  | ok x =>
    cases b with
    | error e' => exact h.elim
    | ok y => exact hf x y h

theorem Alike.refl {α : Type} (a : Except Err α) : Alike Eq a a := by
  cases a <;> exact rfl

theorem Alike.same {α γ δ : Type} {P : γ → δ → Prop} {a : Except Err α}
    {f : α → Except Err γ} {g : α → Except Err δ} (hf : ∀ x, Alike P (f x) (g x)) :
    Alike P (a >>= f) (a >>= g) := (Alike.refl a).bind (fun x _ e => e ▸ hf x)

theorem Alike.bindEq {α γ δ : Type} {P : γ → δ → Prop} {a b : Except Err α}
    {f : α → Except Err γ} {g : α → Except Err δ} (h : Alike Eq a b) (hf : ∀ x, Alike P (f x) (g x)) :
    Alike P (a >>= f) (b >>= g) := h.bind (fun x _ e => e ▸ hf x)

theorem Alike.err {α β : Type} {Q : α → β → Prop} {e : Err} : Alike Q (.error e : Except Err α) (.error e : Except Err β) := rfl

theorem Alike.ok {α β : Type} {Q : α → β → Prop} {x : α} {y : β} (h : Q x y) : Alike Q (.ok x) (.ok y) := h

theorem Alike.mono {α β : Type} {Q P : α → β → Prop} {a : Except Err α} {b : Except Err β} (h : Alike Q a b)
    (hp : ∀ x y, Q x y → P x y) : Alike P a b := by
  cases a <;> cases b <;> first | exact h | exact hp _ _ h

theorem Alike.left {α β : Type} {Q : α → β → Prop} {a : Except Err α} {b : Except Err β} (h : Alike Q a b) {x : α}
    (hx : a = .ok x) : ∃ y, b = .ok y ∧ Q x y := by
  subst hx
  cases b with
  | error e => exact h.elim
  | ok y => exact ⟨y, rfl, h⟩

theorem Alike.right {α β : Type} {Q : α → β → Prop} {a : Except Err α} {b : Except Err β} (h : Alike Q a b) {y : β}
    (hy : b = .ok y) : ∃ x, a = .ok x ∧ Q x y := by
  subst hy
  cases a with
  | error e => exact h.elim
  | ok x => exact ⟨x, rfl, h⟩

/-! ### Tables -/

section
variable {α β : Type} [DecidableEq α]

/-- The same table, in any order. -/
structure SameMap (m m' : AMap α β) : Prop where
  left : m.NodupKeys
  right : m'.NodupKeys
  get : ∀ k, m.get? k = m'.get? k

theorem nodup_of_nodupKeys {m : AMap α β} (h : m.NodupKeys) : m.Nodup := by
  unfold AMap.NodupKeys at h
  exact List.Pairwise.imp (fun hab e => hab (by rw [e])) (List.pairwise_map.1 h)

theorem SameMap.perm {m m' : AMap α β} (h : SameMap m m') : m.Perm m' := by
  refine (List.perm_ext_iff_of_nodup (nodup_of_nodupKeys h.left) (nodup_of_nodupKeys h.right)).2 fun e => ?_
  obtain ⟨k, v⟩ := e
  rw [AMap.mem_iff_get? h.left, AMap.mem_iff_get? h.right, h.get]

theorem NodupKeys.perm {m m' : AMap α β} (h : m.NodupKeys) (hp : m'.Perm m) : m'.NodupKeys := by
  unfold AMap.NodupKeys at *
  exact (hp.map Prod.fst).nodup_iff.2 h

theorem get?_perm {m m' : AMap α β} (h : m.NodupKeys) (hp : m'.Perm m) (k : α) : m'.get? k = m.get? k := by
  have h' := NodupKeys.perm h hp
  apply Option.ext
  intro v
  rw [← AMap.mem_iff_get? h, ← AMap.mem_iff_get? h', hp.mem_iff]

theorem SameMap.of_perm {m m' : AMap α β} (h : m.NodupKeys) (hp : m'.Perm m) : SameMap m' m :=
  ⟨NodupKeys.perm h hp, h, get?_perm h hp⟩

theorem SameMap.symm {m m' : AMap α β} (h : SameMap m m') : SameMap m' m := ⟨h.right, h.left, fun k => (h.get k).symm⟩

theorem SameMap.trans {m m' m'' : AMap α β} (h : SameMap m m') (h' : SameMap m' m'') : SameMap m m'' :=
  ⟨h.left, h'.right, fun k => (h.get k).trans (h'.get k)⟩

theorem SameMap.nil : SameMap ([] : AMap α β) [] := ⟨AMap.nodupKeys_nil, AMap.nodupKeys_nil, fun _ => rfl⟩

theorem SameMap.insert {m m' : AMap α β} (h : SameMap m m') (k : α) (v : β) : SameMap (m.insert k v) (m'.insert k v) :=
  ⟨h.left.insert k v, h.right.insert k v, fun k' => by rw [AMap.get?_insert, AMap.get?_insert, h.get]⟩

theorem SameMap.erase {m m' : AMap α β} (h : SameMap m m') (k : α) : SameMap (m.erase k) (m'.erase k) :=
  ⟨h.left.erase k, h.right.erase k, fun k' => by rw [AMap.get?_erase, AMap.get?_erase, h.get]⟩

theorem SameMap.extend {m m' l l' : AMap α β} (h : SameMap m m') (hl : SameMap l l') : SameMap (m.extend l) (m'.extend l') :=
  ⟨h.left.extend l, h.right.extend l', fun k => by rw [AMap.get?_extend _ hl.left, AMap.get?_extend _ hl.right, hl.get, h.get]⟩

theorem SameMap.nil_iff {m m' : AMap α β} (h : SameMap m m') : m = [] ↔ m' = [] := by
  rw [AMap.eq_nil_iff, AMap.eq_nil_iff]
  exact forall_congr' fun k => by rw [h.get]

/-- The same set, in any order. -/
structure SameSet (l l' : List α) : Prop where
  left : l.Nodup
  right : l'.Nodup
  mem : ∀ x, x ∈ l ↔ x ∈ l'

omit [DecidableEq α] in
theorem SameSet.perm {l l' : List α} (h : SameSet l l') : l.Perm l' := (List.perm_ext_iff_of_nodup h.left h.right).2 h.mem

omit [DecidableEq α] in
theorem SameSet.of_perm {l l' : List α} (h : l.Nodup) (hp : l'.Perm l) : SameSet l' l :=
  ⟨hp.nodup_iff.2 h, h, fun _ => hp.mem_iff⟩

omit [DecidableEq α] in
theorem SameSet.symm {l l' : List α} (h : SameSet l l') : SameSet l' l := ⟨h.right, h.left, fun x => (h.mem x).symm⟩

omit [DecidableEq α] in
theorem SameSet.trans {l l' l'' : List α} (h : SameSet l l') (h' : SameSet l' l'') : SameSet l l'' :=
  ⟨h.left, h'.right, fun x => (h.mem x).trans (h'.mem x)⟩

omit [DecidableEq α] in
theorem SameSet.nil_iff {l l' : List α} (h : SameSet l l') : l = [] ↔ l' = [] := by
  rw [List.eq_nil_iff_forall_not_mem, List.eq_nil_iff_forall_not_mem]
  exact forall_congr' fun x => not_congr (h.mem x)

theorem nodup_append_new {l m : List α} (hl : l.Nodup) (hm : m.Nodup) :
    (l ++ m.filter (fun i => decide (i ∉ l))).Nodup := by
  rw [List.nodup_append]
  refine ⟨hl, hm.sublist List.filter_sublist, ?_⟩
  intro a ha b hb e
  subst e
  have := (List.mem_filter.1 hb).2
  simp only [decide_eq_true_eq] at this
  exact this ha

theorem SameSet.append_new {l l' m m' : List α} (h : SameSet l l') (hm : SameSet m m') :
    SameSet (l ++ m.filter (fun i => decide (i ∉ l))) (l' ++ m'.filter (fun i => decide (i ∉ l'))) := by
  refine ⟨nodup_append_new h.left hm.left, nodup_append_new h.right hm.right, fun x => ?_⟩
  simp only [List.mem_append, List.mem_filter, decide_eq_true_eq, h.mem x, hm.mem x]

end

/-! ### Caches -/

/-- The same cache, its tables in any order. -/
structure TSim (t t' : TreeCache) : Prop where
  root : t'.rootNodeKey = t.rootNodeKey
  next : t'.nextVersion = t.nextVersion
  newLeaves : t'.numNewLeaves = t.numNewLeaves
  staleLeaves : t'.numStaleLeaves = t.numStaleLeaves
  nodes : SameMap t.nodeCache t'.nodeCache
  values : SameMap t.valueCache t'.valueCache
  stale : SameSet t.stale t'.stale
  fnodes : SameMap t.frozen.nodeBatch.nodes t'.frozen.nodeBatch.nodes
  fvalues : SameMap t.frozen.nodeBatch.values t'.frozen.nodeBatch.values
  fstale : SameSet t.frozen.stale t'.frozen.stale
  stats : t'.frozen.stats = t.frozen.stats
  hashes : t'.frozen.rootHashes = t.frozen.rootHashes
  look : ∀ k, t.reader.getNodeOption k = t'.reader.getNodeOption k

/-- The same result. -/
def PSim {α : Type} (x y : α × TreeCache) : Prop := x.1 = y.1 ∧ TSim x.2 y.2

/-- The same result. -/
def PSim2 {α β : Type} (x y : α × β × TreeCache) : Prop := x.1 = y.1 ∧ x.2.1 = y.2.1 ∧ TSim x.2.2 y.2.2

variable {H : Hasher}

theorem TSim.getNodeOption {t t' : TreeCache} (h : TSim t t') : t'.getNodeOption = t.getNodeOption := by
  funext k
  unfold TreeCache.getNodeOption TreeCache.base
  rw [h.nodes.get, h.fnodes.get, h.look]

theorem TSim.getNode {t t' : TreeCache} (h : TSim t t') : t'.getNode = t.getNode := by
  funext k
  unfold TreeCache.getNode
  rw [h.getNodeOption]

theorem TSim.putNode {t t' : TreeCache} (h : TSim t t') (k : NodeKey) (n : Node) :
    Alike TSim (t.putNode k n) (t'.putNode k n) := by
  unfold TreeCache.putNode
  rw [← h.nodes.get]
  split
  · exact Alike.err
  · exact Alike.ok { h with nodes := h.nodes.insert k n, newLeaves := by simp only [h.newLeaves] }

theorem TSim.deleteNode {t t' : TreeCache} (h : TSim t t') (k : NodeKey) (b : Bool) :
    Alike TSim (t.deleteNode k b) (t'.deleteNode k b) := by
  unfold TreeCache.deleteNode
  rw [← h.nodes.get]
  split
  · by_cases hk : k ∈ t.stale
    · rw [if_pos hk, if_pos ((h.stale.mem k).1 hk)]
      exact Alike.err
    · have hk' : k ∉ t'.stale := fun hn => hk ((h.stale.mem k).2 hn)
      rw [if_neg hk, if_neg hk']
      refine Alike.ok { h with
        stale := ⟨List.nodup_cons.2 ⟨hk, h.stale.left⟩, List.nodup_cons.2 ⟨hk', h.stale.right⟩, fun x => ?_⟩
        staleLeaves := by simp only [h.staleLeaves] }
      simp only [List.mem_cons, h.stale.mem x]
  · rw [h.newLeaves]
    split
    · exact Alike.err
    · exact Alike.ok { h with nodes := h.nodes.erase k, newLeaves := rfl }

theorem TSim.putValue {t t' : TreeCache} (h : TSim t t') (v : Nat) (k : KeyHash) (x : Option Value) :
    TSim (t.putValue v k x) (t'.putValue v k x) := { h with values := h.values.insert (v, k) x }

theorem TSim.setRoot {t t' : TreeCache} (h : TSim t t') (k : NodeKey) :
    TSim (t.setRootNodeKey k) (t'.setRootNodeKey k) := { h with root := rfl }

theorem createLeafNode_shuf {t t' : TreeCache} (h : TSim t t') (nk : NodeKey) (vis rem : List Nibble) (vh : ValueHash) :
    Alike PSim2 (createLeafNode t nk vis rem vh) (createLeafNode t' nk vis rem vh) := by
  unfold createLeafNode
  split
  · exact Alike.err
  · exact (h.putNode _ _).bind fun _ _ h => Alike.ok ⟨rfl, rfl, h⟩

theorem chainUp_shuf (version : Nat) : ∀ (c : Nat) {t t' : TreeCache} (_ : TSim t t') (nk : NodeKey) (path : List Nibble)
    (node : InternalNode), Alike PSim2 (chainUp H version c t nk path node) (chainUp H version c t' nk path node) := by
  intro c
  induction c with
  | zero => intro t t' h nk path node; exact Alike.ok ⟨rfl, rfl, h⟩
  | succ c ih =>
    intro t t' h nk path node
    unfold chainUp
    split
    · exact Alike.err
    · exact Alike.same fun _ => Alike.same fun _ => (h.putNode _ _).bind fun _ _ h => ih h _ _ _

theorem insertAtLeafNode_shuf {t t' : TreeCache} (h : TSim t t') (version : Nat) (value : Option ValueHash) (wp : Bool)
    (nk : NodeKey) (leaf : LeafNode) (vis rem : List Nibble) :
    Alike PSim2 (insertAtLeafNode H version value wp nk leaf vis rem t)
      (insertAtLeafNode H version value wp nk leaf vis rem t') := by
  unfold insertAtLeafNode
  simp only
  split
  · exact Alike.err
  · split
    · split
      · exact Alike.err
      · refine (h.deleteNode _ _).bind fun t t' h => ?_
        split
        · refine (createLeafNode_shuf h _ _ _ _).bind ?_
          rintro ⟨a, b, t⟩ ⟨a', b', t'⟩ ⟨h1, h2, h⟩
          cases h1; cases h2
          exact Alike.ok ⟨rfl, rfl, h⟩
        · exact Alike.ok ⟨rfl, rfl, h⟩
    · split
      · exact Alike.ok ⟨rfl, rfl, h⟩
      · refine (h.deleteNode _ _).bind fun t t' h => ?_
        split
        · exact Alike.err
        · split
          · exact Alike.err
          · refine Alike.same fun ok => (h.putNode _ _).bind fun t t' h => Alike.same fun nk' =>
              (createLeafNode_shuf h _ _ _ _).bind ?_
            rintro ⟨a, b, t⟩ ⟨a', b', t'⟩ ⟨h1, h2, h⟩
            cases h1; cases h2
            refine Alike.same fun nh => Alike.same fun inode => (h.putNode _ _).bind fun t t' h => (chainUp_shuf _ _ h _ _ _).bind ?_
            rintro ⟨a, b, t⟩ ⟨a', b', t'⟩ ⟨h1, h2, h⟩
            cases h1; cases h2
            exact Alike.ok ⟨rfl, rfl, h⟩

theorem rewriteInternal_shuf {t t' : TreeCache} (h : TSim t t') (version : Nat) (nk : NodeKey)
    (cs : Children) (p : Option SMProof) :
    Alike PSim2 (rewriteInternal version nk cs p t) (rewriteInternal version nk cs p t') := by
  unfold rewriteInternal
  refine (h.deleteNode _ _).bind fun t t' h => ?_
  simp only
  split
  · exact Alike.ok ⟨rfl, rfl, h⟩
  · split
    · exact Alike.same fun ck => (by rw [h.getNode]; exact Alike.refl _ : Alike Eq (t.getNode ck) (t'.getNode ck)).bindEq fun cn => (h.deleteNode _ _).bind fun t t' h =>
        (h.putNode _ _).bind fun t t' h => Alike.ok ⟨rfl, rfl, h⟩
    · exact Alike.same fun _ => (h.putNode _ _).bind fun t t' h => Alike.ok ⟨rfl, rfl, h⟩
  · exact Alike.same fun _ => (h.putNode _ _).bind fun t t' h => Alike.ok ⟨rfl, rfl, h⟩

theorem rebuildInternal_shuf {t t' : TreeCache} (h : TSim t t') (version : Nat) (wp : Bool)
    (nk : NodeKey) (node : InternalNode) (idx : Nibble) (r : PutResult) (p : Option SMProof) :
    Alike PSim2 (rebuildInternal H version wp nk node idx r p t) (rebuildInternal H version wp nk node idx r p t') := by
  unfold rebuildInternal
  split
  · exact Alike.ok ⟨rfl, rfl, h⟩
  · exact Alike.same fun cs => rewriteInternal_shuf h _ _ _ _

theorem closestLeaf_shuf {t t' : TreeCache} (h : TSim t t') (ck : Option NodeKey) :
    Alike Eq (closestLeaf t ck) (closestLeaf t' ck) := by
  unfold closestLeaf
  rw [h.getNode]
  exact Alike.refl _

theorem insertAtInternalNode_shuf {t t' : TreeCache} (h : TSim t t') (version : Nat)
    (value : Option ValueHash) (wp : Bool) {rec : NodeKey → TreeCache → InsertRes}
    (hrec : ∀ nk {t t' : TreeCache}, TSim t t' → Alike PSim2 (rec nk t) (rec nk t'))
    (nk : NodeKey) (node : InternalNode) (idx : Nibble) (vis rem : List Nibble) :
    Alike PSim2 (insertAtInternalNode H version value wp rec nk node idx vis rem t)
      (insertAtInternalNode H version value wp rec nk node idx vis rem t') := by
  unfold insertAtInternalNode
  have key : ∀ (x y : PutResult × Option SMProof × TreeCache), PSim2 x y →
      Alike PSim2 (match x with | (r, p, t) => rebuildInternal H version wp nk node idx r p t)
        (match y with | (r, p, t) => rebuildInternal H version wp nk node idx r p t) := by
    rintro ⟨a, b, t⟩ ⟨a', b', t'⟩ ⟨h1, h2, h⟩
    cases h1; cases h2
    exact rebuildInternal_shuf h _ _ _ _ _ _ _
  refine Alike.bind ?_ key
  split
  · refine Alike.bindEq (a := childKeyAndSiblings H wp nk node idx _ t) ?_ fun x => (hrec _ h).bind ?_
    · unfold childKeyAndSiblings
      split
      · rw [h.getNode]; exact Alike.refl _
      · exact Alike.refl _
    · rintro ⟨a, b, t⟩ ⟨a', b', t'⟩ ⟨h1, h2, h⟩
      cases h1; cases h2
      exact Alike.ok ⟨rfl, rfl, h⟩
  · refine Alike.bindEq ?_ fun p => ?_
    · split
      · rw [h.getNode]; exact Alike.same fun x =>
          (closestLeaf_shuf h _).bindEq fun _ => Alike.refl _
      · exact Alike.refl _
    · split
      · refine Alike.same fun nk' => (createLeafNode_shuf h _ _ _ _).bind ?_
        rintro ⟨a, b, t⟩ ⟨a', b', t'⟩ ⟨h1, h2, h⟩
        cases h1; cases h2
        exact Alike.ok ⟨rfl, rfl, h⟩
      · exact Alike.ok ⟨rfl, rfl, h⟩

theorem insertAtNull_shuf {t t' : TreeCache} (h : TSim t t') (version : Nat)
    (value : Option ValueHash) (wp : Bool) (nk : NodeKey) (ex : Bool) (vis rem : List Nibble) :
    Alike PSim2 (insertAtNull version value wp nk ex vis rem t) (insertAtNull version value wp nk ex vis rem t') := by
  unfold insertAtNull
  split
  · exact Alike.err
  · refine Alike.bind (Q := TSim) ?_ fun t t' h => ?_
    · split
      · exact h.deleteNode _ _
      · exact Alike.ok h
    · split
      · refine (createLeafNode_shuf h _ _ _ _).bind ?_
        rintro ⟨a, b, t⟩ ⟨a', b', t'⟩ ⟨h1, h2, h⟩
        cases h1; cases h2
        exact Alike.ok ⟨rfl, rfl, h⟩
      · exact Alike.ok ⟨rfl, rfl, h⟩
theorem insertAt_shuf (version : Nat) (value : Option ValueHash) (wp : Bool) :
    ∀ (rem vis : List Nibble) (nk : NodeKey) {t t' : TreeCache}, TSim t t' →
    Alike PSim2 (insertAt H version value wp rem vis nk t) (insertAt H version value wp rem vis nk t') := by
  intro rem
  induction rem with
  | nil =>
    intro vis nk t t' h
    unfold insertAt
    rw [h.getNodeOption]
    refine Alike.same fun o => ?_
    split
    · exact Alike.err
    · exact insertAtLeafNode_shuf h _ _ _ _ _ _ _
    · exact insertAtNull_shuf h _ _ _ _ _ _ _
    · exact insertAtNull_shuf h _ _ _ _ _ _ _
  | cons i rem ih =>
    intro vis nk t t' h
    unfold insertAt
    rw [h.getNodeOption]
    refine Alike.same fun o => ?_
    split
    · exact insertAtInternalNode_shuf h _ _ _ (fun nk _ _ h => ih _ nk h) _ _ _ _ _
    · exact insertAtLeafNode_shuf h _ _ _ _ _ _ _
    · exact insertAtNull_shuf h _ _ _ _ _ _ _
    · exact insertAtNull_shuf h _ _ _ _ _ _ _

theorem put_shuf (key : KeyHash) (version : Nat) (value : Option ValueHash) (wp : Bool) {t t' : TreeCache} (h : TSim t t') :
    Alike PSim (put H key value version t wp) (put H key value version t' wp) := by
  unfold put
  rw [h.root]
  refine (insertAt_shuf _ _ _ _ _ _ h).bind ?_
  rintro ⟨a, b, t⟩ ⟨a', b', t'⟩ ⟨h1, h2, h⟩
  cases h1; cases h2
  cases a with
  | updated nk n => exact Alike.ok ⟨rfl, h.setRoot _⟩
  | notChanged => exact Alike.ok ⟨rfl, h⟩
  | removed => exact ((h.setRoot _).putNode _ _).bind fun _ _ h => Alike.ok ⟨rfl, h⟩

theorem putAll_shuf (version : Nat) (wp : Bool) : ∀ (vs : ValueSet) {t t' : TreeCache},
    TSim t t' → Alike PSim (putAll H version wp vs t) (putAll H version wp vs t') := by
  intro vs
  induction vs with
  | nil => intro t t' h; exact Alike.ok ⟨rfl, h⟩
  | cons e vs ih =>
    intro t t' h
    obtain ⟨k, x⟩ := e
    unfold putAll
    refine (put_shuf k version (x.map H.hash) wp (h.putValue version k x)).bind ?_
    rintro ⟨a, t⟩ ⟨a', t'⟩ ⟨h1, h⟩
    cases h1
    refine Alike.same fun ps => (ih h).bind ?_
    rintro ⟨a, t⟩ ⟨a', t'⟩ ⟨h1, h⟩
    cases h1
    exact Alike.ok ⟨rfl, h⟩

theorem batchLoop_shuf (cache : HashCache) (version : Nat)
    {ch : Nibble → List Kv → TreeCache → Except Err (NodeKey × Node × TreeCache)}
    (hch : ∀ c g {t t' : TreeCache}, TSim t t' → Alike PSim2 (ch c g t) (ch c g t')) :
    ∀ (gs : List (Nibble × List Kv)) (cs : Children) {t t' : TreeCache}, TSim t t' →
    Alike PSim (batchLoop H cache version ch gs cs t) (batchLoop H cache version ch gs cs t') := by
  intro gs
  induction gs with
  | nil => intro cs t t' h; exact Alike.ok ⟨rfl, h⟩
  | cons g gs ih =>
    intro cs t t' h
    obtain ⟨c, g⟩ := g
    unfold batchLoop
    refine (hch c g h).bind ?_
    rintro ⟨a, b, t⟩ ⟨a', b', t'⟩ ⟨h1, h2, h⟩
    cases h1; cases h2
    exact Alike.same fun d => Alike.same fun ty => ih _ h

theorem batchFinish_shuf {t t' : TreeCache} (h : TSim t t') (nk : NodeKey) (cs : Children) :
    Alike PSim2 (batchFinish nk cs t) (batchFinish nk cs t') := by
  unfold batchFinish
  exact Alike.same fun n => (h.putNode _ _).bind fun _ _ h => Alike.ok ⟨rfl, rfl, h⟩

theorem batchLeaf_shuf {t t' : TreeCache} (h : TSim t t') (nk : NodeKey) (kv : Kv) :
    Alike PSim2 (batchLeaf nk kv t) (batchLeaf nk kv t') := by
  unfold batchLeaf
  exact (h.putNode _ _).bind fun _ _ h => Alike.ok ⟨rfl, rfl, h⟩

theorem batchCreateSubtree_shuf (cache : HashCache) (version : Nat) : ∀ (fuel : Nat) (nk : NodeKey) (kvs : List Kv)
    (depth : Nat) {t t' : TreeCache}, TSim t t' →
    Alike PSim2 (batchCreateSubtree H cache version fuel nk kvs depth t)
      (batchCreateSubtree H cache version fuel nk kvs depth t') := by
  intro fuel
  induction fuel with
  | zero =>
    intro nk kvs depth t t' h
    match kvs with
    | [kv] => unfold batchCreateSubtree; exact batchLeaf_shuf h _ _
    | [] => exact Alike.err
    | _ :: _ :: _ => exact Alike.err
  | succ fuel ih =>
    have hmain : ∀ (nk : NodeKey) (kvs : List Kv) (depth : Nat) {t t' : TreeCache}, TSim t t' →
        Alike PSim2 (do
            let gs ← batchGroups kvs depth
            let (cs, tc) ← batchLoop H cache version (fun c g tc => do
              let ck ← nk.genChild version c
              batchCreateSubtree H cache version fuel ck g (depth + 1) tc) gs Children.empty t
            batchFinish nk cs tc)
          (do
            let gs ← batchGroups kvs depth
            let (cs, tc) ← batchLoop H cache version (fun c g tc => do
              let ck ← nk.genChild version c
              batchCreateSubtree H cache version fuel ck g (depth + 1) tc) gs Children.empty t'
            batchFinish nk cs tc) := by
      intro nk kvs depth t t' h
      refine Alike.same fun gs => Alike.bind (batchLoop_shuf cache version ?_ gs _ h) ?_
      · exact fun c g _ _ h => Alike.same fun ck => ih ck g _ h
      · rintro ⟨a, t⟩ ⟨a', t'⟩ ⟨h1, h⟩
        cases h1
        exact batchFinish_shuf h _ _
    intro nk kvs depth t t' h
    match kvs with
    | [kv] => unfold batchCreateSubtree; exact batchLeaf_shuf h _ _
    | [] => unfold batchCreateSubtree; exact hmain nk [] depth h
    | x :: y :: rest => unfold batchCreateSubtree; exact hmain nk (x :: y :: rest) depth h

theorem batchWithLeaf_shuf (cache : HashCache) (version : Nat) (leaf : LeafNode) : ∀ (fuel : Nat) (nk : NodeKey)
    (kvs : List Kv) (depth : Nat) {t t' : TreeCache}, TSim t t' →
    Alike PSim2 (batchWithLeaf H cache version leaf fuel nk kvs depth t)
      (batchWithLeaf H cache version leaf fuel nk kvs depth t') := by
  intro fuel
  induction fuel with
  | zero =>
    intro nk kvs depth t t' h
    unfold batchWithLeaf
    split
    · exact batchLeaf_shuf h _ _
    · exact Alike.err
  | succ fuel ih =>
    intro nk kvs depth t t' h
    unfold batchWithLeaf
    split
    · exact batchLeaf_shuf h _ _
    · refine Alike.same fun bucket => Alike.same fun gs => Alike.bind (batchLoop_shuf cache version ?_ gs _ h) ?_
      · refine fun c g _ _ h => Alike.same fun ck => ?_
        split
        · exact (ih ck g _ h)
        · exact (batchCreateSubtree_shuf cache version fuel ck g _ h)
      · rintro ⟨a, t⟩ ⟨a', t'⟩ ⟨h1, h⟩
        cases h1
        refine Alike.bind (Q := PSim) ?_ ?_
        · unfold batchIsolate
          split
          · exact Alike.same fun lk => (h.putNode _ _).bind fun _ _ h => Alike.ok ⟨rfl, h⟩
          · exact Alike.ok ⟨rfl, h⟩
        · rintro ⟨a, t⟩ ⟨a', t'⟩ ⟨h1, h⟩
          cases h1
          exact batchFinish_shuf h _ _

theorem batchInsertAt_shuf (cache : HashCache) (version : Nat) : ∀ (fuel : Nat) (nk : NodeKey)
    (kvs : List Kv) (depth : Nat) {t t' : TreeCache}, TSim t t' →
    Alike PSim2 (batchInsertAt H cache version fuel nk kvs depth t)
      (batchInsertAt H cache version fuel nk kvs depth t') := by
  have hleaf : ∀ (fuel : Nat) (l : LeafNode) (nk : NodeKey) (kvs : List Kv) (depth : Nat) {t t' : TreeCache},
      TSim t t' → Alike PSim2
        (t.deleteNode nk true >>= fun t => batchWithLeaf H cache version l fuel (nk.setVersion version) kvs depth t)
        (t'.deleteNode nk true >>= fun t => batchWithLeaf H cache version l fuel (nk.setVersion version) kvs depth t) :=
    fun fuel l nk kvs depth _ _ h => (h.deleteNode _ _).bind fun _ _ h => batchWithLeaf_shuf cache version l fuel (nk.setVersion version) kvs depth h
  have hnull : ∀ (fuel : Nat) (nk : NodeKey) (kvs : List Kv) (depth : Nat) {t t' : TreeCache},
      TSim t t' → Alike PSim2
        (if nk.path ≠ [] then .error (.bail "Null node exists for non-root node")
          else do
          let tc ← (if nk.version = version then t.deleteNode nk false else .ok t)
          batchCreateSubtree H cache version fuel (NodeKey.root version) kvs depth tc)
        (if nk.path ≠ [] then .error (.bail "Null node exists for non-root node")
          else do
          let tc ← (if nk.version = version then t'.deleteNode nk false else .ok t')
          batchCreateSubtree H cache version fuel (NodeKey.root version) kvs depth tc) := by
    intro fuel nk kvs depth t t' h
    split
    · exact Alike.err
    · refine Alike.bind (Q := TSim) ?_ fun t t' h => batchCreateSubtree_shuf cache version fuel (NodeKey.root version) kvs depth h
      split
      · exact h.deleteNode _ _
      · exact Alike.ok h
  intro fuel
  induction fuel with
  | zero =>
    intro nk kvs depth t t' h
    unfold batchInsertAt
    split
    · exact Alike.err
    · refine (show Alike Eq (t.getNode nk) (t'.getNode nk) by rw [h.getNode]; exact Alike.refl _).bindEq fun node => ?_
      cases node with
      | internal n => exact (h.deleteNode _ _).bind fun _ _ h => Alike.err
      | leaf l => exact hleaf _ _ _ _ _ h
      | null => exact hnull _ _ _ _ h
  | succ fuel ih =>
    intro nk kvs depth t t' h
    unfold batchInsertAt
    split
    · exact Alike.err
    · refine (show Alike Eq (t.getNode nk) (t'.getNode nk) by rw [h.getNode]; exact Alike.refl _).bindEq fun node => ?_
      cases node with
      | internal n =>
        refine (h.deleteNode _ _).bind fun t t' h => Alike.same fun gs => Alike.bind (batchLoop_shuf cache version ?_ gs _ h) ?_
        · intro c g t t' h
          split
          · exact Alike.same fun ck => (ih ck g _ h)
          · exact Alike.same fun ck => (batchCreateSubtree_shuf cache version fuel ck g _ h)
        · rintro ⟨a, t⟩ ⟨a', t'⟩ ⟨h1, h⟩
          cases h1
          exact batchFinish_shuf (nk := nk.setVersion version) h _
      | leaf l => exact hleaf _ _ _ _ _ h
      | null => exact hnull _ _ _ _ h
end Jmt

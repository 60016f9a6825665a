import Verif.Proofs.InsertAt
/-!
# `insert_at` on a canonical tree: main induction
-/
namespace Jmt
open Spec (Entry)

/-- The proof returned by the insertion functions: present only when asked for. -/
def proofOpt (wp : Bool) (p : SMProof) : Option SMProof := if wp then some p else none

/-- The canonical proof for the rest `rem` of a key, below `p`. -/
def subProof (H : Hasher) (m : List Entry) (p rem : List Nibble) : SMProof :=
  ⟨(ub (walk H m (pathBits p) (pathBits rem)).2 m).head?,
   (walk H m (pathBits p) (pathBits rem)).1.reverse⟩

/-- After a write to `k` every node below `p` is either new or an untouched old node off the path of `k`; and the old
nodes off the path of `k` that remain are untouched. -/
structure Touch (V : Version) (m : List Entry) (ver : List Nibble → Version) (m' : List Entry)
    (ver' : List Nibble → Version) (p : List Nibble) (k : KeyHash) : Prop where
  new : ∀ q, pres m' p q → ver' q = V ∨ (ver' q = ver q ∧ pres m p q ∧ ¬ q <+: k.nibbles)
  keep : ∀ q, pres m p q → pres m' p q → ¬ q <+: k.nibbles → ver' q = ver q

/-- Result of one `insert_at` below `p`. -/
inductive Post (C : Ctx) (m : List Entry) (k : KeyHash) (x : Option ValueHash) (wp : Bool)
    (p rem : List Nibble) (ver : List Nibble → Version) (tc : TreeCache) :
    PutResult → Option SMProof → TreeCache → Prop
  | noop : x = none → (∀ e ∈ m, e.1 ≠ k) → Post C m k x wp p rem ver tc .notChanged
      (proofOpt wp ⟨none, []⟩) tc
  | removed {tc'} : x = none → (∃ e ∈ m, e.1 = k) → under p (upd m k x) = [] →
      (∀ q, p <+: q → Absent C tc' q) → Same tc tc' → CountInv C tc' →
      (∀ q, ¬ p <+: q → AgreeAt tc tc' q) →
      Post C m k x wp p rem ver tc .removed (proofOpt wp (subProof C.H m p rem)) tc'
  | updated {tc'} (ver') : (x = none → ∃ e ∈ m, e.1 = k) → under p (upd m k x) ≠ [] →
      ver' p = C.V → (∀ q, ¬ p <+: q → ver' q = ver q) → SubInv C tc' (upd m k x) ver' p →
      Same tc tc' → CountInv C tc' → (∀ q, ¬ p <+: q → AgreeAt tc tc' q) →
      Touch C.V m ver (upd m k x) ver' p k →
      Post C m k x wp p rem ver tc (.updated ⟨C.V, p⟩ (canonNode C.H (upd m k x) ver' p))
        (proofOpt wp (subProof C.H m p rem)) tc'

section
variable {C : Ctx} {tc tc' : TreeCache} {m m' : List Entry} {ver ver' ver1 : List Nibble → Version}
  {p q rem : List Nibble} {k : KeyHash} {x : Option ValueHash} {wp : Bool}

theorem subProof_of_one {e} (h : under p m = [e]) : subProof C.H m p rem = ⟨some e, []⟩ := by
  have h1 : (ub (pathBits p) m).length ≤ 1 := by
    show (under p m).length ≤ 1; rw [h]; simp
  have h3 : ub (pathBits p) m = [e] := h
  unfold subProof
  rw [walk_stop h1]
  simp [h3]

theorem createLeaf_spec (habs : Absent C tc q) (ci : CountInv C tc)
    {vis rm : List Nibble} (hk : vis ++ rm = k.nibbles) (v : ValueHash) :
    ∃ tc', createLeafNode tc ⟨C.V, q⟩ vis rm v = .ok (⟨C.V, q⟩, .leaf ⟨k, v⟩, tc') ∧
      Same tc tc' ∧ CountInv C tc' ∧ (∀ q', q' ≠ q → AgreeAt tc tc' q') ∧
      (∀ m' ver', ver' q = C.V → canonNode C.H m' ver' q = .leaf ⟨k, v⟩ → PInv C tc' m' ver' q True) := by
  obtain ⟨tc', h1, h2, h3, h4, h5⟩ := putNode_spec (habs [] (fun _ => 0)) ci (.leaf ⟨k, v⟩)
  refine ⟨tc', ?_, h2, h3, h4, h5⟩
  unfold createLeafNode
  rw [hk, ofNibbles_nibbles]
  simp only [h1, ok_bind]

/-- Insertion at a leaf node. -/
theorem insertAtLeaf_spec (hm : NodupE m) {e : Entry} (he : under p m = [e])
    (hk : k.nibbles = p ++ rem) (hs : SubInv C tc m ver p) (ci : CountInv C tc) :
    ∃ r pf tc', insertAtLeafNode C.H C.V x wp ⟨ver p, p⟩ ⟨e.1, e.2⟩ p rem tc = .ok (r, pf, tc') ∧
      Post C m k x wp p rem ver tc r pf tc' := by
  have heme : e ∈ under p m := by rw [he]; simp
  obtain ⟨hem, hep⟩ := mem_under.1 heme
  obtain ⟨lt, hlt⟩ := hep
  have hkp : p <+: k.nibbles := ⟨rem, hk.symm⟩
  have htop := hs.top (by rw [he]; simp)
  have hf : true = (canonNode C.H m ver p).isLeaf := by rw [canonNode_one he]; rfl
  have hs1 : skipCommonPrefix p e.1.nibbles = (p.length, [], lt) := by
    rw [← hlt]; exact skipCommonPrefix_prefix _ _
  obtain ⟨tcd, hd1, hd2, hd3, hd4, hd5⟩ := deleteNode_spec htop trivial ci true hf
  have habs : ∀ q, p <+: q → Absent C tcd q := by
    intro q hq
    by_cases hqp : q = p
    · subst hqp; exact hd5
    · exact (hs.absent_below (by rw [he]; simp) hq hqp).frame (hd4 q hqp)
  have hagree : ∀ q, ¬ p <+: q → AgreeAt tc tcd q := fun q hq =>
    hd4 q (by rintro rfl; exact hq (List.prefix_refl _))
  have hpf : proofIf wp (some (e.1, e.2)) = proofOpt wp (subProof C.H m p rem) := by
    rw [subProof_of_one he]; rfl
  have hupd : under p (upd m k x) = upd [e] k x := by rw [under_upd_of_prefix hkp, he]
  have hlen : rem.length = lt.length := by
    have h1 := congrArg List.length hk
    have h2 := congrArg List.length hlt
    simp only [List.length_append] at h1 h2
    rw [nibbles_length] at h1 h2
    omega
  have honly : ∀ (m' : List Entry) (ver' : List Nibble → Version) (q : List Nibble), pres m p q → pres m' p q →
      ¬ q <+: k.nibbles → ver' q = ver q := by
    intro m' ver' q hq _ hn
    have hqp : q = p := by
      apply Decidable.byContradiction
      intro hqp
      exact not_pres_below hq.1 hqp (by rw [he]; simp) hq
    exact absurd (hqp ▸ hkp) hn
  unfold insertAtLeafNode
  simp only [hs1, ne_eq, not_true_eq_false, ↓reduceIte]
  by_cases hek : e.1 = k
  · -- the same key
    have hrl : lt = rem := by
      rw [hek, hk] at hlt; exact List.append_cancel_left hlt
    subst hrl
    have hs2 : skipCommonPrefix lt lt = (lt.length, [], []) := by
      have := skipCommonPrefix_prefix lt []; simpa using this
    simp only [hs2, List.take_length, not_true_eq_false, ↓reduceIte, hd1, ok_bind]
    cases x with
    | none =>
      refine ⟨_, _, _, rfl, ?_⟩
      rw [hpf]
      refine Post.removed rfl ⟨e, hem, hek⟩ ?_ habs hd2 hd3 hagree
      rw [hupd]; simp [upd, hek]
    | some v =>
      have hcan : under p (upd m k (some v)) = [(k, v)] := by
        rw [hupd]; simp [upd, hek]
      obtain ⟨tc2, h1, h2, h3, h4, h5⟩ := createLeaf_spec (habs p (List.prefix_refl _)) hd3
        (vis := p ++ lt) (rm := []) (k := k) (by rw [List.append_nil, hk]) v
      have hcn : ∀ ver', canonNode C.H (upd m k (some v)) ver' p = .leaf ⟨k, v⟩ :=
        fun ver' => canonNode_one hcan
      refine ⟨.updated ⟨C.V, p⟩ (.leaf ⟨k, v⟩), proofIf wp (some (e.1, e.2)), tc2, ?_, ?_⟩
      · simp only [NodeKey.setVersion, h1, ok_bind]
      · rw [← hcn (setVer ver p C.V), hpf]
        refine Post.updated _ (by simp) (by rw [hcan]; simp) setVer_self ?_ ?_ (hd2.trans h2) h3 ?_ ?_
        · intro q hq; exact setVer_ne (by rintro rfl; exact hq (List.prefix_refl _))
        · refine SubInv.mk1 (h5 _ _ setVer_self (hcn _)) (by rw [hcan]; rfl) ?_
          intro q hq hqp
          exact (habs q hq).frame (h4 q hqp)
        · intro q hq
          exact (hagree q hq).trans (h4 q (by rintro rfl; exact hq (List.prefix_refl _)))
        · refine ⟨fun q hq => ?_, honly _ _⟩
          have hqp : q = p := by
            apply Decidable.byContradiction
            intro hqp
            exact not_pres_below hq.1 hqp (by rw [hcan]; simp) hq
          subst hqp
          exact .inl setVer_self
  · -- a different key: fork
    obtain ⟨c, xs', ys', h1, h2, h3, h4⟩ := skipCommonPrefix_spec rem lt
    have hkc : k.nibbles = p ++ c ++ xs' := by rw [hk, h2]; simp
    have hec : e.1.nibbles = p ++ c ++ ys' := by rw [← hlt, h3]; simp
    have hxy : xs'.length = ys'.length := by
      rw [h2, h3] at hlen; simpa using hlen
    cases xs' with
    | nil =>
      have : ys' = [] := List.eq_nil_of_length_eq_zero hxy.symm
      subst this
      exact absurd (nibbles_inj (hec.trans hkc.symm)) hek
    | cons new xs'' =>
      cases ys' with
      | nil => simp at hxy
      | cons old ys'' =>
        have hne : old ≠ new := fun h => (h4 _ _ _ _ rfl rfl) h.symm
        simp only [h1]
        cases x with
        | none =>
          refine ⟨_, _, _, rfl, Post.noop rfl ?_⟩
          intro e' he' hek'
          have : e' ∈ under p m := mem_under.2 ⟨he', by rw [hek']; exact hkp⟩
          rw [he] at this
          simp at this
          subst this
          exact hek hek'
        | some v =>
          have hcan : under p (upd m k (some v)) = [(k, v), e] := by
            rw [hupd]; simp [upd, hek]
          have hm' : NodupE (upd m k (some v)) := hm.upd _ _
          have hpc : p <+: p ++ c := List.prefix_append _ _
          have hcan2 : under (p ++ c) (upd m k (some v)) = [(k, v), e] := by
            rw [← under_under hpc, hcan]
            unfold under ub
            rw [List.filter_eq_self]
            intro e' he'
            simp only [List.mem_cons, List.not_mem_nil, or_false] at he'
            simp only [List.isPrefixOf_iff_prefix, keyBits, pathBits_prefix]
            rcases he' with rfl | rfl
            · exact ⟨_, hkc.symm⟩
            · exact ⟨_, hec.symm⟩
          have hchild : ∀ j, under ((p ++ c) ++ [j]) (upd m k (some v))
              = if j = new then [(k, v)] else if j = old then [e] else [] := by
            intro j
            rw [← under_under (List.prefix_append (p ++ c) [j]), hcan2]
            have hk1 : (p ++ c ++ [j] <+: k.nibbles) ↔ j = new := by
              rw [hkc, List.prefix_append_right_inj]; simp
            have hk2 : (p ++ c ++ [j] <+: e.1.nibbles) ↔ j = old := by
              rw [hec, List.prefix_append_right_inj]; simp
            have g1 : (pathBits (p ++ c ++ [j])).isPrefixOf (keyBits k) = decide (j = new) := by
              rw [Bool.eq_iff_iff]
              simp only [List.isPrefixOf_iff_prefix, keyBits, pathBits_prefix, hk1, decide_eq_true_eq]
            have g2 : (pathBits (p ++ c ++ [j])).isPrefixOf (keyBits e.1) = decide (j = old) := by
              rw [Bool.eq_iff_iff]
              simp only [List.isPrefixOf_iff_prefix, keyBits, pathBits_prefix, hk2, decide_eq_true_eq]
            unfold under ub
            simp only [List.filter_cons, g1, g2, List.filter_nil]
            by_cases hjn : j = new
            · subst hjn; simp [Ne.symm hne]
            · by_cases hjo : j = old <;> simp [hjn, hjo]
              subst hjo; simp [hne]
          have hplen : (p ++ c).length < 64 := by
            have := congrArg List.length hkc
            rw [nibbles_length] at this
            simp at this ⊢; omega
          have hpcq : ∀ j : Nibble, p <+: (p ++ c) ++ [j] := fun j =>
            hpc.trans (List.prefix_append _ _)
          -- the version assignment: everything below `p` is new
          let ver1 : List Nibble → Version := fun q => if p.isPrefixOf q then C.V else ver q
          have hv1 : ∀ q, p <+: q → ver1 q = C.V := by
            intro q hq; simp [ver1, hq]
          have hv2 : ∀ q, ¬ p <+: q → ver1 q = ver q := by
            intro q hq; simp [ver1, hq]
          -- old leaf
          obtain ⟨tc1, a1, a2, a3, a4, a5⟩ := putNode_spec
            (habs ((p ++ c) ++ [old]) (hpcq _) [] ver) hd3 (.leaf ⟨e.1, e.2⟩)
          have hne' : (p ++ c) ++ [new] ≠ (p ++ c) ++ [old] := by
            intro h; simp at h; exact hne h.symm
          obtain ⟨tc2, b1, b2, b3, b4, b5⟩ := createLeaf_spec (C := C) (tc := tc1)
            ((habs ((p ++ c) ++ [new]) (hpcq _)).frame (a4 _ hne')) a3
            (vis := (p ++ c) ++ [new]) (rm := xs'') (k := k) (by rw [hkc]; simp) v
          have hoc : canonNode C.H (upd m k (some v)) ver1 ((p ++ c) ++ [old]) = .leaf ⟨e.1, e.2⟩ :=
            canonNode_one (by rw [hchild]; simp [hne])
          have hnc : canonNode C.H (upd m k (some v)) ver1 ((p ++ c) ++ [new]) = .leaf ⟨k, v⟩ :=
            canonNode_one (e := (k, v)) (by rw [hchild]; simp)
          have hfork2 : 2 ≤ (under (p ++ c) (upd m k (some v))).length := by rw [hcan2]; simp
          have habs2 : ∀ q, p <+: q → q ≠ (p ++ c) ++ [old] → q ≠ (p ++ c) ++ [new] →
              Absent C tc2 q := fun q hq n1 n2 =>
            ((habs q hq).frame (a4 q n1)).frame (b4 q n2)
          have hpne : ∀ j : Nibble, p ++ c ≠ (p ++ c) ++ [j] := fun j => Ne.symm snoc_ne
          obtain ⟨tc3, c1, c2, c3, c4, c5⟩ := putNode_spec
            (habs2 (p ++ c) hpc (hpne _) (hpne _) [] ver) b3
            (.internal (canonInternal C.H (upd m k (some v)) ver1 (p ++ c)))
          have hslots : CanonSlots C.H (upd m k (some v)) ver1 (p ++ c)
              ((Children.empty.insert old ⟨C.H.leafHash e.1 e.2, C.V, .leaf⟩).insert new
                ⟨C.H.leafHash k v, C.V, .leaf⟩) := by
            intro j
            by_cases hjn : j = new
            · subst hjn
              rw [canonChild_one (e := (k, v)) (by rw [hchild]; simp), hv1 _ (hpcq _)]
              simp [Children.insert]
            · by_cases hjo : j = old
              · subst hjo
                rw [canonChild_one (e := e) (by rw [hchild]; simp [hne]), hv1 _ (hpcq _)]
                simp [Children.insert, hjn]
              · rw [canonChild_nil (by rw [hchild]; simp [hjn, hjo])]
                simp [Children.insert, hjn, hjo, Children.empty]
          have hnew : InternalNode.new _ = .ok _ :=
            new_canon hslots hplen ((Children.Wf.empty.insert _ _).insert _ _) hfork2
          have hleafsub : ∀ j (e' : Entry), under ((p ++ c) ++ [j]) (upd m k (some v)) = [e'] →
              (j = old ∨ j = new) →
              PInv C tc2 (upd m k (some v)) ver1 ((p ++ c) ++ [j]) True →
              SubInv C tc3 (upd m k (some v)) ver1 ((p ++ c) ++ [j]) := by
            intro j e' hu hj hp
            refine SubInv.frame (tc := tc2) (SubInv.mk1 hp (by rw [hu]; rfl) ?_) ?_
            · intro q hq hqj
              refine habs2 q ((hpcq j).trans hq) ?_ ?_
              · rintro rfl
                have := hq.eq_of_length (by simp)
                exact hqj this.symm
              · rintro rfl
                have := hq.eq_of_length (by simp)
                exact hqj this.symm
            · intro q hq
              exact c4 q (by rintro rfl; exact not_snoc_prefix_self hq)
          have hsub3 : SubInv C tc3 (upd m k (some v)) ver1 (p ++ c) := by
            refine SubInv.mk2 (c5 _ ver1 (hv1 _ hpc) (canonNode_two hfork2)) hfork2 (fun j => ?_)
            by_cases hjn : j = new
            · subst hjn
              exact hleafsub j (k, v) (by rw [hchild]; simp) (.inr rfl)
                (b5 _ ver1 (hv1 _ (hpcq _)) hnc)
            · by_cases hjo : j = old
              · subst hjo
                refine hleafsub j e (by rw [hchild]; simp [hne]) (.inl rfl) ?_
                exact (a5 _ ver1 (hv1 _ (hpcq _)) hoc).frame (b4 _ (Ne.symm hne'))
              · refine SubInv.mk0 (by rw [hchild]; simp [hjn, hjo]) (fun q hq => ?_)
                refine (habs2 q ((hpcq j).trans hq) ?_ ?_).frame
                  (c4 q (by rintro rfl; exact not_snoc_prefix_self hq))
                · rintro rfl
                  have := hq.eq_of_length (by simp)
                  simp at this; exact hjo this
                · rintro rfl
                  have := hq.eq_of_length (by simp)
                  simp at this; exact hjn this
          obtain ⟨tc4, d1, d2, d3, d4, d5⟩ := chainUp_spec hm' (p := p) c.length c tc3 rfl hsub3
            hfork2 hv1
            (by
              intro q hq hnq
              refine (habs2 q hq ?_ ?_).frame (c4 q ?_)
              · rintro rfl; exact hnq (List.prefix_append _ _)
              · rintro rfl; exact hnq (List.prefix_append _ _)
              · rintro rfl; exact hnq (List.prefix_refl _))
            (by
              intro e' he'
              rw [hcan] at he'
              simp only [List.mem_cons, List.not_mem_nil, or_false] at he'
              rcases he' with rfl | rfl
              · exact ⟨_, hkc.symm⟩
              · exact ⟨_, hec.symm⟩) c3
          have htake : rem.take c.length = c := by rw [h2]; simp
          refine ⟨.updated ⟨C.V, p⟩ (.internal (canonInternal C.H (upd m k (some v)) ver1 p)),
            proofIf wp (some (e.1, e.2)), tc4, ?_, ?_⟩
          · simp only [hd1, ok_bind, hne, ↓reduceIte, htake, genChild_ok hplen, a1, b1]
            have hh : Node.hash C.H (.leaf ⟨k, v⟩) = .ok (C.H.leafHash k v) := rfl
            simp only [hh, ok_bind]
            have hl : LeafNode.hash C.H ⟨e.1, e.2⟩ = C.H.leafHash e.1 e.2 := rfl
            simp only [hl, hnew, ok_bind, c1, d1]
          · have hcn : canonNode C.H (upd m k (some v)) ver1 p
                = .internal (canonInternal C.H (upd m k (some v)) ver1 p) :=
              canonNode_two (by rw [hcan]; simp)
            rw [← hcn, hpf]
            refine Post.updated ver1 (by simp) (by rw [hcan]; simp) (hv1 _ (List.prefix_refl _)) hv2 d5
              ((((hd2.trans a2).trans b2).trans c2).trans d2) d3 ?_ ⟨fun q hq => .inl (hv1 q hq.1), honly _ _⟩
            intro q hq
            have n1 : ∀ j : Nibble, q ≠ (p ++ c) ++ [j] := by
              rintro j rfl; exact hq (hpcq j)
            have n2 : q ≠ p ++ c := by rintro rfl; exact hq hpc
            exact ((((hagree q hq).trans (a4 q (n1 _))).trans (b4 q (n1 _))).trans (c4 q n2)).trans
              (d4 q hq)

theorem subProof_step (h : 2 ≤ (under p m).length) (i : Nibble) :
    subProof C.H m p (i :: rem)
      = ⟨(ub (walk C.H m (walk C.H m (pathBits p) (nibbleBits i)).2 (pathBits rem)).2 m).head?,
         (walk C.H m (walk C.H m (pathBits p) (nibbleBits i)).2 (pathBits rem)).1.reverse ++
         (walk C.H m (pathBits p) (nibbleBits i)).1.reverse⟩ := by
  unfold subProof
  rw [pathBits_cons, walk_append]
  simp

theorem walk_prefix {H : Hasher} (b xs : List Bool) : (walk H m b xs).2 <+: b ++ xs := by
  induction xs generalizing b with
  | nil => simp [walk]
  | cons x xs ih =>
    by_cases h : (ub b m).length ≤ 1
    · rw [walk_stop h]; exact List.prefix_append _ _
    · rw [walk_step (by omega)]
      have := ih (b ++ [x])
      simpa using this

/-- The walk does not depend on which way a full-nibble descent got to a nonempty child. -/
theorem walk_into_child (i : Nibble) (hne : under (p ++ [i]) m ≠ []) :
    ub (walk C.H m (walk C.H m (pathBits p) (nibbleBits i)).2 (pathBits rem)).2 m
      = ub (walk C.H m (pathBits (p ++ [i])) (pathBits rem)).2 m ∧
    (walk C.H m (walk C.H m (pathBits p) (nibbleBits i)).2 (pathBits rem)).1
      = (walk C.H m (pathBits (p ++ [i])) (pathBits rem)).1 := by
  have hpb : pathBits (p ++ [i]) = pathBits p ++ nibbleBits i := by simp
  rcases walk_end (H := C.H) (m := m) (pathBits p) (nibbleBits i) with h | h
  · have hpre := walk_prefix (H := C.H) (m := m) (pathBits p) (nibbleBits i)
    rw [← hpb] at hpre
    have hsub : under (p ++ [i]) m = ub (walk C.H m (pathBits p) (nibbleBits i)).2 m := by
      have h1 := ub_ub hpre m
      have h3 : (ub (pathBits (p ++ [i])) m).Sublist
          (ub (walk C.H m (pathBits p) (nibbleBits i)).2 m) := by
        rw [← h1]; exact List.filter_sublist
      have h4 := one_le_length hne
      exact h3.eq_of_length_le (Nat.le_trans h h4)
    have h' : (ub (pathBits (p ++ [i])) m).length ≤ 1 := by
      show (under (p ++ [i]) m).length ≤ 1
      rw [hsub]; exact h
    rw [walk_stop h, walk_stop h']
    exact ⟨hsub.symm, rfl⟩
  · rw [h, hpb]; exact ⟨rfl, rfl⟩

/-- Insertion below a present node. -/
theorem insertAt_spec (hm : NodupE m) : ∀ (rem p : List Nibble) (tc : TreeCache),
    k.nibbles = p ++ rem → under p m ≠ [] → SubInv C tc m ver p → CountInv C tc → tc.base = C.B →
    ∃ r pf tc', insertAt C.H C.V x wp rem p ⟨ver p, p⟩ tc = .ok (r, pf, tc') ∧
      Post C m k x wp p rem ver tc r pf tc' := by
  intro rem
  induction rem with
  | nil =>
    intro p tc hk hne hs ci hb
    unfold insertAt
    rw [(hs.top hne).get trivial hb, ok_bind]
    rcases len_cases (under p m) with h | ⟨e, h⟩ | h
    · exact absurd h hne
    · rw [canonNode_one h]
      exact insertAtLeaf_spec hm h hk hs ci
    · have := under_length_lt_of_two hm h
      have h64 := congrArg List.length hk
      rw [nibbles_length] at h64
      simp at h64; omega
  | cons i rem ih =>
    intro p tc hk hne hs ci hb
    unfold insertAt
    rw [(hs.top hne).get trivial hb, ok_bind]
    rcases len_cases (under p m) with h | ⟨e, h⟩ | h2
    · exact absurd h hne
    · rw [canonNode_one h]
      exact insertAtLeaf_spec hm h hk hs ci
    · rw [canonNode_two h2]
      simp only
      have hp : p.length < 64 := under_length_lt_of_two hm h2
      have hkp : p <+: k.nibbles := ⟨_, hk.symm⟩
      have hki : p ++ [i] <+: k.nibbles := ⟨rem, by rw [hk]; simp⟩
      have hm' : NodupE (upd m k x) := hm.upd k x
      have hkk := hs.knowsKids h2 hb
      have hother : ∀ j, j ≠ i → under (p ++ [j]) (upd m k x) = under (p ++ [j]) m :=
        fun j hj => under_upd_of_not_prefix (not_prefix_other hki hj)
      have hne' : under p (upd m k x) ≠ [] := by
        rw [under_upd_of_prefix hkp]
        have := length_le_upd (m := under p m) (hm.filter _) k x
        intro hc; rw [hc] at this; simp at this; omega
      -- the tail of the function, once the child is done
      have finish : ∀ (tc1 : TreeCache) (ver1 : List Nibble → Version) (r : PutResult),
          Same tc tc1 → CountInv C tc1 → (∀ q, ¬ p ++ [i] <+: q → AgreeAt tc tc1 q) →
          (∀ q, ¬ p ++ [i] <+: q → ver1 q = ver q) →
          SubInv C tc1 (upd m k x) ver1 (p ++ [i]) → (x = none → ∃ e ∈ m, e.1 = k) →
          Touch C.V m ver (upd m k x) ver1 (p ++ [i]) k →
          ((∃ nk, r = .updated nk (canonNode C.H (upd m k x) ver1 (p ++ [i])) ∧
              under (p ++ [i]) (upd m k x) ≠ [] ∧ ver1 (p ++ [i]) = C.V) ∨
            (r = .removed ∧ under (p ++ [i]) (upd m k x) = [])) →
          ∃ r' pf' tc', rebuildInternal C.H C.V wp ⟨ver p, p⟩ (canonInternal C.H m ver p) i r
              (proofOpt wp (subProof C.H m p (i :: rem))) tc1 = .ok (r', pf', tc') ∧
            Post C m k x wp p (i :: rem) ver tc r' pf' tc' := by
        intro tc1 ver1 r hsame ci1 hag hver hsub hex htouch hr
        have hcs : ∃ cs, updateChildren C.H C.V (canonInternal C.H m ver p).children i r = .ok cs ∧
            CanonSlots C.H (upd m k x) ver1 p cs ∧ cs.Wf := by
          have hoth : ∀ j, j ≠ i → canonChild C.H m ver (p ++ [j])
              = canonChild C.H (upd m k x) ver1 (p ++ [j]) := by
            intro j hj
            refine canonChild_congr (by rw [hother j hj]) (fun _ => (hver _ ?_).symm)
            exact not_prefix_other (List.prefix_refl _) (Ne.symm hj)
          rcases hr with ⟨nk, rfl, hu, hv⟩ | ⟨rfl, hu⟩
          · obtain ⟨t, ht1, ht2⟩ := canonNode_nodeType (H := C.H) (ver := ver1) hu
            refine ⟨_, ?_, ?_, (canonChildren_wf (H := C.H) (m := m) (ver := ver) (p := p)).insert i
              ⟨sh C.H (upd m k x) (pathBits (p ++ [i])), C.V, t⟩⟩
            · simp only [updateChildren, canonNode_hash hm', ht1, ok_bind]
            · intro j
              by_cases hj : j = i
              · subst hj
                rw [ht2, hv]; simp [Children.insert]
              · rw [← hoth j hj]; simp [Children.insert, hj, canonInternal, canonChildren]
          · obtain ⟨cs, h1, h3, h4⟩ :=
              (canonChildren_wf (H := C.H) (m := m) (ver := ver) (p := p)).remove i
            refine ⟨cs, h1, ?_, h3⟩
            intro j
            rw [h4]
            by_cases hj : j = i
            · subst hj; rw [canonChild_nil hu]; simp
            · rw [← hoth j hj]; simp [hj, canonInternal, canonChildren]
        obtain ⟨cs, hcs1, hcs2, hcs3⟩ := hcs
        have hsubs : ∀ j, SubInv C tc1 (upd m k x) ver1 (p ++ [j]) := by
          intro j
          by_cases hj : j = i
          · subst hj; exact hsub
          · refine (hs.child h2 j).congr (fun q hq => hag q ?_) (by rw [hother j hj])
              (fun q hq => hver q ?_)
            · intro h; exact not_prefix_other h hj hq
            · intro h; exact not_prefix_other h hj hq
        obtain ⟨tc2, e1, e2, e3, e4, e5⟩ := rewriteInternal_spec hm hm'
          ((hs.top hne).frame (hag p not_snoc_prefix_self)) h2 ci1 (hsame.base.trans hb) hsubs hne'
          hcs2 hcs3 (proofOpt wp (subProof C.H m p (i :: rem)))
        refine ⟨_, _, tc2, ?_, Post.updated (setVer ver1 p C.V) hex hne' setVer_self ?_ e5
          (hsame.trans e2) e3 ?_ ?_⟩
        · unfold rebuildInternal
          rcases hr with ⟨nk, rfl, -, -⟩ | ⟨rfl, -⟩ <;> simp only [hcs1, ok_bind] <;> exact e1
        · intro q hq
          rw [setVer_ne (by rintro rfl; exact hq (List.prefix_refl _))]
          exact hver q (fun h => hq ((List.prefix_append _ _).trans h))
        · intro q hq
          exact (hag q (fun h => hq ((List.prefix_append _ _).trans h))).trans (e4 q hq)
        · refine ⟨fun q hq => ?_, fun q hq hq' hn => ?_⟩
          · rcases path_cases hq.1 with rfl | ⟨j, hj⟩
            · exact .inl setVer_self
            · have hqp : q ≠ p := by rintro rfl; exact not_snoc_prefix_self hj
              rw [setVer_ne hqp]
              have h2' : 2 ≤ (under p (upd m k x)).length := by
                apply Decidable.byContradiction
                intro hc
                exact not_pres_below hq.1 hqp (by omega) hq
              by_cases hji : j = i
              · subst hji
                rcases htouch.new q ((pres_child hj h2').2 hq) with h | ⟨h, h', h''⟩
                · exact .inl h
                · exact .inr ⟨h, (pres_child hj h2).1 h', h''⟩
              · right
                have hnp : ¬ q <+: k.nibbles := fun h => not_prefix_other hki hji (hj.trans h)
                refine ⟨hver q (fun h => not_prefix_other h hji hj), (pres_child hj h2).1 ?_, hnp⟩
                have hpq := (pres_child hj h2').2 hq
                refine ⟨hpq.1, ?_, ?_⟩
                · have := hpq.2.1
                  rwa [under_upd_of_not_prefix hnp] at this
                · rcases hpq.2.2 with h | h
                  · exact .inl h
                  · by_cases hqj : q = p ++ [j]
                    · exact .inl hqj
                    · right
                      have hd := prefix_dropLast hj hqj
                      rwa [under_upd_of_not_prefix (fun h => not_prefix_other hki hji (hd.trans h))] at h
          · rcases path_cases hq.1 with rfl | ⟨j, hj⟩
            · exact absurd hkp hn
            · have hqp : q ≠ p := by rintro rfl; exact not_snoc_prefix_self hj
              rw [setVer_ne hqp]
              by_cases hji : j = i
              · subst hji
                have h2' : 2 ≤ (under p (upd m k x)).length := by
                  apply Decidable.byContradiction
                  intro hc
                  exact not_pres_below hq'.1 hqp (by omega) hq'
                exact htouch.keep q ((pres_child hj h2).2 hq) ((pres_child hj h2').2 hq') hn
              · exact hver q (fun h => not_prefix_other h hji hj)
      unfold insertAtInternalNode
      by_cases hi : under (p ++ [i]) m = []
      · -- empty slot
        have hslot : (canonInternal C.H m ver p).child i = none := canonChild_nil hi
        rw [hslot]
        simp only
        have hnk : ∀ e ∈ m, e.1 ≠ k := by
          intro e he hek
          have : e ∈ under (p ++ [i]) m := mem_under.2 ⟨he, by rw [hek]; exact hki⟩
          rw [hi] at this; simp at this
        -- the proof
        have hproof : (if wp = true then do
              let (ck?, sibs) ← (canonInternal C.H m ver p).getChildWithSiblings C.H tc.getNode
                ⟨ver p, p⟩ i true
              let leaf ← closestLeaf tc ck?
              Except.ok (some ⟨leaf, sibs.reverse⟩)
            else Except.ok none : Except Err (Option SMProof))
            = .ok (proofOpt wp (subProof C.H m p (i :: rem))) := by
          cases wp with
          | false => rfl
          | true =>
            obtain ⟨ck, hck1, hck2⟩ := onlyChild_canon hm (canonSlots_self (H := C.H)) h2 hkk (ver p) i
            have hle : (ub (walk C.H m (pathBits p) (nibbleBits i)).2 m).length ≤ 1 := by
              apply Decidable.byContradiction
              intro hc
              have h5 := (hck2.two (by omega)).1
              rw [h5] at hc
              have : ub (pathBits (p ++ [i])) m = [] := hi
              rw [this] at hc; simp at hc
            have hcl : closestLeaf tc ck
                = .ok (ub (walk C.H m (pathBits p) (nibbleBits i)).2 m).head? := by
              rcases len_cases (ub (walk C.H m (pathBits p) (nibbleBits i)).2 m) with h | ⟨e, h⟩ | h
              · rw [hck2.nil h, h]; rfl
              · obtain ⟨j, hj1, hj2⟩ := hck2.one e h
                rw [hj1, h]
                unfold closestLeaf
                simp only [hkk j (by rw [hj2]; simp), canonNode_one hj2, List.head?_cons]
              · omega
            simp only [↓reduceIte, hck1, ok_bind, hcl, proofOpt]
            rw [subProof_step h2, walk_stop hle]
            simp
        cases x with
        | none =>
          refine ⟨.notChanged, proofIf wp none, tc, ?_, Post.noop rfl hnk⟩
          rw [hproof]
          rfl
        | some v =>
          have habs : Absent C tc (p ++ [i]) :=
            (hs.child h2 i).absent_nil hi (List.prefix_refl _)
          obtain ⟨tc1, b1, b2, b3, b4, b5⟩ := createLeaf_spec habs ci
            (vis := p ++ [i]) (rm := rem) (k := k) (by rw [hk]; simp) v
          have hu : under (p ++ [i]) (upd m k (some v)) = [(k, v)] := by
            rw [under_upd_of_prefix hki, hi]; rfl
          have hcn : canonNode C.H (upd m k (some v)) (setVer ver (p ++ [i]) C.V) (p ++ [i])
              = .leaf ⟨k, v⟩ := canonNode_one hu
          obtain ⟨r', pf', tc', f1, f2⟩ := finish tc1 (setVer ver (p ++ [i]) C.V)
            (.updated ⟨C.V, p ++ [i]⟩ (.leaf ⟨k, v⟩)) b2 b3
            (fun q hq => b4 q (by rintro rfl; exact hq (List.prefix_refl _)))
            (fun q hq => setVer_ne (by rintro rfl; exact hq (List.prefix_refl _)))
            (SubInv.mk1 (b5 _ _ setVer_self hcn) (by rw [hu]; rfl)
              (fun q hq hqi => ((hs.child h2 i).absent_nil hi hq).frame (b4 q hqi)))
            (by simp) (by
              refine ⟨fun q hq => ?_, fun q hq => absurd (under_nil_of_prefix hq.1 hi) hq.2.1⟩
              have hqi : q = p ++ [i] := by
                apply Decidable.byContradiction
                intro hqi
                exact not_pres_below hq.1 hqi (by rw [hu]; simp) hq
              subst hqi
              exact .inl setVer_self) (.inl ⟨⟨C.V, p ++ [i]⟩, by rw [hcn], by rw [hu]; simp, setVer_self⟩)
          refine ⟨r', pf', tc', ?_, f2⟩
          rw [hproof]
          simp only [ok_bind, genChild_ok hp, b1]
          exact f1
      · obtain ⟨c, hc⟩ := Option.isSome_iff_exists.1 ((canonChild_isSome (H := C.H) (ver := ver)).2 hi)
        have hslot : (canonInternal C.H m ver p).child i = some c := hc
        rw [hslot]
        simp only
        have hcv : c.version = ver (p ++ [i]) := (canonChild_some hc).2.1
        have hwin := walk_into_child (C := C) (m := m) (p := p) (rem := rem) i hi
        have hsp : subProof C.H m p (i :: rem)
            = ⟨(subProof C.H m (p ++ [i]) rem).leaf, (subProof C.H m (p ++ [i]) rem).siblings ++
                (walk C.H m (pathBits p) (nibbleBits i)).1.reverse⟩ := by
          rw [subProof_step h2, hwin.1, hwin.2]; rfl
        obtain ⟨r, pf, tc1, g1, g2⟩ := ih (p ++ [i]) tc (by rw [hk]; simp) hi (hs.child h2 i) ci hb
        have hsel : ∃ sibs, childKeyAndSiblings C.H wp ⟨ver p, p⟩ (canonInternal C.H m ver p) i c tc
            = .ok (⟨ver (p ++ [i]), p ++ [i]⟩, sibs) ∧
            extendProof sibs (proofOpt wp (subProof C.H m (p ++ [i]) rem))
              = proofOpt wp (subProof C.H m p (i :: rem)) := by
          cases wp with
          | false => exact ⟨[], by simp [childKeyAndSiblings, genChild_ok hp, hcv], rfl⟩
          | true =>
            refine ⟨(walk C.H m (pathBits p) (nibbleBits i)).1, ?_, ?_⟩
            · simp only [childKeyAndSiblings, ↓reduceIte, child_canon hm canonSlots_self h2 hkk (ver p) i hi, ok_bind]
            · simp only [proofOpt, ↓reduceIte, extendProof, hsp]
        obtain ⟨sibs, hsel1, hsel2⟩ := hsel
        rw [hsel1]
        simp only [ok_bind, g1]
        cases g2 with
        | noop hx hnk => exact ⟨_, _, _, rfl, Post.noop hx hnk⟩
        | removed hx hex hu habs hsame hci hag =>
          rw [hsel2]
          exact finish tc1 ver .removed hsame hci hag (fun _ _ => rfl)
            (SubInv.mk0 hu habs) (fun _ => hex) ⟨fun q hq => absurd (under_nil_of_prefix hq.1 hu) hq.2.1,
              fun q _ hq => absurd (under_nil_of_prefix hq.1 hu) hq.2.1⟩ (.inr ⟨rfl, hu⟩)
        | updated ver' hex hu hv hv' hsub hsame hci hag htouch =>
          rw [hsel2]
          exact finish tc1 ver' _ hsame hci hag hv' hsub hex htouch (.inl ⟨_, rfl, hu, hv⟩)

end
end Jmt

import Verif.Proofs.RestoreBase
/-!
# Restore, part 2: freezing and adding one key
-/
namespace Jmt
open Spec (Entry)

theorem append_lt_nib (l : List Nibble) {a b : List Nibble} (h : a < b) : l ++ a < l ++ b := by
  induction l with
  | nil => exact h
  | cons x l ih => rw [List.cons_append, List.cons_append, List.cons_lt_cons_iff]; exact .inr ⟨rfl, ih⟩

theorem lt_of_nib_lt {k k' : KeyHash} {c : Nat} (hc : c < 64)
    (he : k.nibbles.take c = k'.nibbles.take c) (hn : nib k c < nib k' c) : k.val < k'.val := by
  apply nibbles_lt.1
  rw [← List.take_append_drop c k.nibbles, ← List.take_append_drop c k'.nibbles, ← he, drop_nib hc, drop_nib hc]
  apply append_lt_nib
  rw [List.cons_lt_cons_iff]
  exact .inl hn

theorem find_reverse {g : Nibble → Bool} {i : Nibble} (hi : g i = true) (h : ∀ j, i < j → g j = false) :
    (List.finRange 16).reverse.find? g = some i := by
  rw [List.find?_eq_some_iff_getElem]
  refine ⟨hi, 15 - i.val, by simp; omega, ?_, ?_⟩
  · simp only [List.getElem_reverse, List.getElem_finRange, List.length_finRange]
    apply Fin.ext
    simp
    omega
  · intro j hj
    simp only [List.getElem_reverse, List.getElem_finRange, List.length_finRange]
    have := h ⟨16 - 1 - j, by omega⟩ (by simp only [Fin.lt_def]; omega)
    simpa using this

theorem modify_last {α : Type} (l : List α) (a : α) (f : α → α) : (l ++ [a]).modify l.length f = l ++ [f a] := by
  induction l with
  | nil => rfl
  | cons x l ih => simpa using ih

theorem under_append (q : List Nibble) (m : List Entry) (e : Entry) :
    under q (m ++ [e]) = under q m ++ (if q <+: e.1.nibbles then [e] else []) := by
  unfold under ub
  rw [List.filter_append]
  congr 1
  have : (pathBits q).isPrefixOf (keyBits e.1) = decide (q <+: e.1.nibbles) := by
    rw [Bool.eq_iff_iff, List.isPrefixOf_iff_prefix, decide_eq_true_iff]
    exact pathBits_prefix
  simp only [List.filter_cons, List.filter_nil, this, decide_eq_true_eq]

section
variable {H : Hasher} {m : List Entry} {w : Version} {k k' : KeyHash} {vh vh' : ValueHash} {n c : Nat} {r : Restore}

/-- No key exceeds `k`. -/
def MaxKey (m : List Entry) (k : KeyHash) : Prop := ∀ e ∈ m, ¬ k.val < e.1.val

theorem right_empty (hk : MaxKey m k) {i : Nat} {j : Nibble} (hi : i < 64) (hj : nib k i < j) :
    under (k.nibbles.take i ++ [j]) m = [] := by
  rw [List.eq_nil_iff_forall_not_mem]
  intro e he
  rw [mem_under, snoc_prefix_nib hi] at he
  obtain ⟨h1, h2, h3⟩ := he
  apply hk e h1
  have h4 := (prefix_nib_iff.1 h2).2
  rw [take_length_nib (Nat.le_of_lt hi)] at h4
  exact lt_of_nib_lt hi h4 (by rw [h3]; exact hj)

theorem mem_under_take (hmem : (k, vh) ∈ m) (i : Nat) : (k, vh) ∈ under (k.nibbles.take i) m :=
  mem_under.2 ⟨hmem, take_prefix_nib _ _⟩

theorem under_take_ne (hmem : (k, vh) ∈ m) (i : Nat) : under (k.nibbles.take i) m ≠ [] :=
  List.ne_nil_of_mem (mem_under_take hmem i)

theorem openPath_succ (i : Nat) : openPath H m w k (i + 1) = openPath H m w k i ++ [openInfo H m w k i] := by
  unfold openPath; rw [List.range_succ, List.map_append]; rfl

theorem openPath_length (i : Nat) : (openPath H m w k i).length = i := by simp [openPath]

theorem rposition_full (hk : MaxKey m k) (hmem : (k, vh) ∈ m) (hn : n < 64) :
    (fullInfo H m w (k.nibbles.take n)).rposition = some (nib k n) := by
  apply find_reverse
  · show (cinfo H m _).isSome = true
    rw [cinfo_isSome, ← take_succ_nib hn]
    exact under_take_ne hmem _
  · intro j hj
    show (cinfo H m _).isSome = false
    rw [cinfo_nil (right_empty hk hn hj)]
    rfl

theorem rposition_open (hk : MaxKey m k) (hn : n < 64) :
    (openInfo H m w k n).rposition = some (nib k n) := by
  apply find_reverse
  · simp [openInfo]
  · intro j hj
    simp only [openInfo]
    rw [if_neg (by rintro rfl; exact absurd hj (Nat.lt_irrefl _)), cinfo_nil (right_empty hk hn hj)]
    rfl

/-- The memory of a receiver that has taken the entries `m`, the last of them `k`: the nodes on the path of `k` down to
level `n`, the last of them with complete children. -/
structure Part (H : Hasher) (r : Restore) (m : List Entry) (w : Version) (k : KeyHash) (n : Nat) : Prop where
  version : r.version = w
  lt : n < 64
  nodes : r.partialNodes = openPath H m w k n ++ [fullInfo H m w (k.nibbles.take n)]

theorem Part.length (h : Part H r m w k n) : r.partialNodes.length = n + 1 := by
  rw [h.nodes]; simp [openPath_length]

theorem Part.getLast (h : Part H r m w k n) :
    r.partialNodes.getLast? = some (fullInfo H m w (k.nibbles.take n)) := by
  rw [h.nodes]; simp

theorem Part.dropLast (h : Part H r m w k n) : r.partialNodes.dropLast = openPath H m w k n := by
  rw [h.nodes]; simp

theorem freezePreviousLeaf_zero (h : r.numKeysReceived = 0) : r.freezePreviousLeaf = .ok r := by
  unfold Restore.freezePreviousLeaf; rw [if_pos h]

theorem freezePreviousLeaf_some (hp : Part H r m w k n) (hk : MaxKey m k) (h0 : r.numKeysReceived ≠ 0)
    (h1 : under (k.nibbles.take (n + 1)) m = [(k, vh)]) :
    r.freezePreviousLeaf = .ok (r.insertFrozen ⟨w, k.nibbles.take (n + 1)⟩ (.leaf ⟨k, vh⟩)) := by
  have hmem : (k, vh) ∈ m := by
    have : (k, vh) ∈ under (k.nibbles.take (n + 1)) m := by rw [h1]; simp
    exact (mem_under.1 this).1
  unfold Restore.freezePreviousLeaf
  rw [if_neg h0, hp.getLast]
  simp only []
  rw [rposition_full hk hmem hp.lt]
  simp only []
  have hc : (fullInfo H m w (k.nibbles.take n)).children (nib k n) = some (.leaf ⟨k, vh⟩) := by
    show cinfo H m _ = _
    rw [← take_succ_nib hp.lt, cinfo_one h1]
  rw [hc]
  simp only []
  have hg : NodeKey.genChild (fullInfo H m w (k.nibbles.take n)).nodeKey r.version (nib k n) = .ok ⟨w, k.nibbles.take (n + 1)⟩ := by
    unfold NodeKey.genChild
    rw [if_pos (by show (k.nibbles.take n).length < 64; rw [take_length_nib (Nat.le_of_lt hp.lt)]; exact hp.lt), hp.version,
      take_succ_nib hp.lt]
    rfl
  rw [hg, ok_bind]

/-- The internal nodes frozen on the way up from level `c + d` to level `c`. -/
def frz (H : Hasher) (m : List Entry) (w : Version) (k : KeyHash) (c : Nat) : Nat → AMap NodeKey Node → AMap NodeKey Node
  | 0, N => N
  | d + 1, N => frz H m w k c d (N.insert ⟨w, k.nibbles.take (c + d + 1)⟩
      (.internal (canonInternal H m (fun _ => w) (k.nibbles.take (c + d + 1)))))

/-- Freeze result. -/
def Restore.withFrozen (r : Restore) (ps : List InternalInfo) (N : AMap NodeKey Node) : Restore :=
  { r with partialNodes := ps, frozenNodes := { r.frozenNodes with nodes := N } }

theorem setChild_open (hn : n < 64) (h2 : 2 ≤ (under (k.nibbles.take (n + 1)) m).length) :
    (openInfo H m w k n).setChild (nib k n)
      (.internal (some (sh H m (pathBits (k.nibbles.take (n + 1))))) (under (k.nibbles.take (n + 1)) m).length) =
    fullInfo H m w (k.nibbles.take n) := by
  unfold InternalInfo.setChild openInfo fullInfo
  simp only [InternalInfo.mk.injEq, true_and]
  funext j
  by_cases hj : j = nib k n
  · subst hj
    rw [if_pos rfl, ← take_succ_nib hn, cinfo_two h2]
  · rw [if_neg hj, if_neg hj]

theorem fillParent_open (hk : MaxKey m k) (hn : n < 64) (h2 : 2 ≤ (under (k.nibbles.take (n + 1)) m).length) :
    Restore.fillParent (openPath H m w k (n + 1)) (sh H m (pathBits (k.nibbles.take (n + 1))))
      (under (k.nibbles.take (n + 1)) m).length = .ok (openPath H m w k n ++ [fullInfo H m w (k.nibbles.take n)]) := by
  unfold Restore.fillParent
  rw [openPath_succ, List.getLast?_concat]
  simp only []
  rw [rposition_open hk hn]
  simp only []
  have : (openInfo H m w k n).children (nib k n) = some (.internal none 0) := by simp [openInfo]
  rw [this]
  simp only [List.dropLast_concat]
  rw [setChild_open hn h2]

theorem freezeInternalLoop_step (hm : NodupE m) (hp : Part H r m w k n) {d : Nat}
    (h2 : 2 ≤ (under (k.nibbles.take n) m).length) :
    Restore.freezeInternalLoop H (d + 1) r = (do
      let ps ← Restore.fillParent (openPath H m w k n) (sh H m (pathBits (k.nibbles.take n))) (under (k.nibbles.take n) m).length
      Restore.freezeInternalLoop H d (r.withFrozen ps (r.frozenNodes.nodes.insert ⟨w, k.nibbles.take n⟩
        (.internal (canonInternal H m (fun _ => w) (k.nibbles.take n)))))) := by
  conv => lhs; unfold Restore.freezeInternalLoop
  rw [hp.getLast]
  simp only []
  have hl : (k.nibbles.take n).length < 64 := by rw [take_length_nib (Nat.le_of_lt hp.lt)]; exact hp.lt
  have hh := canonNode_hash (H := H) (ver := fun _ => w) (p := k.nibbles.take n) hm
  rw [canonNode_two h2] at hh
  rw [hp.version, intoInternal_full hl h2, ok_bind]
  simp only []
  rw [show (canonInternal H m (fun _ => w) (k.nibbles.take n)).hash H = .ok (sh H m (pathBits (k.nibbles.take n))) from hh, ok_bind,
    hp.dropLast]
  rfl

theorem freezeInternalLoop_ok (hm : NodupE m) (hk : MaxKey m k) : ∀ (d : Nat) {r : Restore},
    Part H r m w k (c + d) → (∀ i, c < i → i ≤ c + d → 2 ≤ (under (k.nibbles.take i) m).length) →
    Restore.freezeInternalLoop H d r = .ok (r.withFrozen (openPath H m w k c ++ [fullInfo H m w (k.nibbles.take c)])
      (frz H m w k c d r.frozenNodes.nodes)) := by
  intro d
  induction d with
  | zero =>
    intro r hp _
    unfold Restore.freezeInternalLoop frz Restore.withFrozen
    have := hp.nodes
    rw [Nat.add_zero] at this
    rw [← this]
  | succ d ih =>
    intro r hp h2
    have h2' := h2 (c + d + 1) (by omega) (by omega)
    have hlt : c + d < 64 := by have := hp.lt; omega
    rw [freezeInternalLoop_step hm hp h2']
    rw [show c + (d + 1) = (c + d) + 1 from rfl, fillParent_open hk hlt h2', ok_bind]
    have hp' : Part H (r.withFrozen (openPath H m w k (c + d) ++ [fullInfo H m w (k.nibbles.take (c + d))])
        (r.frozenNodes.nodes.insert ⟨w, k.nibbles.take (c + d + 1)⟩
          (.internal (canonInternal H m (fun _ => w) (k.nibbles.take (c + d + 1)))))) m w k (c + d) := ⟨hp.version, hlt, rfl⟩
    rw [ih hp' (fun i h3 h4 => h2 i h3 (by omega))]
    rfl

/-- If a level with a single entry has to be frozen, the conversion to an internal node panics. -/
theorem freezeInternalLoop_inv (hm : NodupE m) (hk : MaxKey m k) (hmem : (k, vh) ∈ m) : ∀ (d : Nat) {r r' : Restore},
    Part H r m w k (c + d) → Restore.freezeInternalLoop H d r = .ok r' →
    ∀ i, c < i → i ≤ c + d → 2 ≤ (under (k.nibbles.take i) m).length := by
  intro d
  induction d with
  | zero => intro r r' _ _ i h1 h2; omega
  | succ d ih =>
    intro r r' hp hr
    have hlt : c + d < 64 := by have := hp.lt; omega
    rcases len_cases (under (k.nibbles.take (c + (d + 1))) m) with h | ⟨e, h⟩ | h2'
    · exact absurd h (under_take_ne hmem _)
    · exfalso
      unfold Restore.freezeInternalLoop at hr
      rw [hp.getLast] at hr
      simp only [] at hr
      have hl : (k.nibbles.take (c + (d + 1))).length < 64 := by rw [take_length_nib (Nat.le_of_lt hp.lt)]; exact hp.lt
      obtain ⟨s, hs⟩ := intoInternal_single (H := H) (w := w) hl h
      rw [hp.version, hs] at hr
      cases hr
    · rw [freezeInternalLoop_step hm hp h2'] at hr
      rw [show c + (d + 1) = (c + d) + 1 from rfl, fillParent_open hk hlt h2', ok_bind] at hr
      have hp' : Part H (r.withFrozen (openPath H m w k (c + d) ++ [fullInfo H m w (k.nibbles.take (c + d))])
          (r.frozenNodes.nodes.insert ⟨w, k.nibbles.take (c + d + 1)⟩
            (.internal (canonInternal H m (fun _ => w) (k.nibbles.take (c + d + 1)))))) m w k (c + d) := ⟨hp.version, hlt, rfl⟩
      intro i h3 h4
      by_cases hi : i = c + d + 1
      · subst hi; exact h2'
      · exact ih hp' hr i h3 (by omega)

/-- The nodes frozen by `freeze`, when the bottom level is `n` and `c + 1` levels remain. -/
def frzAll (H : Hasher) (m : List Entry) (w : Version) (k : KeyHash) (vh : ValueHash) (c n : Nat) (r : Restore) : AMap NodeKey Node :=
  frz H m w k c (n - c) (if r.numKeysReceived = 0 then r.frozenNodes.nodes
    else r.frozenNodes.nodes.insert ⟨w, k.nibbles.take (n + 1)⟩ (.leaf ⟨k, vh⟩))

theorem freeze_ok (hm : NodupE m) (hk : MaxKey m k) (hp : Part H r m w k n)
    (h1 : r.numKeysReceived ≠ 0 → under (k.nibbles.take (n + 1)) m = [(k, vh)]) (hc : c ≤ n)
    (h2 : ∀ i, c < i → i ≤ n → 2 ≤ (under (k.nibbles.take i) m).length) :
    r.freeze H (c + 1) = .ok (r.withFrozen (openPath H m w k c ++ [fullInfo H m w (k.nibbles.take c)])
      (frzAll H m w k vh c n r)) := by
  obtain ⟨d, rfl⟩ := Nat.exists_eq_add_of_le hc
  unfold Restore.freeze frzAll
  rw [show c + d - c = d from by omega]
  by_cases h0 : r.numKeysReceived = 0
  · rw [freezePreviousLeaf_zero h0, ok_bind]
    unfold Restore.freezeInternalNodes
    rw [hp.length, show c + d + 1 - (c + 1) = d from by omega, freezeInternalLoop_ok hm hk d hp h2, if_pos h0]
  · rw [freezePreviousLeaf_some hp hk h0 (h1 h0), ok_bind]
    have hp' : Part H (r.insertFrozen ⟨w, k.nibbles.take (c + d + 1)⟩ (.leaf ⟨k, vh⟩)) m w k (c + d) := ⟨hp.version, hp.lt, hp.nodes⟩
    unfold Restore.freezeInternalNodes
    rw [hp'.length, show c + d + 1 - (c + 1) = d from by omega, freezeInternalLoop_ok hm hk d hp' h2, if_neg h0]
    rfl

theorem freeze_inv (hm : NodupE m) (hk : MaxKey m k) (hmem : (k, vh) ∈ m) (hp : Part H r m w k n)
    (h1 : r.numKeysReceived ≠ 0 → under (k.nibbles.take (n + 1)) m = [(k, vh)]) (hc : c ≤ n) {r' : Restore}
    (h : r.freeze H (c + 1) = .ok r') :
    ∀ i, c < i → i ≤ n → 2 ≤ (under (k.nibbles.take i) m).length := by
  obtain ⟨d, rfl⟩ := Nat.exists_eq_add_of_le hc
  unfold Restore.freeze at h
  by_cases h0 : r.numKeysReceived = 0
  · rw [freezePreviousLeaf_zero h0, ok_bind] at h
    unfold Restore.freezeInternalNodes at h
    rw [hp.length, show c + d + 1 - (c + 1) = d from by omega] at h
    exact freezeInternalLoop_inv hm hk hmem d hp h
  · rw [freezePreviousLeaf_some hp hk h0 (h1 h0), ok_bind] at h
    have hp' : Part H (r.insertFrozen ⟨w, k.nibbles.take (c + d + 1)⟩ (.leaf ⟨k, vh⟩)) m w k (c + d) := ⟨hp.version, hp.lt, hp.nodes⟩
    unfold Restore.freezeInternalNodes at h
    rw [hp'.length, show c + d + 1 - (c + 1) = d from by omega] at h
    exact freezeInternalLoop_inv hm hk hmem d hp' h

/-! ### Adding one key -/

theorem under_append_ne {q : List Nibble} {e : Entry} (h : ¬ q <+: e.1.nibbles) : under q (m ++ [e]) = under q m := by
  rw [under_append, if_neg h, List.append_nil]

/-- The path down to where the new key branches off looks the same. -/
theorem openPath_extend (hc : c ≤ 64) (he : k.nibbles.take c = k'.nibbles.take c) :
    openPath H (m ++ [(k', vh')]) w k' c = openPath H m w k c := by
  unfold openPath
  apply List.map_congr_left
  intro i hi
  have hi : i < c := List.mem_range.1 hi
  unfold openInfo
  rw [← take_take_nib he (Nat.le_of_lt hi), ← nib_eq_of_take he hi]
  simp only [InternalInfo.mk.injEq, true_and]
  funext j
  by_cases hj : j = nib k i
  · rw [if_pos hj, if_pos hj]
  · rw [if_neg hj, if_neg hj]
    apply cinfo_congr
    rw [under_append_ne]
    rw [take_take_nib he (Nat.le_of_lt hi), snoc_prefix_nib (by omega)]
    rintro ⟨-, h⟩
    rw [← nib_eq_of_take he hi] at h
    exact hj h.symm

theorem full_extend (hc : c < 64) (he : k.nibbles.take c = k'.nibbles.take c)
    (h0 : under (k.nibbles.take c ++ [nib k' c]) m = []) :
    (fullInfo H m w (k.nibbles.take c)).setChild (nib k' c) (.leaf ⟨k', vh'⟩) =
      fullInfo H (m ++ [(k', vh')]) w (k'.nibbles.take c) := by
  unfold InternalInfo.setChild fullInfo
  rw [← he]
  simp only [InternalInfo.mk.injEq, true_and]
  funext j
  by_cases hj : j = nib k' c
  · subst hj
    rw [if_pos rfl, cinfo_one (e := (k', vh'))]
    rw [under_append, h0, if_pos, List.nil_append]
    rw [he, ← take_succ_nib hc]
    exact take_prefix_nib _ _
  · rw [if_neg hj]
    apply cinfo_congr
    rw [under_append_ne]
    rw [he, snoc_prefix_nib hc]
    exact fun h => hj h.2.symm

theorem addOne_reach (hp : Part H r m w k n) {i : Nat} (hin : i ≤ n) (he : k.nibbles.take i = k'.nibbles.take i) :
    r.addOne H k' vh' = Restore.addOneLoop H k' vh' i (k'.nibbles.take i) (k'.nibbles.drop i) r := by
  induction i with
  | zero => rfl
  | succ i ih =>
    have hi : i < 64 := by have := hp.lt; omega
    have he' := take_take_nib he (Nat.le_succ i)
    rw [ih (by omega) he', drop_nib hi]
    conv => lhs; unfold Restore.addOneLoop
    have hg : r.partialNodes[i]? = some (openInfo H m w k i) := by
      rw [hp.nodes, List.getElem?_append_left (by rw [openPath_length]; omega)]
      unfold openPath
      rw [List.getElem?_map, List.getElem?_range (by omega)]
      rfl
    rw [hg]
    simp only []
    have hc : (openInfo H m w k i).children (nib k' i) = some (.internal none 0) := by
      unfold openInfo
      rw [← nib_eq_of_take he (Nat.lt_succ_self i)]
      simp
    rw [hc]
    simp only []
    rw [take_succ_nib hi]

/-- The state after the new key has been put at level `c`. -/
def Restore.put (r : Restore) (H : Hasher) (m : List Entry) (w : Version) (k : KeyHash) (c : Nat) (N : AMap NodeKey Node) : Restore :=
  r.withFrozen (openPath H m w k c ++ [fullInfo H m w (k.nibbles.take c)]) N

theorem setChildAt_put (hc : c < 64) (he : k.nibbles.take c = k'.nibbles.take c) (N : AMap NodeKey Node)
    (h0 : under (k.nibbles.take c ++ [nib k' c]) m = []) :
    (r.put H m w k c N).setChildAt c (nib k' c) (.leaf ⟨k', vh'⟩) = r.put H (m ++ [(k', vh')]) w k' c N := by
  unfold Restore.put Restore.setChildAt Restore.withFrozen
  simp only []
  have := modify_last (openPath H m w k c) (fullInfo H m w (k.nibbles.take c)) (fun info => info.setChild (nib k' c) (.leaf ⟨k', vh'⟩))
  rw [openPath_length] at this
  rw [this, full_extend hc he h0, openPath_extend (Nat.le_of_lt hc) he]

end
end Jmt

import Verif.Proofs.Run
import Verif.Model.Mock
/-!
# The invariant of a store produced by a history of commits and purges
-/
namespace Jmt
open Spec (Entry)

abbrev Nodes := NodeKey → Option Node

def nb (G : Nodes) : NodeBase := fun k => .ok (G k)

def overG (N : AMap NodeKey Node) (G : Nodes) : Nodes := fun k =>
  match N.get? k with
  | some n => some n
  | none => G k

theorem over_nb (N : AMap NodeKey Node) (G : Nodes) : over N (nb G) = nb (overG N G) := by
  funext k
  unfold over nb overG
  cases N.get? k <;> rfl

/-- Extend a sequence at index `n`. -/
def updN {α : Type} (f : Nat → α) (n : Nat) (x : α) : Nat → α := fun i => if i = n then x else f i

@[simp] theorem updN_self {α : Type} (f : Nat → α) (n : Nat) (x : α) : updN f n x n = x := if_pos rfl
theorem updN_ne {α : Type} {f : Nat → α} {n i : Nat} {x : α} (h : i ≠ n) : updN f n x i = f i :=
  if_neg h

/-- The entries of the latest version. -/
def cur (M : Nat → List Entry) (n : Nat) : List Entry := if n = 0 then [] else M (n - 1)

theorem nodup_map_inj {α β : Type} {f : α → β} {l : List α} (h : (l.map f).Nodup) {a b : α}
    (ha : a ∈ l) (hb : b ∈ l) (he : f a = f b) : a = b := by
  induction l with
  | nil => simp at ha
  | cons x l ih =>
    simp only [List.map_cons, List.nodup_cons] at h
    rcases List.mem_cons.1 ha with rfl | ha' <;> rcases List.mem_cons.1 hb with rfl | hb'
    · rfl
    · exact absurd (List.mem_map.2 ⟨b, hb', he.symm⟩) h.1
    · exact absurd (List.mem_map.2 ⟨a, ha', he⟩) h.1
    · exact ih h.2 ha' hb'

/-- `n` versions `0 .. n-1` have been committed, version `i` has entries `M i` and node versions
`W i`; all versions from `low` on are readable. -/
structure HistInv (H : Hasher) (G : Nodes) (st : List StaleNodeIndex) (n low : Nat)
    (M : Nat → List Entry) (W : Nat → List Nibble → Version) : Prop where
  lowle : low ≤ n - 1
  nodup : ∀ i, i < n → NodupE (M i)
  tree : ∀ i, low ≤ i → i < n → TreeAt H (nb G) i (M i) (W i)
  wle : ∀ i, i < n → ∀ q, pres (M i) [] q → W i q ≤ i
  lt : ∀ k nd, G k = some nd → k.version < n
  stale : ∀ x : StaleNodeIndex, x ∈ st → x.staleSince < n ∧ x.nodeKey.version < x.staleSince ∧
    (∃ nd, G x.nodeKey = some nd) ∧
    (x.nodeKey.path ≠ [] → ∀ j, x.staleSince ≤ j → j < n →
      ¬ (pres (M j) [] x.nodeKey.path ∧ W j x.nodeKey.path = x.nodeKey.version))
  staleNodup : (st.map StaleNodeIndex.nodeKey).Nodup
  exact : ∀ s w q, q ≠ [] → low < s → s < n →
    ((⟨s, ⟨w, q⟩⟩ : StaleNodeIndex) ∈ st ↔
      pres (M (s - 1)) [] q ∧ W (s - 1) q = w ∧ ¬ (pres (M s) [] q ∧ W s q = w))
  keep : ∀ k nd, G k = some nd → k.path ≠ [] →
    ∃ j, low ≤ j ∧ j < n ∧ pres (M j) [] k.path ∧ W j k.path = k.version
  rootStale : 0 < n → M (n - 1) ≠ [] → ∀ s w, (⟨s, ⟨w, []⟩⟩ : StaleNodeIndex) ∈ st → w ≠ W (n - 1) []
  rootNode : 0 < n → M (n - 1) ≠ [] → ∃ nd, G ⟨W (n - 1) [], []⟩ = some nd
  older : ∀ j q, q ≠ [] → j + 1 < n → pres (M (j + 1)) [] q → W (j + 1) q ≠ j + 1 →
    pres (M j) [] q ∧ W j q = W (j + 1) q

section
variable {H : Hasher} {G : Nodes} {st : List StaleNodeIndex} {n low : Nat}
  {M : Nat → List Entry} {W : Nat → List Nibble → Version}

theorem HistInv.init : HistInv H (fun _ => none) [] 0 0 M W :=
  ⟨by simp, by simp, by simp, by simp, by simp, by simp, by simp, by omega, by simp, by simp, by simp, by omega⟩

/-- One more committed version. -/
theorem HistInv.step (h : HistInv H G st n low M W) {m : List Entry} {ver : List Nibble → Version}
    {m' : List Entry} {ver' : List Nibble → Version} {N : AMap NodeKey Node} {S : List NodeKey}
    (hm : m = cur M n) (hver : 0 < n → ver = W (n - 1)) (hm' : NodupE m')
    (d : Delta H n (nb G) m ver m' ver' N S) :
    HistInv H (overG N G) (st ++ S.map (fun k => ⟨n, k⟩)) (n + 1) low (updN M n m')
      (updN W n ver') := by
  have hpresn : ∀ q, pres m [] q → 0 < n ∧ pres (M (n - 1)) [] q ∧ ver = W (n - 1) := by
    intro q hq
    by_cases h0 : n = 0
    · rw [hm] at hq; simp only [cur, h0, if_true] at hq; exact absurd hq not_pres_of_nil
    · rw [hm] at hq; simp only [cur, h0, if_false] at hq
      exact ⟨by omega, hq, hver (by omega)⟩
  have hwf : ∀ q, pres m [] q → ver q < n := by
    intro q hq
    obtain ⟨h1, h2, h3⟩ := hpresn q hq
    have := h.wle (n - 1) (by omega) q h2
    rw [h3]; omega
  have hold : ∀ q, pres m [] q → Old n (ver q) := fun q hq => ⟨by have := hwf q hq; omega, .inl (hwf q hq)⟩
  have hNver : ∀ k nd, N.get? k = some nd → k.version = n := fun k nd hk => (d.newKey k nd hk).1
  have hNone : ∀ k : NodeKey, k.version < n → N.get? k = none := by
    intro k hk
    cases hg : N.get? k with
    | none => rfl
    | some nd => have := hNver k nd hg; omega
  have hG : ∀ k : NodeKey, k.version < n → overG N G k = G k := by
    intro k hk; unfold overG; rw [hNone k hk]
  have hver' : ∀ q, pres m' [] q → ver' q ≤ n := by
    intro q hq
    by_cases hv : ver' q = n
    · omega
    · obtain ⟨h1, h2, -⟩ := d.old q hq hv
      have := hwf q h1
      omega
  refine ⟨?_, ?_, ?_, ?_, ?_, ?_, ?_, ?_, ?_, ?_, ?_, ?_⟩
  · have := h.lowle; omega
  · intro i hi
    by_cases hin : i = n
    · subst hin; rw [updN_self]; exact hm'
    · rw [updN_ne hin]; exact h.nodup i (by omega)
  · intro i hl hi
    by_cases hin : i = n
    · subst hin
      rw [updN_self, updN_self, ← over_nb]
      exact d.treeAt hold
    · rw [updN_ne hin, updN_ne hin]
      have ht := h.tree i hl (by omega)
      refine ⟨?_, fun q hq hp => ?_⟩
      · have := ht.root
        unfold nb at this ⊢
        rw [hG _ (by show i < n; omega)]; exact this
      · have := ht.node q hq hp
        have hw := h.wle i (by omega) q hp
        unfold nb at this ⊢
        rw [hG _ (by show W i q < n; omega)]; exact this
  · intro i hi q hq
    by_cases hin : i = n
    · subst hin
      rw [updN_self] at hq ⊢
      exact hver' q hq
    · rw [updN_ne hin] at hq ⊢
      exact h.wle i (by omega) q hq
  · intro k nd hk
    unfold overG at hk
    cases hg : N.get? k with
    | none => rw [hg] at hk; have := h.lt k nd hk; omega
    | some nd' => have := hNver k nd' hg; omega
  · intro x hx
    rcases List.mem_append.1 hx with hx | hx
    · obtain ⟨h1, h2, h3, h4⟩ := h.stale x hx
      refine ⟨by omega, h2, ?_, fun hp j hj1 hj2 => ?_⟩
      · rw [hG _ (by omega)]; exact h3
      · by_cases hjn : j = n
        · subst hjn
          rw [updN_self, updN_self]
          rintro ⟨a, b⟩
          obtain ⟨c1, c2, -⟩ := d.old _ a (by omega)
          obtain ⟨e1, e2, e3⟩ := hpresn _ c1
          refine h4 hp (j - 1) (by omega) (by omega) ⟨e2, ?_⟩
          rw [← e3, ← c2, b]
        · rw [updN_ne hjn, updN_ne hjn]
          exact h4 hp j hj1 (by omega)
    · obtain ⟨k, hk, rfl⟩ := List.mem_map.1 hx
      obtain ⟨w, q⟩ := k
      obtain ⟨h1, h2, h3⟩ := (d.stale w q).1 hk
      obtain ⟨e1, e2, e3⟩ := hpresn _ h1
      have hlt := hwf q h1
      refine ⟨by show n < n + 1; omega, by show w < n; omega, ?_, fun hp j hj1 hj2 => ?_⟩
      · rw [hG _ (by show w < n; omega)]
        by_cases hq : q = []
        · subst hq
          have hne : M (n - 1) ≠ [] := pres_root.1 e2
          have := h.rootNode e1 hne
          rw [← e3, ← h2] at this; exact this
        · have := (h.tree (n - 1) h.lowle (by omega)).node q hq e2
          rw [← e3, ← h2] at this
          unfold nb at this
          injection this with this
          exact ⟨_, this⟩
      · have : j = n := by
          have h5 : n ≤ j := hj1
          omega
        subst this
        rw [updN_self, updN_self]
        exact h3
  · rw [List.map_append, List.map_map]
    have hid : (StaleNodeIndex.nodeKey ∘ fun k => (⟨n, k⟩ : StaleNodeIndex)) = id := rfl
    rw [hid, List.map_id, List.nodup_append]
    refine ⟨h.staleNodup, d.staleNodup, ?_⟩
    rintro a ha b hb rfl
    obtain ⟨x, hx, rfl⟩ := List.mem_map.1 ha
    obtain ⟨s, w, q⟩ := x
    obtain ⟨h1, h2, h3⟩ := (d.stale w q).1 hb
    obtain ⟨e1, e2, e3⟩ := hpresn _ h1
    obtain ⟨f1, f2, f3, f4⟩ := h.stale _ hx
    dsimp only at f1 f2 f3 f4
    by_cases hq : q = []
    · subst hq
      exact h.rootStale e1 (pres_root.1 e2) s w hx (by rw [h2, e3])
    · exact f4 hq (n - 1) (by omega) (by omega) ⟨e2, by rw [← e3]; exact h2.symm⟩
  · intro s w q hq hls hsn
    rw [List.mem_append]
    by_cases hs : s = n
    · subst hs
      rw [updN_self, updN_self, updN_ne (by omega), updN_ne (by omega)]
      have hm2 : m = M (s - 1) := by rw [hm]; unfold cur; rw [if_neg (by omega)]
      have hv2 := hver (by omega)
      constructor
      · rintro (hx | hx)
        · have := (h.stale _ hx).1; dsimp only at this; omega
        · obtain ⟨k, hk, hke⟩ := List.mem_map.1 hx
          cases hke
          obtain ⟨a, b, c⟩ := (d.stale w q).1 hk
          rw [← hm2, ← hv2]
          exact ⟨a, b.symm, c⟩
      · rintro ⟨a, b, c⟩
        right
        refine List.mem_map.2 ⟨⟨w, q⟩, (d.stale w q).2 ⟨by rw [hm2]; exact a, by rw [hv2]; exact b.symm, c⟩, rfl⟩
    · rw [updN_ne hs, updN_ne hs, updN_ne (by omega), updN_ne (by omega), ← h.exact s w q hq hls (by omega)]
      constructor
      · rintro (hx | hx)
        · exact hx
        · obtain ⟨k, hk, hke⟩ := List.mem_map.1 hx
          cases hke; omega
      · exact .inl
  · intro k nd hk hp
    unfold overG at hk
    cases hg : N.get? k with
    | none =>
      rw [hg] at hk
      obtain ⟨j, j1, j2, j3, j4⟩ := h.keep k nd hk hp
      refine ⟨j, j1, by omega, ?_⟩
      rw [updN_ne (by omega), updN_ne (by omega)]
      exact ⟨j3, j4⟩
    | some nd' =>
      obtain ⟨a, b⟩ := d.newKey k nd' hg
      refine ⟨n, by have := h.lowle; omega, by omega, ?_⟩
      rw [updN_self, updN_self]
      rcases b with ⟨b1, b2, -⟩ | ⟨b1, -⟩
      · exact ⟨b1, by omega⟩
      · exact absurd b1 hp
  · intro _ hne s w hx
    simp only [Nat.add_sub_cancel, updN_self] at hne ⊢
    have hlt : w < n ∧ s ≤ n := by
      rcases List.mem_append.1 hx with hx | hx
      · have := h.stale _ hx; dsimp only at this; omega
      · obtain ⟨k, hk, hke⟩ := List.mem_map.1 hx
        cases hke
        have h1 := (d.stale w []).1 hk
        have := hwf [] h1.1
        omega
    by_cases hv : ver' [] = n
    · omega
    · have hS := (d.oldRoot hv).2.2
      rw [hS] at hx
      simp only [List.map_nil, List.append_nil] at hx
      obtain ⟨a, b, -⟩ := d.old [] (pres_root.2 hne) hv
      obtain ⟨e1, e2, e3⟩ := hpresn _ a
      have := h.rootStale e1 (pres_root.1 e2) s w hx
      rw [b, e3]; exact this
  · intro _ hne
    simp only [Nat.add_sub_cancel, updN_self] at hne ⊢
    have := d.holds hold [] (pres_root.2 hne)
    rw [over_nb] at this
    unfold nb at this
    injection this with this
    exact ⟨_, this⟩
  · intro j q hq hj hp hw
    by_cases hjn : j + 1 = n
    · subst hjn
      rw [updN_self] at hp hw
      rw [updN_self, updN_ne (by omega), updN_ne (by omega)]
      obtain ⟨a, b, -⟩ := d.old q hp hw
      obtain ⟨-, e2, e3⟩ := hpresn q a
      rw [Nat.add_sub_cancel] at e2 e3
      exact ⟨e2, by rw [b, e3]⟩
    · rw [updN_ne hjn] at hp hw
      rw [updN_ne hjn, updN_ne (by omega), updN_ne (by omega)]
      exact h.older j q hq (by omega) hp hw

theorem canonNode_setRoot {m : List Entry} {ver : List Nibble → Version} {v : Version} {q} :
    canonNode H m (setVer ver [] v) q = canonNode H m ver q := by
  apply canonNode_congr (List.Perm.refl _)
  intro _ i _
  exact setVer_ne (by simp)

/-- The next call starts from the root node at version `n - 1`. -/
theorem HistInv.resetRoot (h : HistInv H G st n low M W) (hn : 0 < n) :
    HistInv H G st n low M (updN W (n - 1) (setVer (W (n - 1)) [] (n - 1))) := by
  have hW : ∀ i q, q ≠ [] → updN W (n - 1) (setVer (W (n - 1)) [] (n - 1)) i q = W i q := by
    intro i q hq
    unfold updN; split
    · next h => rw [setVer_ne hq, h]
    · rfl
  have hcn : ∀ i q, canonNode H (M i) (updN W (n - 1) (setVer (W (n - 1)) [] (n - 1)) i) q =
      canonNode H (M i) (W i) q := by
    intro i q
    unfold updN; split
    · next h => rw [canonNode_setRoot, h]
    · rfl
  refine ⟨h.lowle, h.nodup, ?_, ?_, h.lt, ?_, h.staleNodup, ?_, ?_, ?_, ?_, ?_⟩
  · intro i h1 h2
    have ht := h.tree i h1 h2
    refine ⟨by rw [hcn]; exact ht.root, fun q hq hp => ?_⟩
    rw [hcn, hW _ _ hq]; exact ht.node q hq hp
  · intro i hi q hq
    by_cases hq0 : q = []
    · subst hq0
      unfold updN; split
      · rw [setVer_self]; omega
      · exact h.wle i hi _ hq
    · rw [hW _ _ hq0]; exact h.wle i hi _ hq
  · intro x hx
    obtain ⟨h1, h2, h3, h4⟩ := h.stale x hx
    refine ⟨h1, h2, h3, fun hp j a b => ?_⟩
    rw [hW _ _ hp]; exact h4 hp j a b
  · intro s w q hq a b
    rw [hW _ _ hq, hW _ _ hq]; exact h.exact s w q hq a b
  · intro k nd hk hp
    obtain ⟨j, j1, j2, j3, j4⟩ := h.keep k nd hk hp
    exact ⟨j, j1, j2, j3, by rw [hW _ _ hp]; exact j4⟩
  · intro _ _ s w hx
    rw [updN_self, setVer_self]
    have := h.stale _ hx; dsimp only at this; omega
  · intro _ _
    rw [updN_self, setVer_self]
    have := (h.tree (n - 1) h.lowle (by omega)).root
    unfold nb at this
    injection this with this
    exact ⟨_, this⟩
  · intro j q hq hj hp hw
    rw [hW _ _ hq] at hw
    rw [hW _ _ hq, hW _ _ hq]
    exact h.older j q hq hj hp hw

/-- Pruning up to `r`. -/
theorem HistInv.purge (h : HistInv H G st n low M W) (r : Nat) {G' : Nodes}
    {st' : List StaleNodeIndex} (hst : ∀ x, x ∈ st' ↔ x ∈ st ∧ ¬ x.staleSince ≤ r)
    (hsub : st'.Sublist st)
    (hG : ∀ k, G' k = if ∃ x ∈ st, x.staleSince ≤ r ∧ x.nodeKey = k then none else G k) :
    HistInv H G' st' n (max low (min r (n - 1))) M W := by
  have hsome : ∀ k nd, G' k = some nd → G k = some nd ∧ ¬ ∃ x ∈ st, x.staleSince ≤ r ∧ x.nodeKey = k := by
    intro k nd hk
    rw [hG] at hk
    split at hk
    · cases hk
    · next hne => exact ⟨hk, hne⟩
  have hkeepG : ∀ k, (¬ ∃ x ∈ st, x.staleSince ≤ r ∧ x.nodeKey = k) → G' k = G k := by
    intro k hk; rw [hG, if_neg hk]
  have hcase : ∀ x : StaleNodeIndex, x ∈ st → x.staleSince ≤ r → x.staleSince ≤ max low (min r (n - 1)) := by
    intro x hx hr
    have := (h.stale x hx).1; omega
  refine ⟨?_, h.nodup, ?_, h.wle, ?_, ?_, ?_, ?_, ?_, ?_, ?_, h.older⟩
  · have := h.lowle; omega
  · intro i h1 h2
    have ht := h.tree i (by omega) h2
    refine ⟨?_, fun q hq hp => ?_⟩
    · have := ht.root
      unfold nb at this ⊢
      rw [hkeepG]; · exact this
      rintro ⟨x, hx, hr, hk⟩
      have a := hcase x hx hr
      have b := (h.stale x hx).2.1
      rw [hk] at b
      dsimp only at b
      omega
    · have := ht.node q hq hp
      unfold nb at this ⊢
      rw [hkeepG]; · exact this
      rintro ⟨x, hx, hr, hk⟩
      have a := hcase x hx hr
      have b := (h.stale x hx).2.2.2
      rw [hk] at b
      exact b hq i (by omega) h2 ⟨hp, rfl⟩
  · intro k nd hk; exact h.lt k nd (hsome k nd hk).1
  · intro x hx
    obtain ⟨hx1, hx2⟩ := (hst x).1 hx
    obtain ⟨h1, h2, h3, h4⟩ := h.stale x hx1
    refine ⟨h1, h2, ?_, h4⟩
    rw [hkeepG]; · exact h3
    rintro ⟨y, hy, hr, hk⟩
    have : x = y := nodup_map_inj h.staleNodup hx1 hy hk.symm
    subst this
    exact hx2 hr
  · exact h.staleNodup.sublist (hsub.map _)
  · intro s w q hq a b
    rw [hst, ← h.exact s w q hq (by omega) b]
    constructor
    · exact fun h => h.1
    · intro hx; exact ⟨hx, by show ¬ s ≤ r; omega⟩
  · intro k nd hk hp
    obtain ⟨h1, h2⟩ := hsome k nd hk
    obtain ⟨j, j1, j2, j3, j4⟩ := h.keep k nd h1 hp
    -- live at `j`; if `j` is below the new bound it stays live up to it
    have key : ∀ t, j + t < n → j + t ≤ max low (min r (n - 1)) →
        pres (M (j + t)) [] k.path ∧ W (j + t) k.path = k.version := by
      intro t
      induction t with
      | zero => intro _ _; exact ⟨j3, j4⟩
      | succ t ih =>
        intro a b
        obtain ⟨c1, c2⟩ := ih (by omega) (by omega)
        apply Classical.byContradiction
        intro hc
        have hx : (⟨j + (t + 1), ⟨k.version, k.path⟩⟩ : StaleNodeIndex) ∈ st := by
          rw [h.exact _ _ _ hp (by omega) a]
          exact ⟨c1, c2, hc⟩
        exact h2 ⟨_, hx, by show j + (t + 1) ≤ r; omega, rfl⟩
    by_cases hj : max low (min r (n - 1)) ≤ j
    · exact ⟨j, hj, j2, j3, j4⟩
    · obtain ⟨c1, c2⟩ := key (max low (min r (n - 1)) - j) (by omega) (by omega)
      have e : j + (max low (min r (n - 1)) - j) = max low (min r (n - 1)) := by omega
      rw [e] at c1 c2
      exact ⟨_, Nat.le_refl _, by omega, c1, c2⟩
  · intro hn hne s w hx
    exact h.rootStale hn hne s w ((hst _).1 hx).1
  · intro hn hne
    rw [hkeepG]; · exact h.rootNode hn hne
    rintro ⟨x, hx, hr, hk⟩
    obtain ⟨s, k⟩ := x
    subst hk
    exact h.rootStale hn hne s _ hx rfl

end
end Jmt

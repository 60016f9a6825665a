import Verif.Spec.Node
import Verif.Props.Stale
/-!
# Properties C37, C40: internal-node hashing; the value history of the in-memory store
-/
namespace Jmt

/-- The 16 slots of an internal node as the specification sees them. -/
def InternalNode.specSlots (n : InternalNode) : List Spec.Slot :=
  (List.finRange 16).map (fun i => (n.children.slots i).map (fun c => (c.hash, c.isLeaf)))

theorem filterMap_congr' {α β : Type} {f g : α → Option β} {l : List α} (h : ∀ a ∈ l, f a = g a) :
    l.filterMap f = l.filterMap g := by
  induction l with
  | nil => rfl
  | cons a l ih =>
    rw [List.filterMap_cons, List.filterMap_cons, h a (by simp), ih (fun b hb => h b (by simp [hb]))]

theorem slice_eq : ∀ s w : Fin 17, (List.finRange 16).filter (fun i => decide (s.val ≤ i.val) && decide (i.val < s.val + w.val)) =
    ((List.finRange 16).drop s.val).take w.val := by decide +kernel

theorem kids_slots (n : InternalNode) {s w : Nat} (hs : s ≤ 16) (hw : w ≤ 16) :
    ((n.specSlots.drop s).take w).filterMap id = (kids n.children s w).map (fun e => (e.2.hash, e.2.isLeaf)) := by
  have := slice_eq ⟨s, by omega⟩ ⟨w, by omega⟩
  simp only at this
  unfold InternalNode.specSlots kids Children.iter
  rw [← List.map_drop, ← List.map_take, ← this, List.filterMap_map, List.filter_filterMap, List.map_filterMap,
    List.filterMap_filter]
  apply filterMap_congr'
  intro i _
  cases hi : n.children.slots i with
  | none => simp [hi]
  | some c =>
    simp only [Option.map_some, Function.comp, hi, id_eq]
    split <;> simp_all [Option.filter, Option.guard]

theorem ruleHash_slots (H : Hasher) (n : InternalNode) : ∀ {h s : Nat}, h ≤ 4 → s + 2 ^ h ≤ 16 →
    ruleHash H n.children h s = Spec.slotTree H h ((n.specSlots.drop s).take (2 ^ h)) := by
  intro h
  induction h with
  | zero =>
    intro s _ hs
    unfold ruleHash Spec.slotTree
    rw [kids_slots n (by omega) (by omega)]
    simp only [Nat.pow_zero]
    cases kids n.children s 1 <;> rfl
  | succ h ih =>
    intro s hh hs
    have hpos := Nat.two_pow_pos h
    have h2 : 2 ^ (h + 1) = 2 ^ h + 2 ^ h := by rw [Nat.pow_succ]; omega
    have h3 : (2 : Nat) ^ (h + 1) ≤ 16 := by omega
    unfold ruleHash Spec.slotTree
    rw [kids_slots n (by omega) h3]
    have e1 : ((n.specSlots.drop s).take (2 ^ (h + 1))).take (2 ^ h) = (n.specSlots.drop s).take (2 ^ h) := by
      rw [List.take_take]; congr 1; omega
    have e2 : ((n.specSlots.drop s).take (2 ^ (h + 1))).drop (2 ^ h) = (n.specSlots.drop (s + 2 ^ h)).take (2 ^ h) := by
      rw [List.drop_take, List.drop_drop]; congr 1; omega
    rw [ih (by omega) (by omega), ih (by omega) (by omega), e1, e2]
    match kids n.children s (2 ^ (h + 1)) with
    | [] => rfl
    | [e] =>
      obtain ⟨i, c⟩ := e
      cases hl : c.isLeaf <;> simp [hl]
    | e :: e' :: t => simp

/-- C37: the hash of an internal node never fails and is the four-level binary tree over its slots. -/
theorem C37_internal_hash (H : Hasher) (n : InternalNode) : n.hash H = .ok (Spec.slotTree H 4 n.specSlots) := by
  rw [internal_hash_eq, ruleHash_slots H n (by omega) (by omega)]
  rw [List.drop_zero, List.take_of_length_le (by simp [InternalNode.specSlots])]

/-- Two leaves in slots 1 and 15, an internal child in slot 2. -/
example (H : Hasher) (a b c : Digest) : ∃ n : InternalNode,
    n.hash H = .ok (H.internalHash (H.internalHash (H.internalHash
      a (H.internalHash b placeholder)) placeholder) c) := by
  refine ⟨⟨⟨fun i => if i = 1 then some ⟨a, 0, .leaf⟩ else if i = 2 then some ⟨b, 0, .internal 2⟩
    else if i = 15 then some ⟨c, 0, .leaf⟩ else none, 3⟩, 4⟩, ?_⟩
  rw [C37_internal_hash]
  rfl

/-! ### C40 -/

/-- One call of `put_value`: version, key, value. -/
abbrev Put := (Version × KeyHash) × Option Value

/-- Calls of `put_value` in order on a fresh store. -/
def runPuts (puts : List Put) : Except Err Store := do
  let vals ← Store.insertValues puts []
  .ok { Store.new false with values := vals }

theorem insertValues_snoc (puts : List Put) (p : Put) : ∀ vh,
    Store.insertValues (puts ++ [p]) vh = (Store.insertValues puts vh >>= fun vh => Store.putValue vh p.1.1 p.1.2 p.2) := by
  obtain ⟨⟨v, k⟩, x⟩ := p
  induction puts with
  | nil =>
    intro vh
    simp only [List.nil_append, Store.insertValues, ok_bind]
    cases Store.putValue vh v k x <;> rfl
  | cons q puts ih =>
    intro vh
    obtain ⟨⟨v', k'⟩, x'⟩ := q
    simp only [List.cons_append, Store.insertValues]
    cases hq : Store.putValue vh v' k' x' with
    | error e => rfl
    | ok vh' => simp only [ok_bind, ih]

/-- What the store holds after accepted calls. -/
theorem puts_inv (puts : List Put) : ∀ vh, Store.insertValues puts [] = .ok vh →
    (∀ k max, (match vh.get? k with
        | some hist => hist.reverse.find? (fun e => decide (e.1 ≤ max))
        | none => none) =
      ((puts.filter (fun p => decide (p.1.2 = k))).map (fun p => (p.1.1, p.2))).reverse.find? (fun e => decide (e.1 ≤ max))) ∧
    (∀ k, (match vh.get? k with | some hist => hist.getLast?.map Prod.fst | none => none) =
      ((puts.filter (fun p => decide (p.1.2 = k))).map (fun p => p.1.1)).getLast?) ∧
    (∀ k, ((puts.filter (fun p => decide (p.1.2 = k))).map (fun p => p.1.1)).Pairwise (· ≤ ·)) := by
  induction puts using list_snoc_ind with
  | h0 => intro vh h; cases h; simp
  | h1 puts p ih =>
    intro vh h
    rw [insertValues_snoc] at h
    cases hv : Store.insertValues puts [] with
    | error e => rw [hv] at h; cases h
    | ok vh0 =>
      rw [hv, ok_bind] at h
      obtain ⟨i1, i2, i3⟩ := ih vh0 hv
      obtain ⟨⟨v, k0⟩, x⟩ := p
      simp only at h
      -- the entry for `k0`
      have key : ∃ hist', vh = vh0.insert k0 hist' ∧ hist'.getLast? = some (v, x) ∧
          (∀ max, hist'.reverse.find? (fun e => decide (e.1 ≤ max)) =
            if v ≤ max then some (v, x) else (match vh0.get? k0 with
              | some hist => hist.reverse.find? (fun e => decide (e.1 ≤ max))
              | none => none)) ∧
          (∀ w, (match vh0.get? k0 with | some hist => hist.getLast?.map Prod.fst | none => none) = some w → w ≤ v) := by
        unfold Store.putValue at h
        cases hg : vh0.get? k0 with
        | none =>
          rw [hg] at h
          cases h
          refine ⟨_, rfl, rfl, fun max => ?_, fun w hw => by cases hw⟩
          by_cases hm : v ≤ max <;> simp [hm]
        | some hist =>
          rw [hg] at h
          simp only at h
          cases hl : hist.getLast? with
          | none =>
            rw [hl] at h
            cases h
            have : hist = [] := List.getLast?_eq_none_iff.1 hl
            subst this
            refine ⟨_, rfl, rfl, fun max => ?_, fun w hw => by simp at hw⟩
            by_cases hm : v ≤ max <;> simp [hm]
          | some last =>
            obtain ⟨lv, lx⟩ := last
            rw [hl] at h
            simp only at h
            obtain ⟨ys, rfl⟩ := List.getLast?_eq_some_iff.1 hl
            by_cases h1 : v < lv
            · rw [if_pos h1] at h; cases h
            · rw [if_neg h1] at h
              by_cases h2 : v = lv
              · rw [if_pos h2] at h
                cases h
                subst h2
                refine ⟨_, rfl, by simp, fun max => ?_, fun w hw => by simp at hw; omega⟩
                simp only [List.dropLast_concat, List.reverse_append]
                by_cases hm : v ≤ max <;> simp [hm]
              · rw [if_neg h2] at h
                cases h
                refine ⟨_, rfl, by simp, fun max => ?_, fun w hw => by simp at hw; omega⟩
                rw [List.reverse_append]
                by_cases hm : v ≤ max <;> simp [hm]
      obtain ⟨hist', rfl, k1, k2, k3⟩ := key
      refine ⟨fun k max => ?_, fun k => ?_, fun k => ?_⟩
      · rw [AMap.get?_insert, List.filter_append, List.map_append, List.reverse_append]
        by_cases hk : k0 = k
        · subst hk
          rw [if_pos rfl]
          simp only
          rw [k2, i1]
          by_cases hm : v ≤ max <;> simp [hm]
        · rw [if_neg hk, i1]
          rw [List.filter_cons_of_neg (by simpa using hk)]; simp
      · rw [AMap.get?_insert, List.filter_append, List.map_append]
        by_cases hk : k0 = k
        · subst hk
          rw [if_pos rfl]
          simp [k1]
        · rw [if_neg hk, i2]
          rw [List.filter_cons_of_neg (by simpa using hk)]; simp
      · rw [List.filter_append, List.map_append]
        by_cases hk : k0 = k
        · subst hk
          rw [List.pairwise_append]
          refine ⟨i3 _, by simp, fun a ha b hb => ?_⟩
          simp at hb
          subst hb
          cases hlast : ((puts.filter (fun p => decide (p.1.2 = k0))).map (fun p => p.1.1)).getLast? with
          | none => rw [List.getLast?_eq_none_iff] at hlast; rw [hlast] at ha; cases ha
          | some w =>
            have hw := k3 w (by rw [i2, hlast])
            obtain ⟨ys, hys⟩ := List.getLast?_eq_some_iff.1 hlast
            have hp := i3 k0
            rw [hys] at ha hp
            rw [List.pairwise_append] at hp
            rcases List.mem_append.1 ha with ha | ha
            · have := hp.2.2 a ha w (by simp); omega
            · simp at ha; omega
        · rw [List.filter_cons_of_neg (by simpa using hk)]; simpa using i3 k

theorem getValueOption_puts {puts : List Put} {s : Store} (h : runPuts puts = .ok s) (max : Version) (k : KeyHash) :
    s.getValueOption max k =
      match ((puts.filter (fun p => decide (p.1.2 = k))).map (fun p => (p.1.1, p.2))).reverse.find? (fun e => decide (e.1 ≤ max)) with
      | some e => e.2
      | none => none := by
  unfold runPuts at h
  cases hv : Store.insertValues puts [] with
  | error e => rw [hv] at h; cases h
  | ok vh =>
    rw [hv] at h
    cases h
    rw [← (puts_inv puts vh hv).1 k max]
    unfold Store.getValueOption
    dsimp only
    cases vh.get? k <;> rfl

/-- C40: `get_value_option(max, k)` returns the value put last among the puts to `k` with the greatest version `≤ max`;
without such a put it returns `None`. -/
theorem C40_newest_value {puts : List Put} {s : Store} (h : runPuts puts = .ok s) (max : Version) (k : KeyHash) :
    (∀ before after v x, puts = before ++ ((v, k), x) :: after → v ≤ max →
      (∀ p ∈ before ++ after, p.1.2 = k → p.1.1 ≤ max → p.1.1 ≤ v) →
      (∀ p ∈ after, p.1.2 = k → p.1.1 ≠ v) → s.getValueOption max k = x) ∧
    ((∀ p ∈ puts, p.1.2 = k → max < p.1.1) → s.getValueOption max k = none) := by
  have hs : ∃ vh, Store.insertValues puts [] = .ok vh := by
    unfold runPuts at h
    cases hv : Store.insertValues puts [] with
    | error e => rw [hv] at h; cases h
    | ok vh => exact ⟨vh, rfl⟩
  obtain ⟨vh, hvh⟩ := hs
  obtain ⟨-, -, hord⟩ := puts_inv puts vh hvh
  rw [getValueOption_puts h]
  constructor
  · intro before after v x he hv hmax hafter
    subst he
    rw [List.filter_append, List.filter_cons, if_pos (by simp), List.map_append, List.map_cons, List.reverse_append,
      List.reverse_cons, List.append_assoc, List.find?_append]
    have hnone : ((after.filter (fun p => decide (p.1.2 = k))).map (fun p => (p.1.1, p.2))).reverse.find?
        (fun e => decide (e.1 ≤ max)) = none := by
      rw [List.find?_eq_none]
      intro e hemem
      rw [List.mem_reverse, List.mem_map] at hemem
      obtain ⟨p, hp, rfl⟩ := hemem
      rw [List.mem_filter] at hp
      simp only [decide_eq_true_eq]
      intro hle
      have h1 := hmax p (List.mem_append_right _ hp.1) (by simpa using hp.2) hle
      have h2 := hafter p hp.1 (by simpa using hp.2)
      have h3 := hord k
      rw [List.filter_append, List.filter_cons, if_pos (by simp), List.map_append, List.map_cons, List.pairwise_append] at h3
      have h4 := (List.pairwise_cons.1 h3.2.1).1 p.1.1 (List.mem_map.2 ⟨p, List.mem_filter.2 hp, rfl⟩)
      dsimp only at h4
      omega
    rw [hnone]
    simp [hv]
  · intro hno
    have hnone : ((puts.filter (fun p => decide (p.1.2 = k))).map (fun p => (p.1.1, p.2))).reverse.find?
        (fun e => decide (e.1 ≤ max)) = none := by
      rw [List.find?_eq_none]
      intro e hemem
      rw [List.mem_reverse, List.mem_map] at hemem
      obtain ⟨p, hp, rfl⟩ := hemem
      rw [List.mem_filter] at hp
      have := hno p hp.1 (by simpa using hp.2)
      simp only [decide_eq_true_eq]; omega
    rw [hnone]

/-- C40: a put is rejected exactly when a later version of the same key has been put already. -/
theorem C40_put_accepted_iff {puts : List Put} {s : Store} (h : runPuts puts = .ok s) (v : Version) (k : KeyHash)
    (x : Option Value) :
    (∃ s', runPuts (puts ++ [((v, k), x)]) = .ok s') ↔ ∀ p ∈ puts, p.1.2 = k → p.1.1 ≤ v := by
  unfold runPuts at h ⊢
  rw [insertValues_snoc]
  cases hv : Store.insertValues puts [] with
  | error e => rw [hv] at h; cases h
  | ok vh =>
    obtain ⟨-, hlast, hord⟩ := puts_inv puts vh hv
    rw [ok_bind]
    have hl := hlast k
    have ho := hord k
    have hall : (∀ p ∈ puts, p.1.2 = k → p.1.1 ≤ v) ↔
        ∀ w, ((puts.filter (fun p => decide (p.1.2 = k))).map (fun p => p.1.1)).getLast? = some w → w ≤ v := by
      constructor
      · intro ha w hw
        have hw := List.mem_of_getLast? hw
        obtain ⟨p, hp, rfl⟩ := List.mem_map.1 hw
        rw [List.mem_filter] at hp
        exact ha p hp.1 (by simpa using hp.2)
      · intro ha p hp hk
        have hmem : p.1.1 ∈ (puts.filter (fun p => decide (p.1.2 = k))).map (fun p => p.1.1) :=
          List.mem_map.2 ⟨p, List.mem_filter.2 ⟨hp, by simpa using hk⟩, rfl⟩
        cases hg : ((puts.filter (fun p => decide (p.1.2 = k))).map (fun p => p.1.1)).getLast? with
        | none => rw [List.getLast?_eq_none_iff] at hg; rw [hg] at hmem; cases hmem
        | some w =>
          have hw := ha w hg
          obtain ⟨ys, hys⟩ := List.getLast?_eq_some_iff.1 hg
          rw [hys] at hmem ho
          rw [List.pairwise_append] at ho
          rcases List.mem_append.1 hmem with hm | hm
          · have := ho.2.2 _ hm w (by simp); omega
          · simp at hm; omega
    rw [hall, ← hl]
    unfold Store.putValue
    dsimp only
    cases hg : vh.get? k with
    | none => simp [ok_bind]
    | some hist =>
      simp only
      cases hl2 : hist.getLast? with
      | none => simp [ok_bind]
      | some last =>
        obtain ⟨lv, lx⟩ := last
        simp only [Option.map_some, Option.some.injEq, forall_eq']
        by_cases h1 : v < lv
        · simp only [if_pos h1]
          constructor
          · rintro ⟨s', hs'⟩; cases hs'
          · intro; omega
        · simp only [if_neg h1]
          constructor
          · intro; omega
          · intro _
            split <;> exact ⟨_, rfl⟩

example : ∃ s, runPuts [((1, Sample.key 1), some [1]), ((3, Sample.key 1), some [2]), ((3, Sample.key 1), none)] = .ok s ∧
    s.getValueOption 2 (Sample.key 1) = some [1] ∧ s.getValueOption 5 (Sample.key 1) = none :=
  ⟨_, rfl, by decide +kernel, by decide +kernel⟩

end Jmt

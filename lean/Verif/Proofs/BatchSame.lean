import Verif.Proofs.Stats
import Verif.Spec.Batch
/-!
# The two APIs build the same versions

The nodes rewritten by a set without deletions are determined by the old tree and the written keys, so any two runs over
the same sets freeze the same nodes and stale keys.
-/
namespace Jmt
open Spec (Entry)

section
variable {H : Hasher}

/-- Two version assignments that agree on the nodes of the tree of `m`. -/
def VerEq (m : List Entry) (ver ver' : List Nibble → Version) : Prop := ∀ q, pres m [] q → ver q = ver' q

theorem Fresh.unique {V : Nat} {m m' : List Entry} {ver ver0 ver' ver0' : List Nibble → Version} {ks : List KeyHash}
    {ins eff : Prop} {ren : List Nibble → Prop} (h : Fresh V m ver m' ver' ks ins eff ren)
    (h0 : Fresh V m ver0 m' ver0' ks ins eff ren) (hi : ins)
    (hin : ∀ k ∈ ks, ∃ e ∈ m', e.1 = k) (hv : VerEq m ver ver0) : VerEq m' ver' ver0' := by
  intro q hq
  by_cases hk : ∃ k ∈ ks, q <+: k.nibbles
  · obtain ⟨k, hk, hqk⟩ := hk
    rcases h.new q hq with h1 | ⟨-, -, h1⟩
    · rcases h0.new q hq with h2 | ⟨-, -, h2⟩
      · rw [h1, h2]
      · exact absurd hqk (h2 k hk (hin k hk))
    · exact absurd hqk (h1 k hk (hin k hk))
  · have hk' : ∀ k ∈ ks, ¬ q <+: k.nibbles := fun k h1 h2 => hk ⟨k, h1, h2⟩
    by_cases hp : pres m [] q
    · rw [h.keep hi q hp hq hk', h0.keep hi q hp hq hk', hv q hp]
    · rcases h.new q hq with h1 | ⟨-, h1, -⟩
      · rcases h0.new q hq with h2 | ⟨-, h2, -⟩
        · rw [h1, h2]
        · exact absurd h2 hp
      · exact absurd h1 hp

theorem VerEq.canonNode {m : List Entry} {ver ver' : List Nibble → Version} (h : VerEq m ver ver') (q : List Nibble) :
    canonNode H m ver q = canonNode H m ver' q := by
  refine canonNode_congr (List.Perm.refl _) (fun h2 i hi => h _ ?_)
  rw [pres_nil_iff]
  exact ⟨hi, .inr (by simpa using h2)⟩

theorem AMap.perm_of_get? {α β : Type} [DecidableEq α] {N N' : AMap α β} (h : N.NodupKeys) (h' : N'.NodupKeys)
    (he : ∀ k, N.get? k = N'.get? k) : N.Perm N' := by
  have nd : ∀ {l : AMap α β}, (l.map Prod.fst).Nodup → l.Nodup := by
    intro l hl
    induction l with
    | nil => simp
    | cons a l ih =>
      simp only [List.map_cons, List.nodup_cons] at hl ⊢
      exact ⟨fun hm => hl.1 (List.mem_map.2 ⟨a, hm, rfl⟩), ih hl.2⟩
  rw [List.perm_ext_iff_of_nodup (nd h) (nd h')]
  rintro ⟨k, v⟩
  rw [AMap.mem_iff_get? h, AMap.mem_iff_get? h', he]

/-- Two ways of building the next version. -/
theorem Delta.unique {V : Nat} {B B0 m m' ver ver0 ver' ver0' N N0 S S0}
    (h : Delta H V B m ver m' ver' N S) (h0 : Delta H V B0 m ver0 m' ver0' N0 S0) (hv : VerEq m ver ver0)
    (hv' : VerEq m' ver' ver0') : (∀ k, N.get? k = N0.get? k) ∧ S.Perm S0 := by
  have half : ∀ {B B0 ver ver0 ver' ver0' N N0 S S0}, Delta H V B m ver m' ver' N S →
      Delta H V B0 m ver0 m' ver0' N0 S0 → VerEq m' ver' ver0' → ∀ k n, N.get? k = some n → N0.get? k = some n := by
    intro B B0 ver ver0 ver' ver0' N N0 S S0 h h0 hv' k n hk
    obtain ⟨w, q⟩ := k
    obtain ⟨h1, h2 | h2⟩ := h.newKey _ _ hk
    · obtain ⟨h3, h4, h5⟩ := h2
      simp only at h1 h3 h4 h5
      rw [h1, h5, hv'.canonNode]
      exact h0.newNode q h3 (by rw [← hv' q h3, h4])
    · obtain ⟨h3, h4⟩ := h2
      simp only at h1 h3
      subst h3
      rw [h1, h4, hv'.canonNode]
      exact h0.rootNode
  have hv'' : VerEq m' ver0' ver' := fun q hq => (hv' q hq).symm
  constructor
  · intro k
    cases h1 : N.get? k with
    | some n => exact (half h h0 hv' k n h1).symm
    | none =>
      cases h2 : N0.get? k with
      | none => rfl
      | some n => have := half h0 h hv'' k n h2; rw [h1] at this; cases this
  · rw [List.perm_ext_iff_of_nodup h.staleNodup h0.staleNodup]
    rintro ⟨w, q⟩
    rw [h.stale, h0.stale]
    constructor
    · rintro ⟨a, b, c⟩
      refine ⟨a, by rw [← hv q a]; exact b, fun ⟨d, e⟩ => c ⟨d, by rw [hv' q d]; exact e⟩⟩
    · rintro ⟨a, b, c⟩
      refine ⟨a, by rw [hv q a]; exact b, fun ⟨d, e⟩ => c ⟨d, by rw [← hv' q d]; exact e⟩⟩

theorem mem_updAll_key {m : List Entry} {ws : ValueSet} (hi : ∀ w ∈ ws, w.2 ≠ none) :
    ∀ k ∈ ws.map Prod.fst, ∃ e ∈ updAll H m ws, e.1 = k := by
  intro k hk
  obtain ⟨x, hx⟩ := Option.isSome_iff_exists.1 (lastWrite_isSome.2 hk)
  have : x ≠ none := by
    clear hk
    induction ws with
    | nil => simp [lastWrite] at hx
    | cons w ws ih =>
      rw [lastWrite_cons] at hx
      cases hl : lastWrite ws k with
      | some y => rw [hl] at hx; simp at hx; exact ih (fun w hw => hi w (by simp [hw])) (by rw [hl, hx])
      | none =>
        rw [hl] at hx
        by_cases hk : w.1 = k
        · simp [hk] at hx; rw [← hx]; exact hi w (by simp)
        · simp [hk] at hx
  cases x with
  | none => exact absurd rfl this
  | some v => exact ⟨(k, H.hash v), mem_updAll.2 (.inl ⟨v, hx, rfl⟩), rfl⟩

/-- Two runs over the same sets without deletions. -/
theorem Run.unique {infos infos0 : List StepInfo} : ∀ {V : Nat} {B m ver ver0}, Run H V B m ver infos →
    Run H V B m ver0 infos0 → infos.map StepInfo.ws = infos0.map StepInfo.ws →
    (∀ i ∈ infos, ∀ w ∈ i.ws, w.2 ≠ none) → VerEq m ver ver0 →
    (∀ G, foldG G infos = foldG G infos0) ∧ (stAll V infos).Perm (stAll V infos0) ∧
      statAll H B infos = statAll H B infos0 := by
  induction infos generalizing infos0 with
  | nil =>
    intro V B m ver ver0 _ _ hws _ _
    cases infos0 with
    | nil => exact ⟨fun _ => rfl, .refl _, rfl⟩
    | cons => cases hws
  | cons i rest ih =>
    intro V B m ver ver0 h h0 hws hi hv
    cases infos0 with
    | nil => cases hws
    | cons j rest0 =>
      simp only [List.map_cons, List.cons.injEq] at hws
      obtain ⟨hw, hws⟩ := hws
      cases h with
      | cons d hr hf hvo =>
        cases h0 with
        | cons d0 hr0 hf0 hvo0 =>
          rw [← hw] at d0 hr0 hf0
          have hins := hi i (by simp)
          have hv' := hf.unique hf0 hins (mem_updAll_key hins) hv
          obtain ⟨hN, hS⟩ := d.unique d0 hv hv'
          have hov : over j.N B = over i.N B := by
            funext k; unfold over; rw [hN k]
          rw [hov] at hr0
          obtain ⟨a1, a2, a3⟩ := ih hr hr0 hws (fun i' h' => hi i' (by simp [h'])) hv'
          refine ⟨fun G => ?_, ?_, ?_⟩
          · show foldG (overG i.N G) rest = foldG (overG j.N G) rest0
            rw [a1]
            congr 1
            funext k; unfold overG; rw [hN k]
          · exact (hS.map _).append a2
          · show _ :: _ = _ :: _
            rw [hov, a3, hS.length_eq, hS.countP_eq, (AMap.perm_of_get? d.nodup d0.nodup hN).length_eq,
              (AMap.perm_of_get? d.nodup d0.nodup hN).countP_eq]

end

section
variable {H : Hasher} {s : Store} {hist : List ValueSet} {low : Nat}

/-- Both APIs on a well-formed store. -/
theorem SysInv.batch_same (h : SysInv H s hist low) (sets : List (List (KeyHash × Value))) (nodeHashes)
    (hn : ∀ s ∈ sets, s ≠ [])
    (hc : CachesFor H (entriesAfter H hist hist.length) sets (cachesOf sets nodeHashes))
    (hle : hist.length + sets.length ≤ preGenesisVersion) :
    ∃ hs b b', batchPutValueSets H s.reader sets nodeHashes hist.length = .ok (hs, b) ∧
      putValueSets H s.reader (sets.map someSet) hist.length = .ok (hs, b') ∧ b.Same b' := by
  obtain ⟨ver, hready, hrun⟩ := h.commitRun (H := H) (sets.map someSet)
  obtain ⟨tc, tc', infos, b0, b1, b2, b3, b4⟩ := batchSets_ready (R := s.reader) hready sets nodeHashes hn hc hle
  obtain ⟨tc0, pss, tc0', infos0, e0, e1, e2, e3, e4, e5, e6⟩ :=
    putSets_ready (R := s.reader) hready false (sets.map someSet) (by simpa using hle)
  obtain ⟨sb, -, c2, -, -, -, c5, c6, c7⟩ := hrun tc' infos b2 b3 b4
  obtain ⟨sp, -, d2, -, -, -, d5, d6, d7⟩ := hrun tc0' infos0 e2 e3 e4
  have hins : ∀ i ∈ infos, ∀ w ∈ i.ws, w.2 ≠ none := by
    intro i hi
    have : i.ws ∈ sets.map someSet := by rw [← b2]; exact List.mem_map.2 ⟨i, hi, rfl⟩
    obtain ⟨set, -, hset⟩ := List.mem_map.1 this
    rw [← hset]
    intro w hw
    obtain ⟨kv, -, rfl⟩ := List.mem_map.1 hw
    simp
  obtain ⟨u1, u2, u3⟩ := Run.unique b3 e3 (b2.trans e2.symm) hins (fun _ _ => rfl)
  have hh : tc'.finish.1 = tc0'.finish.1 := by rw [c2.hashes, d2.hashes]
  refine ⟨tc'.finish.1, tc'.finish.2, tc0'.finish.2, ?_, ?_, fun k => ?_, fun v k => ?_, fun x => ?_, ?_⟩
  · unfold batchPutValueSets
    rw [b0, ok_bind]
    show (batchSets H hist.length sets (cachesOf sets nodeHashes) tc >>= _) = _
    rw [b1]; rfl
  · rw [hh]
    unfold putValueSets
    rw [e0, ok_bind, e1]; rfl
  · rw [c5, d5, u1]
  · show tc'.frozen.nodeBatch.values.get? (v, k) = tc0'.frozen.nodeBatch.values.get? (v, k)
    rw [b4, e4, (pushAll_values b3).1, (pushAll_values e3).1]
    have : ∀ (l : List StepInfo) (n : Nat), l[n]?.bind (fun i : StepInfo => lastWrite i.ws k) =
        (l.map StepInfo.ws)[n]?.bind (fun ws => lastWrite ws k) := by
      intro l n
      rw [List.getElem?_map]
      cases l[n]? <;> rfl
    rw [this, this, b2, e2]
  · rw [c6, d6, u2.mem_iff]
  · rw [c7, d7]; exact u3

theorem entriesUnder_eq (es : List Entry) (q : List Nibble) : Spec.entriesUnder es q = under q es := by
  unfold Spec.entriesUnder under ub
  apply List.filter_congr
  intro e _
  rw [Bool.eq_iff_iff]
  simp [List.isPrefixOf_iff_prefix, keyBits, pathBits_prefix]

theorem hashUnder_eq (es : List Entry) (q : List Nibble) : Spec.hashUnder H es q = sh H es (pathBits q) := by
  unfold Spec.hashUnder sh
  rw [entriesUnder_eq, pathBits_length]; rfl

/-- Correct caches of the specification are correct caches of the proof. -/
theorem cachesFor_of : ∀ (sets : List (List (KeyHash × Value))) (cs : List (List Nibble → Option Digest))
    (hist : List ValueSet), cs.length = sets.length →
    (∀ j set c, sets[j]? = some set → cs[j]? = some c → HashesFor H
      (Spec.stateAfter Spec.Map.empty (hist ++ sets.map someSet) (hist.length + j + 1)) set c) →
    CachesFor H (entriesAfter H hist hist.length) sets (cs.map some) := by
  intro sets
  induction sets with
  | nil => intro cs hist hl _; cases cs with
    | nil => trivial
    | cons => simp at hl
  | cons set sets ih =>
    intro cs hist hl h
    cases cs with
    | nil => simp at hl
    | cons c cs =>
      have he : entriesAfter H (hist ++ [someSet set]) (hist ++ [someSet set]).length =
          updAll H (entriesAfter H hist hist.length) (someSet set) := by
        have := entriesAfter_append H hist [someSet set] 1
        simpa using this
      refine ⟨?_, ?_⟩
      · have h0 := h 0 set c rfl rfl
        have hl0 : Spec.Lists H (Spec.stateAfter Spec.Map.empty (hist ++ (set :: sets).map someSet) (hist.length + 0 + 1))
            (updAll H (entriesAfter H hist hist.length) (someSet set)) := by
          have := lists_entriesAfter H (hist ++ [someSet set]) (hist ++ [someSet set]).length
          rw [he] at this
          unfold Spec.stateAfter at this ⊢
          rw [List.take_length] at this
          rw [List.map_cons, show hist.length + 0 + 1 = hist.length + 1 by omega,
            List.take_length_add_append]
          exact this
        intro q hq hp ⟨kv, hkv, hqk⟩ f hf
        cases hf
        have := h0 _ hl0 kv hkv q hq hqk
        rw [entriesUnder_eq, hashUnder_eq] at this
        exact this (((pres_nil_iff).1 hp).2.resolve_left hq)
      · rw [← he]
        refine ih cs (hist ++ [someSet set]) (by simpa using hl) ?_
        intro j set' c' h1 h2
        have := h (j + 1) set' c' (by simpa using h1) (by simpa using h2)
        rw [List.append_assoc, List.length_append]
        have e : hist.length + [someSet set].length + j + 1 = hist.length + (j + 1) + 1 := by
          simp only [List.length_singleton]; omega
        rw [e]
        exact this

end
end Jmt

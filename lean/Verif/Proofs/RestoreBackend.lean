import Verif.Spec.RestoreBackend
import Verif.Spec.Shuffle
import Verif.Props.Shuffle
import Verif.Props.Restore
import Verif.Proofs.Lookups
import Verif.Proofs.MockWrite
import Verif.Proofs.Continue
/-!
# Restoring into any backend: simulation by the mock store
-/
namespace Jmt
open Spec (Entry SameLookups)
open Store

section
variable {H : Hasher} {w : Version} {root : Digest} {s s' : Store} {p0 gp p all chunk : List (KeyHash × Value)}
  {r r' : Restore} {checked : Bool} {R R' : Reader} {b : NodeBatch}

/-! ### The calls are these parts and the write -/

theorem addChunk_prepare (proof : RangeProof) : r.addChunk H checked s chunk proof =
    match r.prepare H checked chunk proof with
    | (r', .error e) => (r', s, .error e)
    | (r', .ok b) =>
      match s.writeNodeBatch b with
      | .error e => (r', s, .error e)
      | .ok s' => (r'.cleared, s', .ok ()) := by
  unfold Restore.addChunk Restore.prepare
  split
  · rfl
  · rcases Restore.addKeys H chunk r with ⟨r1, _ | _⟩
    · rfl
    · simp only []
      cases r1.verify H checked proof with
      | error e => rfl
      | ok u => cases u; rfl

theorem finish_lastBatch : r.finish H s = (r.lastBatch H >>= fun b => s.writeNodeBatch b) := by
  unfold Restore.finish Restore.lastBatch
  cases r.singleLeaf with
  | none => simp only [bind_assoc, ok_bind]
  | some l =>
    simp only []
    split
    · rw [ok_bind]
    · rfl

/-! ### Frozen nodes are only added to -/

/-- Everything recorded stays recorded. -/
structure Grows (F F' : NodeBatch) : Prop where
  nodes : ∀ k, F'.nodes.get? k = none → F.nodes.get? k = none
  values : ∀ k, F'.values.get? k = none → F.values.get? k = none

theorem Grows.refl (F : NodeBatch) : Grows F F := ⟨fun _ h => h, fun _ h => h⟩

theorem Grows.trans {F F' F'' : NodeBatch} (h : Grows F F') (h' : Grows F' F'') : Grows F F'' :=
  ⟨fun k hk => h.nodes k (h'.nodes k hk), fun k hk => h.values k (h'.values k hk)⟩

/-- Nodes inserted one after another. -/
def insAll (F : NodeBatch) (L : List (NodeKey × Node)) : NodeBatch :=
  { F with nodes := L.foldl (fun N e => N.insert e.1 e.2) F.nodes }

theorem insAll_append (F : NodeBatch) (L L' : List (NodeKey × Node)) : insAll (insAll F L) L' = insAll F (L ++ L') := by
  unfold insAll; rw [List.foldl_append]

theorem insAll_get : ∀ (L : List (NodeKey × Node)) (F : NodeBatch) (k : NodeKey),
    (insAll F L).nodes.get? k = match (insAll ⟨[], []⟩ L).nodes.get? k with | some n => some n | none => F.nodes.get? k := by
  intro L
  induction L using list_snoc_ind with
  | h0 => intro F k; rfl
  | h1 L e ih =>
    intro F k
    have h1 : ∀ F, (insAll F (L ++ [e])).nodes = (insAll F L).nodes.insert e.1 e.2 := by
      intro F; unfold insAll; rw [List.foldl_append]; rfl
    rw [h1, h1, AMap.get?_insert, AMap.get?_insert]
    split
    · rfl
    · exact ih F k

theorem insAll_grows (F : NodeBatch) (L : List (NodeKey × Node)) : Grows F (insAll F L) := by
  refine ⟨fun k h => ?_, fun k h => h⟩
  rw [insAll_get] at h
  split at h
  · cases h
  · exact h

theorem insAll_nodup : ∀ (L : List (NodeKey × Node)) (F : NodeBatch), AMap.NodupKeys F.nodes → AMap.NodupKeys (insAll F L).nodes := by
  intro L
  induction L with
  | nil => intro F h; exact h
  | cons e L ih => intro F h; exact ih { F with nodes := F.nodes.insert e.1 e.2 } (h.insert _ _)

/-- The receiver with other frozen nodes. -/
def withF (r : Restore) (F : NodeBatch) : Restore := { r with frozenNodes := F }

/-- What a step does does not depend on the frozen nodes, and it only adds some. -/
def Adds (f : Restore → Except Err Restore) (r : Restore) (r' : Restore) : Prop :=
  ∃ L, ∀ F, f (withF r F) = .ok (withF r' (insAll F L))

theorem Adds.self {f : Restore → Except Err Restore} (h : Adds f r r') (hf : f r = .ok r') :
    ∃ L, r'.frozenNodes = insAll r.frozenNodes L ∧ ∀ F, f (withF r F) = .ok (withF r' (insAll F L)) := by
  obtain ⟨L, hL⟩ := h
  refine ⟨L, ?_, hL⟩
  have := hL r.frozenNodes
  rw [show withF r r.frozenNodes = r from rfl, hf] at this
  have h2 : r' = withF r' (insAll r.frozenNodes L) := Except.ok.inj this
  exact congrArg Restore.frozenNodes h2

theorem freezePreviousLeaf_adds (h : r.freezePreviousLeaf = .ok r') : Adds Restore.freezePreviousLeaf r r' := by
  unfold Restore.freezePreviousLeaf at h
  by_cases h0 : r.numKeysReceived = 0
  · rw [if_pos h0] at h
    cases h
    refine ⟨[], fun F => ?_⟩
    unfold Restore.freezePreviousLeaf
    rw [if_pos (show (withF r F).numKeysReceived = 0 from h0)]
    rfl
  · rw [if_neg h0] at h
    cases hl : r.partialNodes.getLast? with
    | none => rw [hl] at h; cases h
    | some last =>
      rw [hl] at h
      simp only [] at h
      cases hi : last.rposition with
      | none => rw [hi] at h; cases h
      | some i =>
        rw [hi] at h
        simp only [] at h
        cases hc : last.children i with
        | none => rw [hc] at h; cases h
        | some c =>
          rw [hc] at h
          cases c with
          | internal a b => cases h
          | leaf node =>
            simp only [] at h
            obtain ⟨ck, h1, h2⟩ := bind_ok_inv h
            cases h2
            refine ⟨[(ck, .leaf node)], fun F => ?_⟩
            unfold Restore.freezePreviousLeaf
            rw [if_neg (show ¬ (withF r F).numKeysReceived = 0 from h0)]
            rw [show (withF r F).partialNodes = r.partialNodes from rfl, hl]
            simp only [hi, hc]
            rw [show (withF r F).version = r.version from rfl, h1]
            rfl

theorem freezeInternalLoop_adds : ∀ (n : Nat) {r r' : Restore}, Restore.freezeInternalLoop H n r = .ok r' →
    Adds (Restore.freezeInternalLoop H n) r r' := by
  intro n
  induction n with
  | zero => intro r r' h; cases h; exact ⟨[], fun F => rfl⟩
  | succ n ih =>
    intro r r' h
    unfold Restore.freezeInternalLoop at h
    cases hl : r.partialNodes.getLast? with
    | none => rw [hl] at h; cases h
    | some last =>
      rw [hl] at h
      simp only [] at h
      obtain ⟨⟨k, nd⟩, h1, h2⟩ := bind_ok_inv h
      obtain ⟨hh, h3, h4⟩ := bind_ok_inv h2
      obtain ⟨ps, h5, h6⟩ := bind_ok_inv h4
      obtain ⟨L, hL⟩ := ih h6
      refine ⟨(k, .internal nd) :: L, fun F => ?_⟩
      unfold Restore.freezeInternalLoop
      rw [show (withF r F).partialNodes = r.partialNodes from rfl, hl]
      simp only []
      rw [show (withF r F).version = r.version from rfl, h1, ok_bind]
      simp only []
      rw [h3, ok_bind, h5, ok_bind]
      exact hL { F with nodes := F.nodes.insert k (.internal nd) }

theorem Adds.bind {f g : Restore → Except Err Restore} {r1 : Restore} (hf : Adds f r r1) (hg : Adds g r1 r') :
    Adds (fun x => f x >>= g) r r' := by
  obtain ⟨L, h1⟩ := hf
  obtain ⟨L', h2⟩ := hg
  refine ⟨L ++ L', fun F => ?_⟩
  show f (withF r F) >>= g = _
  rw [h1, ok_bind, h2, insAll_append]

theorem freeze_adds {n : Nat} (h : r.freeze H n = .ok r') : Adds (fun x => x.freeze H n) r r' := by
  unfold Restore.freeze at h
  obtain ⟨r1, h1, h2⟩ := bind_ok_inv h
  have a1 := freezePreviousLeaf_adds h1
  obtain ⟨L, hL⟩ := a1
  obtain ⟨L', hL'⟩ := freezeInternalLoop_adds _ h2
  refine ⟨L ++ L', fun F => ?_⟩
  show (withF r F).freeze H n = _
  unfold Restore.freeze
  rw [hL, ok_bind]
  exact (hL' (insAll F L)).trans (by rw [insAll_append])

theorem freeze_grows {n : Nat} (h : r.freeze H n = .ok r') : Grows r.frozenNodes r'.frozenNodes := by
  obtain ⟨L, hL, -⟩ := (freeze_adds h).self h
  rw [hL]
  exact insAll_grows _ _

theorem insertAtLeaf_grows {i : Nibble} {l : LeafNode} {k : KeyHash} {vh : ValueHash} {vis rem : List Nibble}
    (h : Restore.insertAtLeaf H r i l k vh vis rem = .ok r') : Grows r.frozenNodes r'.frozenNodes := by
  unfold Restore.insertAtLeaf at h
  obtain ⟨⟨vis', ps⟩, -, h2⟩ := bind_ok_inv h
  obtain ⟨ei, -, h4⟩ := bind_ok_inv h2
  obtain ⟨r1, h5, h6⟩ := bind_ok_inv h4
  obtain ⟨ni, -, h8⟩ := bind_ok_inv h6
  have hg := freeze_grows h5
  split at h8
  · cases h8
  · cases h8
    exact hg

theorem addOneLoop_grows {k : KeyHash} {vh : ValueHash} : ∀ (rem : List Nibble) (i : Nat) (vis : List Nibble) {r r' : Restore},
    Restore.addOneLoop H k vh i vis rem r = .ok r' → Grows r.frozenNodes r'.frozenNodes := by
  intro rem
  induction rem with
  | nil => intro i vis r r' h; cases h; exact .refl _
  | cons x rem ih =>
    intro i vis r r' h
    unfold Restore.addOneLoop at h
    cases hp : r.partialNodes[i]? with
    | none => rw [hp] at h; cases h
    | some info =>
      rw [hp] at h
      simp only [] at h
      cases hc : info.children x with
      | none =>
        rw [hc] at h
        simp only [] at h
        obtain ⟨r1, h1, h2⟩ := bind_ok_inv h
        cases h2
        have hg := freeze_grows h1
        exact hg
      | some c =>
        rw [hc] at h
        cases c with
        | internal a b => exact ih _ _ h
        | leaf node =>
          simp only [] at h
          split at h
          · exact insertAtLeaf_grows h
          · cases h

theorem addEntry_grows {k : KeyHash} {x : Value} (h : Restore.addEntry H r k x = .ok r') : Grows r.frozenNodes r'.frozenNodes := by
  unfold Restore.addEntry at h
  obtain ⟨r1, h1, h2⟩ := bind_ok_inv h
  cases h2
  rw [panics_ok] at h1
  have hg := addOneLoop_grows _ _ _ h1
  refine Grows.trans (F' := (r.insertValue k x).frozenNodes) ⟨fun _ h => h, fun a h => ?_⟩ hg
  have h3 : (r.frozenNodes.values.insert (r.version, k) (some x)).get? a = none := h
  rw [AMap.get?_insert] at h3
  split at h3
  · cases h3
  · exact h3

theorem addKeys_grows : ∀ (ps : List (KeyHash × Value)) {r r' : Restore}, Restore.addKeys H ps r = (r', .ok ()) →
    Grows r.frozenNodes r'.frozenNodes := by
  intro ps
  induction ps with
  | nil => intro r r' h; cases h; exact .refl _
  | cons e ps ih =>
    obtain ⟨k, x⟩ := e
    intro r r' h
    unfold Restore.addKeys at h
    split at h
    · cases h
    · cases he : Restore.addEntry H r k x with
      | error e => rw [he] at h; cases h
      | ok r1 =>
        rw [he] at h
        exact (addEntry_grows he).trans (ih h)

theorem addKeys_append : ∀ (ps qs : List (KeyHash × Value)) {r r' : Restore}, Restore.addKeys H ps r = (r', .ok ()) →
    Restore.addKeys H (ps ++ qs) r = Restore.addKeys H qs r' := by
  intro ps
  induction ps with
  | nil => intro qs r r' h; cases h; rfl
  | cons e ps ih =>
    obtain ⟨k, x⟩ := e
    intro qs r r' h
    rw [List.cons_append]
    show (if _ then _ else _) = _
    unfold Restore.addKeys at h
    split at h
    · cases h
    · rename_i hc
      rw [if_neg hc]
      cases he : Restore.addEntry H r k x with
      | error e => rw [he] at h; cases h
      | ok r1 =>
        rw [he] at h
        exact ih qs h

/-! ### The simulation -/

/-- The receiver `r` over the backend `R` has got what the session `z` over the mock store has got, and the pairs `p` besides, which are not (or only partly)
written. -/
structure BSim (H : Hasher) (all : List (KeyHash × Value)) (w : Version) (root : Digest) (z : Sess) (p0 gp p : List (KeyHash × Value))
    (r : Restore) (R : Reader) (pos : Option KeyHash) (whole : Bool) : Prop where
  inv : SessInv H all w root z p0 gp
  add : Restore.addKeys H p z.receiver = (r, .ok ())
  pre : gp ++ p <+: all
  pos : pos = (gp ++ p).getLast?.map Prod.fst
  node : ∀ k, r.frozenNodes.nodes.get? k = none → R.getNodeOption k = z.store.reader.getNodeOption k
  value : ∀ v k, (∀ u x, r.frozenNodes.values.get? (u, k) = some x → v < u) → R.getValueOption v k = z.store.reader.getValueOption v k
  same : whole = true ∨ p = [] → SameLookups R z.store.reader
  stale : z.store.stale = []

theorem rightmost_unique (hd : Durable H (entriesOf H all) all w s p0) (hs : AMap.NodupKeys s.nodes) (hR : SameLookups R s.reader)
    (hf : Spec.FindsRightmostLeaf R) : R.getRightmostLeaf = .ok s.getRightmostLeaf := by
  have h2 := rmSpec s
  have hget : ∀ k n, R.getNodeOption k = .ok (some n) ↔ (k, n) ∈ s.nodes := by
    intro k n
    rw [hR.node k, AMap.mem_iff_get? hs]
    show Except.ok (s.nodes.get? k) = _ ↔ _
    constructor
    · intro h; exact Except.ok.inj h
    · intro h; rw [h]
  rcases hf with ⟨h, hno⟩ | ⟨k, l, h, hk, hmax⟩
  · rw [h]
    cases hx : s.getRightmostLeaf with
    | none => rfl
    | some a =>
      rw [hx] at h2
      exact absurd ((hget _ _).2 h2.1) (hno _ _)
  · rw [h]
    cases hx : s.getRightmostLeaf with
    | none =>
      rw [hx] at h2
      exact absurd ((hget _ _).1 hk) (h2 _ _)
    | some a =>
      obtain ⟨k', l'⟩ := a
      rw [hx] at h2
      have hk' := (hget _ _).2 h2.1
      have e1 := hmax _ _ hk'
      have e2 := h2.2 _ _ ((hget _ _).1 hk)
      have he : l.keyHash = l'.keyHash := Subtype.ext (List.le_antisymm (List.not_lt.1 e2) (List.not_lt.1 e1))
      have g1 := (AMap.mem_iff_get? hs).1 ((hget _ _).1 hk)
      have g2 := (AMap.mem_iff_get? hs).1 h2.1
      have hkk := durable_leaves hd g1 g2 he
      subst hkk
      rw [g1] at g2
      cases g2
      rfl

theorem new_same (hd : Durable H (entriesOf H all) all w s p0) (hs : AMap.NodupKeys s.nodes) (hR : SameLookups R s.reader)
    (hf : Spec.FindsRightmostLeaf R) : R = s.reader := by
  have h1 := sameLookups_eq hR
  have h2 := rightmost_unique hd hs hR hf
  rw [h1]
  show R = { R with getRightmostLeaf := .ok s.getRightmostLeaf }
  rw [← h2]

theorem bsim_start (hR : Spec.Vacant R) : Restore.new H R w root = .ok (Restore.newOverwrite w root) ∧
    BSim H all w root (Sess.start false w root) [] [] [] (Restore.newOverwrite w root) R none true := by
  constructor
  · unfold Restore.new
    rcases hR.rightmost with ⟨h, -⟩ | ⟨k, l, h, hk, -⟩
    · rw [h]; rfl
    · rw [hR.node] at hk; cases hk
  · refine ⟨sess_start false, rfl, List.nil_prefix, rfl, fun k _ => hR.node k, fun v k _ => hR.value v k, fun _ => ⟨hR.node, hR.value⟩, rfl⟩

theorem bsim_restart {z : Sess} {pos : Option KeyHash} (hasc : Asc (entriesOf H all)) (h : BSim H all w root z p0 gp p r R pos true)
    (hf : Spec.FindsRightmostLeaf R) : ∃ r' l, Restore.new H R w root = .ok r' ∧ R.getRightmostLeaf = .ok l ∧
      BSim H all w root ⟨r', z.store, z.store.getRightmostLeaf.map (fun l => l.2.keyHash)⟩ p0 p0.dropLast [] r' R
        (l.map (fun a => a.2.keyHash)) true := by
  have hR := h.same (.inl rfl)
  have heq := new_same h.inv.inv.durable h.inv.inv.snodup hR hf
  obtain ⟨r', h1, h2⟩ := sess_restart hasc h.inv
  refine ⟨r', z.store.getRightmostLeaf, by rw [heq]; exact h1, by rw [heq]; rfl, h2, rfl, ?_, ?_, fun k _ => hR.node k, fun v k _ => hR.value v k,
    fun _ => hR, h.stale⟩
  · rw [List.append_nil]; exact h2.got
  · rw [List.append_nil]; exact h2.pos

theorem written_lookups {F : NodeBatch} {S S' : Reader} (hw : Spec.Written b R' R) (hw' : Spec.Written b S' S) (hg : Grows F b)
    (hv : ∀ v k x, b.values.get? (v, k) = some x → v = w)
    (hnode : ∀ k, F.nodes.get? k = none → R.getNodeOption k = S.getNodeOption k)
    (hval : ∀ v k, (∀ u x, F.values.get? (u, k) = some x → v < u) → R.getValueOption v k = S.getValueOption v k) : SameLookups R' S' := by
  constructor
  · intro k
    cases hb : b.nodes.get? k with
    | some n => rw [hw.new k n hb, hw'.new k n hb]
    | none => rw [hw.old k hb, hw'.old k hb, hnode k (hg.nodes k hb)]
  · intro v k
    by_cases hex : w ≤ v ∧ ∃ x, b.values.get? (w, k) = some x
    · obtain ⟨hle, x, hx⟩ := hex
      have hmax : ∀ u x', b.values.get? (u, k) = some x' → u ≤ v → u ≤ w := fun u x' hu _ => by rw [hv u k x' hu]; exact Nat.le_refl w
      rw [hw.newValue v k w x hx hle hmax, hw'.newValue v k w x hx hle hmax]
    · have hno : ∀ u x, b.values.get? (u, k) = some x → v < u := by
        intro u x hu
        have := hv u k x hu
        subst this
        apply Nat.lt_of_not_le
        intro hle
        exact hex ⟨hle, x, hu⟩
      rw [hw.oldValue v k hno, hw'.oldValue v k hno]
      apply hval
      intro u x hu
      cases hb : b.values.get? (u, k) with
      | none => rw [hg.values _ hb] at hu; cases hu
      | some x' => exact hno u x' hb

/-- The next chunk: the call gets as far as the write. -/
theorem bsim_prepare {z : Sess} {pos : Option KeyHash} {whole : Bool} (hasc : Asc (entriesOf H all)) (hnp : NP H (entriesOf H all))
    (hroot : root = sh H (entriesOf H all) []) (h : BSim H all w root z p0 gp p r R pos whole) (hpre : gp ++ p ++ chunk <+: all)
    {e : KeyHash × Value} (he : chunk.getLast? = some e) :
    ∃ r', r.prepare H checked chunk ⟨rightSiblingsOf (specProof H (entriesOf H all) e.1).siblings e.1⟩ = (r', .ok r'.frozenNodes) ∧
      (∀ R', Spec.Written r'.frozenNodes R' R → ∃ s', BSim H all w root ⟨r'.cleared, s', some e.1⟩ (gp ++ p ++ chunk) (gp ++ p ++ chunk) [] r'.cleared
        R' (some e.1) true) ∧
      (∀ R' whole', Spec.PartlyWritten r'.frozenNodes R' R → (whole' = true → whole = true ∧ R' = R) →
        BSim H all w root z p0 gp (p ++ chunk) r' R' (some e.1) whole') := by
  have hne : chunk ≠ [] := by rintro rfl; simp at he
  have hne' : p ++ chunk ≠ [] := by simp [hne]
  have he' : (p ++ chunk).getLast? = some e := by rw [List.getLast?_append, he]; rfl
  obtain ⟨r1, s1, h1, h2⟩ := sess_chunk (checked := checked) hasc hnp hroot h.inv (by rw [← List.append_assoc]; exact hpre) he'
  rw [addChunk_prepare] at h1
  obtain ⟨r', b, hp1, hw1⟩ : ∃ r' b, z.receiver.prepare H checked (p ++ chunk)
      ⟨rightSiblingsOf (specProof H (entriesOf H all) e.1).siblings e.1⟩ = (r', .ok b) ∧ z.store.writeNodeBatch b = .ok s1 ∧ r1 = r'.cleared := by
    rcases hpr : z.receiver.prepare H checked (p ++ chunk) ⟨rightSiblingsOf (specProof H (entriesOf H all) e.1).siblings e.1⟩ with ⟨r', _ | b⟩
    · rw [hpr] at h1; cases h1
    · rw [hpr] at h1
      simp only [] at h1
      cases hwb : z.store.writeNodeBatch b with
      | error e => rw [hwb] at h1; cases h1
      | ok s2 =>
        rw [hwb] at h1
        cases h1
        exact ⟨r', b, rfl, hwb, rfl⟩
  obtain ⟨hw1, rfl⟩ := hw1
  have hak : Restore.addKeys H (p ++ chunk) z.receiver = Restore.addKeys H chunk r := addKeys_append _ _ h.add
  have hprep : r.prepare H checked chunk ⟨rightSiblingsOf (specProof H (entriesOf H all) e.1).siblings e.1⟩ = (r', .ok b) := by
    rw [← hp1]
    unfold Restore.prepare
    rw [if_neg hne, if_neg hne', hak]
  obtain ⟨hadd, rfl⟩ : Restore.addKeys H chunk r = (r', .ok ()) ∧ b = r'.frozenNodes := by
    unfold Restore.prepare at hprep
    rw [if_neg hne] at hprep
    rcases hk : Restore.addKeys H chunk r with ⟨r2, _ | u⟩
    · rw [hk] at hprep; cases hprep
    · rw [hk] at hprep
      simp only [] at hprep
      cases hv : r2.verify H checked ⟨rightSiblingsOf (specProof H (entriesOf H all) e.1).siblings e.1⟩ with
      | error e => rw [hv] at hprep; cases hprep
      | ok u => rw [hv] at hprep; cases hprep; exact ⟨rfl, rfl⟩
  have hg := addKeys_grows _ hadd
  have hinv := addKeys_inv (p ++ chunk) h.inv.inv (by rw [hak, hadd]) (fun m hm => by cases hm)
  refine ⟨r', hprep, ?_, ?_⟩
  · intro R' hw
    refine ⟨s1, ?_⟩
    have hv : ∀ v k x, r'.frozenNodes.values.get? (v, k) = some x → v = w := fun v k x hx => (hinv.1.frozen v k x hx).1
    have hsame := written_lookups hw (mock_written hinv.1.nodes.nodup hinv.1.vnodup hw1) hg hv h.node h.value
    rw [← List.append_assoc] at h2
    refine ⟨h2, rfl, ?_, ?_, fun k _ => hsame.node k, fun v k _ => hsame.value v k, fun _ => hsame,
      (writeNodeBatch_stale hw1).trans h.stale⟩
    · rw [List.append_nil]; exact hpre
    · rw [List.append_nil, List.getLast?_append, he]; rfl
  · intro R' whole' hw hc
    refine ⟨h.inv, by rw [hak, hadd], by rw [← List.append_assoc]; exact hpre, by rw [← List.append_assoc, List.getLast?_append, he]; rfl, ?_, ?_, ?_, h.stale⟩
    · intro k hk
      rcases hw.node k with h1 | ⟨n, h1, -⟩
      · rw [h1]; exact h.node k (hg.nodes k hk)
      · rw [hk] at h1; cases h1
    · intro v k hk
      rw [hw.value v k hk]
      apply h.value
      intro u x hu
      cases hb : r'.frozenNodes.values.get? (u, k) with
      | none => rw [hg.values _ hb] at hu; cases hu
      | some x' => exact hk u x' hb
    · rintro (hx | hx)
      · obtain ⟨h1, rfl⟩ := hc hx
        exact h.same (.inl h1)
      · exact absurd hx hne'

end
end Jmt

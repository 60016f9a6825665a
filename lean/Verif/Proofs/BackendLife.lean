import Verif.Spec.BackendLife
import Verif.Proofs.Backend
import Verif.Proofs.Continue
import Verif.Spec.Shuffle
/-!
# A backend that starts from a store with the invariant of histories
-/
namespace Jmt
open Spec (Entry PartlyWritten Written SameLookups)

section
variable {H : Hasher}

theorem tracks_lookups {R : Reader} {s : Store} {n : Nat} (h : SameLookups R s.reader) : Tracks True R [] s n where
  node k nd hk := by rw [h.node]; show Except.ok _ = _; rw [hk]
  fresh k _ hk := by rw [h.node]; show Except.ok _ = _; rw [hk]
  value v k := .inl (h.value v k)
  stale x hx := by cases hx

theorem Tracks.readAt_inv {R : Reader} {st} {s : Store} {hist : List ValueSet} {low n : Nat} (ht : Tracks True R st s n)
    (hi : SysInv H s hist low) {v : Version} (h1 : low ≤ v) (h2 : v < hist.length) :
    ReadAt H R v (Spec.stateAfter Spec.Map.empty hist (v + 1)) (entriesAfter H hist (v + 1)) := by
  have r := hi.reads.readAt h1 h2
  have lift : ∀ {ver}, TreeAt H s.reader.getNodeOption v (entriesAfter H hist (v + 1)) ver →
      TreeAt H R.getNodeOption v (entriesAfter H hist (v + 1)) ver := by
    intro ver t
    exact ⟨ht.node _ _ (Except.ok.inj t.root), fun q h1 h2 => ht.node _ _ (Except.ok.inj (t.node q h1 h2))⟩
  obtain ⟨ver, t⟩ := r.tree
  obtain ⟨ver', t', l⟩ := r.leaves
  refine .of r.nodup ⟨ver, lift t⟩ r.lists (fun k => ?_) ⟨ver', lift t', fun q e h1 h2 h3 => ?_⟩
  · rw [ht.values]; exact r.value k
  · rw [ht.values]; exact l q e h1 h2 h3

/-- What has been in the backend before and is of versions before `m`: only the prunings touch it, and of it only what the indices `st0` name. -/
structure OldPart (m : Version) (R0 : Reader) (st0 : List StaleNodeIndex) (ops : List Op) (R : Reader) (st : List StaleNodeIndex) (s : Store) : Prop where
  nodes : ∀ k nd, s.nodes.get? k = some nd → m ≤ k.version
  stale : ∀ x ∈ st, x ∈ st0 ∨ m ≤ x.nodeKey.version
  node : ∀ k : NodeKey, k.version < m → (∀ r, Op.purge r ∈ ops → ∀ x ∈ st0, x.staleSince ≤ r → x.nodeKey ≠ k) →
    R.getNodeOption k = R0.getNodeOption k
  value : ∀ u k, u < m → R.getValueOption u k = R0.getValueOption u k

theorem OldPart.write {m : Version} {R0 R R1 R' : Reader} {st0 st} {ops : List Op} {op : Op} {s s' : Store} {hist sets : List ValueSet} {low : Nat} {hs b}
    (h : OldPart m R0 st0 ops R st s) (hm : m ≤ hist.length) (c : CommitRes H s hist sets low hs b s')
    (hpart : PartlyWritten b.nodeBatch R1 R) (hwrite : Written b.nodeBatch R' R1) :
    OldPart m R0 st0 (ops ++ [op]) R' (st ++ b.staleNodeIndexBatch) s' := by
  have hnodes : ∀ k nd, s'.nodes.get? k = some nd → m ≤ k.version := by
    intro k nd hk
    rw [c.nodes] at hk
    cases hb : b.nodeBatch.nodes.get? k with
    | some n => have := (c.nodeVer k n hb).1; omega
    | none => rw [hb] at hk; exact h.nodes k nd hk
  have hval : ∀ u k, u < m → ∀ w x, b.nodeBatch.values.get? (w, k) = some x → u < w := by
    intro u k hu w x hx
    rw [c.values] at hx
    split at hx
    · omega
    · cases hx
  refine ⟨hnodes, fun x hx => ?_, fun k hk hno => ?_, fun u k hu => ?_⟩
  · rcases List.mem_append.1 hx with hx | hx
    · exact h.stale x hx
    · obtain ⟨⟨M, W, hI, -⟩, -⟩ := c.inv
      have := hI.stale x (by rw [c.stale]; exact List.mem_append_right _ hx)
      obtain ⟨nd, hnd⟩ := this.2.2.1
      exact .inr (hnodes _ nd hnd)
  · have hb : b.nodeBatch.nodes.get? k = none := by
      cases hb : b.nodeBatch.nodes.get? k with
      | none => rfl
      | some n => have := (c.nodeVer k n hb).1; omega
    rw [hwrite.old k hb, ← h.node k hk fun r hr => hno r (List.mem_append_left _ hr)]
    rcases hpart.node k with h1 | ⟨n, h1, -⟩
    · exact h1
    · rw [hb] at h1; cases h1
  · rw [hwrite.oldValue u k (hval u k hu), hpart.value u k (hval u k hu), h.value u k hu]

theorem OldPart.prune {m : Version} {R0 R R' : Reader} {st0 st} {ops : List Op} {s s' : Store} {r : Version}
    (h : OldPart m R0 st0 ops R st s) (hs : ∀ k nd, s'.nodes.get? k = some nd → s.nodes.get? k = some nd) (hp : Spec.Pruned st r R' R) :
    OldPart m R0 st0 (ops ++ [.purge r]) R' st s' := by
  refine ⟨fun k nd hk => h.nodes k nd (hs k nd hk), h.stale, fun k hk hno => ?_, fun u k hu => by rw [hp.value, h.value u k hu]⟩
  rw [← h.node k hk fun q hq => hno q (List.mem_append_left _ hq)]
  apply hp.node
  intro x hx hxk
  apply Nat.lt_of_not_le
  intro hle
  rcases h.stale x hx with h1 | h1
  · exact hno r (List.mem_append_right _ (List.mem_singleton_self _)) x h1 hle hxk
  · rw [hxk] at h1; omega

/-- What a client does from `R0` on follows what the mock store `s0` does. -/
theorem BackendFrom.tracks_old {P : Prop} (m : Version) {st0 : List StaleNodeIndex} {R0 : Reader} {s0 : Store} {pre ops : List Op} {R : Reader} {n0 n : Version} {st : List StaleNodeIndex}
    (ht0 : Tracks P R0 st0 s0 n0) (hi0 : SysInv H s0 (setsOf pre) (horizon pre).2) (hn0 : n0 = (setsOf pre).length)
    (hm0 : ∀ k nd, s0.nodes.get? k = some nd → m ≤ k.version) (hmn : m ≤ n0)
    (h : BackendFrom H st0 R0 n0 ops R n st) (hb : (setsOf (pre ++ ops)).length < 2 ^ 64) :
    (∀ op ∈ ops, op.Allowed) ∧ n = (setsOf (pre ++ ops)).length ∧
      ∃ s, SysInv H s (setsOf (pre ++ ops)) (horizon (pre ++ ops)).2 ∧ Tracks P R st s n ∧ OldPart m R0 st0 ops R st s := by
  have hge : ∀ ops', m ≤ (setsOf (pre ++ ops')).length := by
    intro ops'
    rw [setsOf_append, List.length_append, ← hn0]; omega
  induction h with
  | start => 
    rw [List.append_nil]
    exact ⟨fun _ h => (by cases h), hn0, s0, hi0, ht0, hm0, fun x hx => .inl hx, fun _ _ _ => rfl, fun _ _ _ => rfl⟩
  | @commit ops R n st sets hs b R1 R' h hput hpart hwrite ih =>
    rw [← List.append_assoc] at hb ⊢
    have hb' := hb
    rw [setsOf_commit, List.length_append] at hb
    obtain ⟨hok, hn, s, hi, ht, ho⟩ := ih (by omega)
    have hok' : ∀ op ∈ ops ++ [Op.commit sets], op.Allowed := by
      intro op hop
      rcases List.mem_append.1 hop with hop | hop
      · exact hok op hop
      · simp only [List.mem_singleton] at hop; subst hop; trivial
    obtain ⟨z', e, hz, hinv⟩ := Sys.step_ok (y := ⟨s, n⟩) hi hn (.commit sets) trivial
      (by unfold preGenesisVersion u64Size; omega)
    obtain ⟨hs', b', s', a1, a2, a4⟩ := hi.commit sets (by unfold preGenesisVersion u64Size; omega)
    rw [hn] at ht hput
    obtain ⟨⟨r, e1, e2⟩, -⟩ := ht.put hi sets (by unfold preGenesisVersion u64Size; omega)
    rw [hput] at e1
    cases e1
    rw [e2] at a1
    cases a1
    refine ⟨hok', by rw [setsOf_commit, List.length_append, hn], s', ?_, ?_, ho.write (hge _) a4 hpart hwrite⟩
    · unfold Sys.step Store.commit at e
      simp only [hn, e2, a2, ok_bind] at e
      cases e
      exact hinv
    · rw [hn]
      exact ht.write hi a4 hpart hwrite
  | @batch ops R n st sets hs b R1 R' h hput hpart hwrite ih =>
    rw [← List.append_assoc] at hb ⊢
    have hb' := hb
    have hlen : setsOf (pre ++ ops ++ [.batch sets]) = setsOf (pre ++ ops) ++ sets.map someSet := by
      rw [setsOf_append]; simp [setsOf]
    rw [hlen, List.length_append, List.length_map] at hb
    obtain ⟨hok, hn, s, hi, ht, ho⟩ := ih (by omega)
    have hne := batch_nonempty hput
    have hok' : ∀ op ∈ ops ++ [Op.batch sets], op.Allowed := by
      intro op hop
      rcases List.mem_append.1 hop with hop | hop
      · exact hok op hop
      · simp only [List.mem_singleton] at hop; subst hop; exact hne
    obtain ⟨z', e, hz, hinv⟩ := Sys.step_ok (y := ⟨s, n⟩) hi hn (.batch sets) hne
      (by unfold preGenesisVersion u64Size; omega)
    obtain ⟨hs', b', s', a1, a2, a4⟩ := hi.batch sets none hne (cachesFor_none _ _)
      (by unfold preGenesisVersion u64Size; omega)
    rw [hn] at ht hput
    obtain ⟨r, e1, e2⟩ := ht.putBatch hi sets hne (by unfold preGenesisVersion u64Size; omega)
    rw [hput] at e1
    cases e1
    rw [e2] at a1
    cases a1
    refine ⟨hok', by rw [hlen, List.length_append, List.length_map, hn], s', ?_, ?_, ho.write (hge _) a4 hpart hwrite⟩
    · unfold Sys.step Store.commitBatch at e
      simp only [hn, e2, a2, ok_bind] at e
      cases e
      exact hinv
    · have := ht.write hi a4 hpart hwrite
      rw [List.length_map] at this
      rw [hn]
      exact this
  | @purge ops R n st r R' h hp ih =>
    rw [← List.append_assoc] at hb ⊢
    have hb' := hb
    rw [setsOf_purge] at hb
    obtain ⟨hok, hn, s, hi, ht, ho⟩ := ih hb
    have hok' : ∀ op ∈ ops ++ [Op.purge r], op.Allowed := by
      intro op hop
      rcases List.mem_append.1 hop with hop | hop
      · exact hok op hop
      · simp only [List.mem_singleton] at hop; subst hop; trivial
    obtain ⟨z', e, hz, hinv⟩ := Sys.step_ok (y := ⟨s, n⟩) hi hn (.purge r) trivial
      (by unfold preGenesisVersion u64Size; omega)
    obtain ⟨s', a1, -, a3, a4, -, a5⟩ := hi.purge r
    refine ⟨hok', by rw [setsOf_purge, hn], s', ?_, ht.prune a4 a3 a5 ?_ hp, ho.prune (fun k nd hk => ?_) hp⟩
    · unfold Sys.step at e
      simp only [a1, ok_bind] at e
      cases e
      exact hinv
    · obtain ⟨⟨M, W, hI, -⟩, -⟩ := hi
      intro k nd hk
      have := hI.lt _ _ hk
      omega
    · rw [a5] at hk
      split at hk
      · cases hk
      · exact hk

theorem BackendFrom.tracks {P : Prop} {st0 : List StaleNodeIndex} {R0 : Reader} {s0 : Store} {pre ops : List Op} {R : Reader} {n0 n : Version} {st : List StaleNodeIndex}
    (ht0 : Tracks P R0 st0 s0 n0) (hi0 : SysInv H s0 (setsOf pre) (horizon pre).2) (hn0 : n0 = (setsOf pre).length)
    (h : BackendFrom H st0 R0 n0 ops R n st) (hb : (setsOf (pre ++ ops)).length < 2 ^ 64) :
    (∀ op ∈ ops, op.Allowed) ∧ n = (setsOf (pre ++ ops)).length ∧
      ∃ s, SysInv H s (setsOf (pre ++ ops)) (horizon (pre ++ ops)).2 ∧ Tracks P R st s n := by
  obtain ⟨h1, h2, s, h3, h4, -⟩ := h.tracks_old 0 ht0 hi0 hn0 (fun _ _ _ => Nat.zero_le _) (Nat.zero_le _) hb
  exact ⟨h1, h2, s, h3, h4⟩

end
end Jmt

import Verif.Props.Crash
import Verif.Props.IterResume
/-!
# Property C43: iterating over a version while commits and purges go on
-/
namespace Jmt
open Spec (AnyFault)

variable {H : Hasher} {ops : List Op} {y : Sys}

/-- The lookups of `R` at versions up to `v`; all others fail. -/
def upTo (R : Reader) (v : Version) : Reader where
  getNodeOption k := if k.version ≤ v then
      (match R.getNodeOption k with | .ok (some n) => .ok (some n) | _ => .error (.io "hidden"))
    else .error (.io "hidden")
  getValueOption w k := if w ≤ v then R.getValueOption w k else .error (.io "hidden")
  getRightmostLeaf := .error (.io "hidden")

theorem calls_same {R : Reader} : ∀ (Rs : List Reader), (∀ R' ∈ Rs, AnyFault R R') → ∀ {it : Iter} {items : List (KeyHash × Value)},
    it.Yields R items → ∃ it', Iter.calls Rs it = .ok ((List.range Rs.length).map (fun i => items[i]?.map Except.ok), it') ∧
      it'.Yields R (items.drop Rs.length) := by
  intro Rs
  induction Rs with
  | nil => intro _ it items hy; exact ⟨it, rfl, hy⟩
  | cons R' Rs ih =>
    intro hR it items hy
    have hf := hR R' (by simp)
    have hRs : ∀ R' ∈ Rs, AnyFault R R' := fun r hr => hR r (List.mem_cons_of_mem _ hr)
    have hlist : ∀ xs : List (KeyHash × Value), (List.range (R' :: Rs).length).map (fun i => xs[i]?.map (Except.ok (ε := Err))) =
        xs[0]?.map Except.ok :: (List.range Rs.length).map (fun i => xs[i + 1]?.map Except.ok) := by
      intro xs
      rw [List.length_cons, List.range_succ_eq_map, List.map_cons, List.map_map]
      rfl
    cases hy with
    | done h =>
      have h1 := next_same hf h (by intro e; simp)
      obtain ⟨it', a1, a2⟩ := ih hRs (.done h)
      refine ⟨it', ?_, by simpa using a2⟩
      rw [hlist]
      unfold Iter.calls
      simp only [h1, ok_bind, a1]
      simp
    | @item _ it1 kv rest h hy' =>
      have h1 := next_same hf h (by intro e; simp)
      obtain ⟨it', a1, a2⟩ := ih hRs hy'
      refine ⟨it', ?_, by simpa using a2⟩
      rw [hlist]
      unfold Iter.calls
      simp only [h1, ok_bind, a1]
      simp

/-- Two ascending lists with the same members are equal. -/
theorem sorted_ext : ∀ {l l' : List (KeyHash × Value)}, l.Pairwise (fun a b => a.1.val < b.1.val) →
    l'.Pairwise (fun a b => a.1.val < b.1.val) → (∀ e, e ∈ l ↔ e ∈ l') → l = l'
  | [], [], _, _, _ => rfl
  | [], b :: l', _, _, h => absurd ((h b).2 List.mem_cons_self) (by simp)
  | a :: l, [], _, _, h => absurd ((h a).1 List.mem_cons_self) (by simp)
  | a :: l, b :: l', h1, h2, h => by
    have g1 := List.pairwise_cons.1 h1
    have g2 := List.pairwise_cons.1 h2
    have hirr : ∀ x : List UInt8, ¬ x < x := fun x => List.lt_irrefl x
    have hab : a = b := by
      rcases List.mem_cons.1 ((h a).1 List.mem_cons_self) with hc | hc
      · exact hc
      · rcases List.mem_cons.1 ((h b).2 List.mem_cons_self) with hd | hd
        · exact hd.symm
        · exact absurd (List.lt_trans (g1.1 b hd) (g2.1 a hc)) (hirr _)
    subst hab
    congr 1
    refine sorted_ext g1.2 g2.2 fun e => ⟨fun he => ?_, fun he => ?_⟩
    · rcases List.mem_cons.1 ((h e).1 (List.mem_cons_of_mem _ he)) with hc | hc
      · subst hc; exact absurd (g1.1 _ he) (hirr _)
      · exact hc
    · rcases List.mem_cons.1 ((h e).2 (List.mem_cons_of_mem _ he)) with hc | hc
      · subst hc; exact absurd (g2.1 _ he) (hirr _)
      · exact hc

/-- C43, iteration: an iterator over a version that stays readable, started and called while commits and purges go on - each lookup of
each call answered from the state before, between or after them - returns the pairs of that version one by one from the start key
(or the index) on, then `None`; it never returns an error. -/
theorem C43_iterating_meanwhile {ops' : List Op} {z : Sys} (hr : Reached H ops y) (hz : Sys.run H ops' y = .ok z)
    (hb : (setsOf (ops ++ ops')).length < 2 ^ 64) {v : Version} (hv : Readable (ops ++ ops') v)
    (hcommitted : v < (setsOf ops).length) :
    ∃ items, SortedPairs (mapAt ops v) items ∧ ∀ (R0 : Reader) (Rs : List Reader), SeenDuring H y ops' R0 →
      (∀ R' ∈ Rs, SeenDuring H y ops' R') →
      (∀ i, ∃ it it', Iter.newByIndex R0 v i = .ok it ∧
        Iter.calls Rs it = .ok ((List.range Rs.length).map (fun j => (items.drop i)[j]?.map Except.ok), it')) ∧
      (∀ start, ∃ it it', Iter.new R0 v start = .ok it ∧
        Iter.calls Rs it = .ok ((List.range Rs.length).map (fun j =>
          (items.filter (fun kv => decide (start.val ≤ kv.1.val)))[j]?.map Except.ok), it')) := by
  have hrz := hr.run hz
  have hmap : mapAt ops v = mapAt (ops ++ ops') v := by
    unfold mapAt Spec.stateAfter
    rw [setsOf_append, List.take_append_of_le_length (by omega)]
  have r : ReadAt H (upTo z.store.reader v) v (mapAt (ops ++ ops') v) (entriesAfter H (setsOf (ops ++ ops')) (v + 1)) := by
    refine readAt_older hrz hb hv (fun k hk n hn => ?_) (fun w k hw => if_pos hw)
    unfold upTo
    dsimp only
    rw [if_pos hk, hn]
  have hview : ∀ R', SeenDuring H y ops' R' → AnyFault (upTo z.store.reader v) R' := by
    intro R' hs
    obtain ⟨hnode, hval⟩ := seen_reads hr hz hb hv hcommitted hs
    refine ⟨fun k => ?_, fun w k => ?_, .inr ⟨_, rfl⟩⟩
    · unfold upTo
      dsimp only
      by_cases hk : k.version ≤ v
      · rw [if_pos hk]
        split
        · next n hn => exact .inl (hnode k hk n hn).symm
        · exact .inr (.inl ⟨_, rfl⟩)
      · rw [if_neg hk]; exact .inr (.inl ⟨_, rfl⟩)
    · unfold upTo
      dsimp only
      by_cases hw : w ≤ v
      · rw [if_pos hw]; exact .inl (hval w k hw).symm
      · rw [if_neg hw]; exact .inr (.inl ⟨_, rfl⟩)
  obtain ⟨items, hsorted, hidx⟩ := r.iterByIndex
  rw [hmap]
  refine ⟨items, hsorted, fun R0 Rs h0 hRs => ⟨fun i => ?_, fun start => ?_⟩⟩
  · obtain ⟨it, h1, h2⟩ := hidx i
    obtain ⟨it', h3, -⟩ := calls_same Rs (fun R' hR' => hview R' (hRs R' hR')) h2
    exact ⟨it, it', (C38_iteration_fails_or_agrees (hview R0 h0) v).2.1 i it h1, h3⟩
  · obtain ⟨it, its, h1, h2, h4, h5⟩ := r.iter start
    obtain ⟨it', h3, -⟩ := calls_same Rs (fun R' hR' => hview R' (hRs R' hR')) h2
    have he : its = items.filter (fun kv => decide (start.val ≤ kv.1.val)) := by
      refine sorted_ext h4 (hsorted.sorted.filter _) fun kv => ?_
      obtain ⟨k, x⟩ := kv
      rw [h5, List.mem_filter, hsorted.mem]
      simp
    subst he
    exact ⟨it, it', (C38_iteration_fails_or_agrees (hview R0 h0) v).1 start it h1, h3⟩

/-- The hypotheses are met: an iterator started before a commit and a purge, called once in between and twice after them. -/
example (H : Hasher) : ∃ y x z, Reached H Sample.ops y ∧ Sys.run H [.commit [[(Sample.key 0x80, none)]], .purge 4] y = .ok z ∧
    Sys.run H [.commit [[(Sample.key 0x80, none)]]] y = .ok x ∧ Readable (Sample.ops ++ [.commit [[(Sample.key 0x80, none)]], .purge 4]) 4 ∧
    ∀ R' ∈ [y.store.reader, x.store.reader, z.store.reader, z.store.reader],
      SeenDuring H y [.commit [[(Sample.key 0x80, none)]], .purge 4] R' := by
  obtain ⟨z', hz', -, -⟩ := Sys.run_ok H false (Sample.ops ++ [.commit [[(Sample.key 0x80, none)]], .purge 4]) (by decide) (by decide)
  obtain ⟨y, hy, hz⟩ := Reached.run_inv (⟨false, hz'⟩ : Reached H _ z')
  have hz0 := hz
  rw [show [Op.commit [[(Sample.key 0x80, none)]], .purge 4] = [Op.commit [[(Sample.key 0x80, none)]]] ++ [.purge 4] from rfl,
    Sys.run_append] at hz0
  obtain ⟨x, hx, -⟩ := bind_ok_inv hz0
  refine ⟨y, x, z', hy, hz, hx, by constructor <;> decide, fun R' hR' => ?_⟩
  simp only [List.mem_cons, List.not_mem_nil, or_false] at hR'
  rcases hR' with rfl | rfl | rfl | rfl
  · exact ⟨fun _ => ⟨0, y, rfl, rfl⟩, fun _ _ => ⟨0, y, rfl, rfl⟩⟩
  · exact ⟨fun _ => ⟨1, x, hx, rfl⟩, fun _ _ => ⟨1, x, hx, rfl⟩⟩
  · exact ⟨fun _ => ⟨2, z', hz, rfl⟩, fun _ _ => ⟨2, z', hz, rfl⟩⟩
  · exact ⟨fun _ => ⟨2, z', hz, rfl⟩, fun _ _ => ⟨2, z', hz, rfl⟩⟩

end Jmt

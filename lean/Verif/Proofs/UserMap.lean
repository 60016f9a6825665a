import Verif.Spec.UserMap
/-!
# The application's map and the map of hashed keys
-/
namespace Jmt
open Spec (UserMap userSets userMapAt userKeys Distinct)

variable {f : List UInt8 → Digest}

theorem setsOf_hashed (f : List UInt8 → Digest) (us : List UserOp) :
    setsOf (us.map (UserOp.hashed f)) = (userSets us).map (fun ws => ws.map (fun w => (f w.1, w.2))) := by
  induction us with
  | nil => rfl
  | cons u us ih =>
    cases u with
    | commit sets => simp [UserOp.hashed, setsOf, userSets, ih]
    | batch sets => simp [UserOp.hashed, setsOf, userSets, ih, someSet]
    | purge r => simp [UserOp.hashed, setsOf, userSets, ih]

theorem writes_flat (sets : List (List Spec.Write)) : ∀ (s : Spec.Map),
    sets.foldl Spec.Map.writes s = (sets.flatMap id).foldl Spec.Map.write s := by
  induction sets with
  | nil => intro s; rfl
  | cons ws sets ih =>
    intro s
    rw [List.foldl_cons, ih, List.flatMap_cons, List.foldl_append]
    rfl

theorem mapAt_hashed (us : List UserOp) (v : Nat) : mapAt (us.map (UserOp.hashed f)) v =
    ((((userSets us).take (v + 1)).flatMap id).map (fun w => (f w.1, w.2))).foldl Spec.Map.write Spec.Map.empty := by
  unfold mapAt Spec.stateAfter
  rw [setsOf_hashed, ← List.map_take, writes_flat]
  congr 1
  induction (userSets us).take (v + 1) with
  | nil => rfl
  | cons ws l ih => simp only [List.map_cons, List.flatMap_cons, id, List.map_append, ih]

theorem fold_agrees (k : List UInt8) : ∀ (ws : List (List UInt8 × Option Value)) (s : UserMap) (t : Spec.Map),
    (∀ w ∈ ws, f w.1 = f k → w.1 = k) → t (f k) = s k →
    ((ws.map (fun w => (f w.1, w.2))).foldl Spec.Map.write t) (f k) = (ws.foldl UserMap.write s) k := by
  intro ws
  induction ws with
  | nil => intro s t _ h; exact h
  | cons w ws ih =>
    intro s t hd h
    rw [List.map_cons, List.foldl_cons, List.foldl_cons]
    refine ih _ _ (fun w' hw' => hd w' (List.mem_cons_of_mem _ hw')) ?_
    unfold Spec.Map.write UserMap.write
    by_cases hk : k = w.1
    · rw [if_pos hk, if_pos (by rw [hk])]
    · rw [if_neg hk, if_neg (fun hc => hk (hd w (List.mem_cons_self ..) hc.symm).symm)]
      exact h

theorem fold_image : ∀ (ws : List (List UInt8 × Option Value)) (t : Spec.Map) (K : KeyHash),
    (∀ w ∈ ws, f w.1 ≠ K) → ((ws.map (fun w => (f w.1, w.2))).foldl Spec.Map.write t) K = t K := by
  intro ws
  induction ws with
  | nil => intro t K _; rfl
  | cons w ws ih =>
    intro t K h
    rw [List.map_cons, List.foldl_cons, ih _ _ (fun w' hw' => h w' (List.mem_cons_of_mem _ hw'))]
    unfold Spec.Map.write
    rw [if_neg (fun hc => h w (List.mem_cons_self ..) hc.symm)]

theorem mem_userKeys {us : List UserOp} {n : Nat} {w : List UInt8 × Option Value}
    (h : w ∈ ((userSets us).take n).flatMap id) : w.1 ∈ userKeys us := by
  unfold userKeys
  obtain ⟨ws, h1, h2⟩ := List.mem_flatMap.1 h
  exact List.mem_map_of_mem (List.mem_flatMap.2 ⟨ws, List.mem_of_mem_take h1, h2⟩)

theorem Spec.Distinct.cons_sub {ss ts : List (List UInt8)} {k : List UInt8} (h : Distinct f ss) (hk : k ∈ ss)
    (hs : ∀ a ∈ ts, a ∈ ss) : Distinct f (k :: ts) := by
  have : ∀ c ∈ k :: ts, c ∈ ss := by
    intro c hc
    rcases List.mem_cons.1 hc with rfl | hc
    · exact hk
    · exact hs c hc
  exact fun a ha b hb => h a (this a ha) b (this b hb)

/-- The map of hashed keys, read at the hash of a byte string, is the application's map. -/
theorem mapAt_user {us : List UserOp} {k : List UInt8} (hd : Distinct f (k :: userKeys us)) (v : Nat) :
    mapAt (us.map (UserOp.hashed f)) v (f k) = userMapAt us v k := by
  rw [mapAt_hashed]
  exact fold_agrees k _ _ _ (fun w hw h => hd _ (List.mem_cons_of_mem _ (mem_userKeys hw)) _ (List.mem_cons_self ..) h) rfl

/-- The map of hashed keys has no other keys. -/
theorem mapAt_hashed_key {us : List UserOp} {v : Nat} {K : KeyHash} (h : mapAt (us.map (UserOp.hashed f)) v K ≠ none) :
    ∃ k ∈ userKeys us, f k = K := by
  refine Classical.byContradiction fun hc => h ?_
  rw [mapAt_hashed, fold_image]
  · rfl
  · intro w hw he
    exact hc ⟨w.1, mem_userKeys hw, he⟩

theorem userMapAt_none {us : List UserOp} {k : List UInt8} (hk : k ∉ userKeys us) (v : Nat) : userMapAt us v k = none := by
  unfold userMapAt
  have : ∀ (ws : List (List UInt8 × Option Value)) (s : UserMap), (∀ w ∈ ws, w.1 ≠ k) → (ws.foldl UserMap.write s) k = s k := by
    intro ws
    induction ws with
    | nil => intro s _; rfl
    | cons w ws ih =>
      intro s h
      rw [List.foldl_cons, ih _ (fun w' hw' => h w' (List.mem_cons_of_mem _ hw'))]
      unfold UserMap.write
      rw [if_neg (fun hc => h w (List.mem_cons_self ..) hc.symm)]
  rw [this _ _ (fun w hw hc => hk (hc ▸ mem_userKeys hw))]

end Jmt

/-!
# Finite maps as association lists

Stand-in for `HashMap`/`BTreeMap`.  Keys are kept unique by construction (`insert` erases first);
the order of the list is unspecified, like hash-map iteration order, and no theorem depends on it.
-/
namespace Jmt

abbrev AMap (α β : Type) := List (α × β)

namespace AMap
variable {α β : Type} [DecidableEq α]

def get? : AMap α β → α → Option β
  | [], _ => none
  | (a, b) :: m, k => if a = k then some b else get? m k

def erase (m : AMap α β) (k : α) : AMap α β := m.filter (fun e => decide (e.1 ≠ k))

def insert (m : AMap α β) (k : α) (v : β) : AMap α β := (k, v) :: erase m k

/-- `extend`: insert the given pairs in iteration order. -/
def extend (m : AMap α β) (kvs : List (α × β)) : AMap α β :=
  kvs.foldl (fun m e => insert m e.1 e.2) m

/-- No key occurs twice. -/
def NodupKeys (m : AMap α β) : Prop := (m.map Prod.fst).Nodup

@[simp] theorem get?_nil (k : α) : get? ([] : AMap α β) k = none := rfl

theorem get?_erase (m : AMap α β) (k k' : α) :
    get? (erase m k) k' = if k = k' then none else get? m k' := by
  induction m with
  | nil => simp [erase]
  | cons e m ih =>
    obtain ⟨a, b⟩ := e
    unfold erase at *
    by_cases h : a = k
    · subst h
      simp only [List.filter_cons, ne_eq, not_true_eq_false, decide_false, Bool.false_eq_true,
        ↓reduceIte, get?, ih]
      split <;> rfl
    · simp only [List.filter_cons, ne_eq, h, not_false_eq_true, decide_true, ↓reduceIte, get?, ih]
      by_cases h2 : a = k'
      · subst h2; simp [Ne.symm h]
      · simp [h2]

@[simp] theorem get?_insert (m : AMap α β) (k k' : α) (v : β) :
    get? (insert m k v) k' = if k = k' then some v else get? m k' := by
  unfold insert
  simp only [get?, get?_erase]
  split <;> simp_all

theorem get?_eq_none_iff (m : AMap α β) (k : α) : get? m k = none ↔ k ∉ m.map Prod.fst := by
  induction m with
  | nil => simp
  | cons e m ih =>
    obtain ⟨a, b⟩ := e
    by_cases h : a = k
    · subst h; simp [get?]
    · simp [get?, h, ih, Ne.symm h]

theorem mem_of_get? {m : AMap α β} {k : α} {v : β} (h : get? m k = some v) : (k, v) ∈ m := by
  induction m with
  | nil => simp at h
  | cons e m ih =>
    obtain ⟨a, b⟩ := e
    unfold get? at h
    split at h
    · simp_all
    · simp [ih h]

theorem get?_of_mem {m : AMap α β} (hn : NodupKeys m) {k : α} {v : β} (h : (k, v) ∈ m) :
    get? m k = some v := by
  induction m with
  | nil => simp at h
  | cons e m ih =>
    obtain ⟨a, b⟩ := e
    simp only [NodupKeys, List.map_cons, List.nodup_cons] at hn
    rcases List.mem_cons.1 h with h | h
    · cases h; simp [get?]
    · have : a ≠ k := by
        rintro rfl
        exact hn.1 (List.mem_map.2 ⟨_, h, rfl⟩)
      simp [get?, this, ih hn.2 h]

theorem mem_iff_get? {m : AMap α β} (hn : NodupKeys m) {k : α} {v : β} :
    (k, v) ∈ m ↔ get? m k = some v := ⟨get?_of_mem hn, mem_of_get?⟩

theorem nodupKeys_nil : NodupKeys ([] : AMap α β) := by simp [NodupKeys]

theorem NodupKeys.erase {m : AMap α β} (h : NodupKeys m) (k : α) : NodupKeys (erase m k) := by
  unfold NodupKeys AMap.erase at *
  exact h.sublist (List.Sublist.map _ List.filter_sublist)

theorem NodupKeys.insert {m : AMap α β} (h : NodupKeys m) (k : α) (v : β) :
    NodupKeys (insert m k v) := by
  have := h.erase k
  unfold NodupKeys AMap.insert at *
  simp only [List.map_cons, List.nodup_cons, this, and_true]
  simp [AMap.erase]

theorem NodupKeys.extend {m : AMap α β} (h : NodupKeys m) (kvs : List (α × β)) :
    NodupKeys (extend m kvs) := by
  induction kvs generalizing m with
  | nil => simpa [AMap.extend]
  | cons e kvs ih => exact ih (h.insert _ _)

theorem get?_extend (m : AMap α β) {kvs : List (α × β)} (hn : NodupKeys kvs) (k : α) :
    get? (extend m kvs) k = match get? kvs k with | some v => some v | none => get? m k := by
  induction kvs generalizing m with
  | nil => simp [extend]
  | cons e kvs ih =>
    obtain ⟨a, b⟩ := e
    have hn' := hn
    simp only [NodupKeys, List.map_cons, List.nodup_cons] at hn
    show get? (extend (insert m a b) kvs) k = _
    rw [ih _ hn.2]
    by_cases h : a = k
    · subst h
      have : get? kvs a = none := (get?_eq_none_iff _ _).2 hn.1
      simp [this, get?]
    · simp [get?, h]

theorem erase_eq_self {m : AMap α β} {k : α} (h : get? m k = none) : erase m k = m := by
  rw [get?_eq_none_iff] at h
  unfold erase
  rw [List.filter_eq_self]
  intro e he
  simp only [ne_eq, decide_not, Bool.not_eq_eq_eq_not, Bool.not_true, decide_eq_false_iff_not]
  rintro rfl
  exact h (List.mem_map.2 ⟨e, he, rfl⟩)

theorem insert_of_none {m : AMap α β} {k : α} (h : get? m k = none) (v : β) :
    insert m k v = (k, v) :: m := by
  unfold insert; rw [erase_eq_self h]

/-- Erasing a present key drops exactly its pair: counts over the rest are unchanged. -/
theorem countP_erase {m : AMap α β} (hn : NodupKeys m) {k : α} {v : β} (h : get? m k = some v)
    (p : α × β → Bool) :
    (erase m k).countP p + (if p (k, v) then 1 else 0) = m.countP p := by
  induction m with
  | nil => simp at h
  | cons e m ih =>
    obtain ⟨a, b⟩ := e
    simp only [NodupKeys, List.map_cons, List.nodup_cons] at hn
    by_cases hk : a = k
    · subst hk
      simp only [get?, ↓reduceIte, Option.some.injEq] at h
      subst h
      have hnone : get? m a = none := (get?_eq_none_iff _ _).2 hn.1
      have : erase ((a, b) :: m) a = m := by
        show List.filter _ _ = _
        simp only [List.filter_cons]
        simp only [ne_eq, not_true_eq_false, decide_false, Bool.false_eq_true, ↓reduceIte]
        exact erase_eq_self hnone
      rw [this, List.countP_cons]
    · simp only [get?, hk, ↓reduceIte] at h
      have : erase ((a, b) :: m) k = (a, b) :: erase m k := by
        show List.filter _ _ = _
        simp [List.filter_cons, hk, erase]
      rw [this, List.countP_cons, List.countP_cons, ← ih hn.2 h]
      omega

theorem length_erase {m : AMap α β} (hn : NodupKeys m) {k : α} {v : β} (h : get? m k = some v) :
    (erase m k).length + 1 = m.length := by
  have := countP_erase hn h (fun _ => true)
  simpa using this

theorem eq_nil_iff (m : AMap α β) : m = [] ↔ ∀ k, get? m k = none := by
  constructor
  · rintro rfl; simp
  · intro h
    cases m with
    | nil => rfl
    | cons e m => have := h e.1; simp [get?] at this

end AMap
end Jmt

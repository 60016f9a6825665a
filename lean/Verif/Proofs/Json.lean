import Verif.Spec.Json
/-!
# Reading back what was written
-/
namespace Jmt.Serde

/-- No character that would have to be escaped. -/
def PlainChar (c : Char) : Prop := c ≠ '"' ∧ c ≠ '\\' ∧ ¬ c.toNat < 32

def Plain (s : String) : Prop := ∀ c ∈ s.toList, PlainChar c

instance (s : String) : Decidable (Plain s) := by unfold Plain PlainChar; infer_instance

mutual
/-- All strings in the value are plain. -/
def Json.Plain : Json → Prop
  | .null => True
  | .num _ => True
  | .str s => Serde.Plain s
  | .arr l => l.Plain
  | .obj l => l.Plain
def Elems.Plain : Elems → Prop
  | .nil => True
  | .cons j l => j.Plain ∧ l.Plain
def Fields.Plain : Fields → Prop
  | .nil => True
  | .cons k j l => Serde.Plain k ∧ j.Plain ∧ l.Plain
end

/-- The text does not go on with a digit. -/
def NoDigit (cs : List Char) : Prop := ∀ c, cs.head? = some c → c.isDigit = false

theorem parseStr_plain : ∀ (s rest : List Char), (∀ c ∈ s, PlainChar c) → parseStr (s ++ '"' :: rest) = some (s, rest) := by
  intro s rest
  induction s with
  | nil => intro _; simp [parseStr]
  | cons c s ih =>
    intro h
    have hc := h c (by simp)
    rw [List.cons_append]
    unfold parseStr
    rw [if_neg hc.1, if_neg (by rintro (h1 | h1); exact hc.2.1 h1; exact hc.2.2 h1), ih (fun d hd => h d (by simp [hd]))]
    rfl

theorem digitChar_digit {d : Nat} (h : d < 10) : (digitChar d).isDigit = true := by
  match d, h with
  | 0, _ | 1, _ | 2, _ | 3, _ | 4, _ | 5, _ | 6, _ | 7, _ | 8, _ | 9, _ => rfl

theorem digitChar_toNat {d : Nat} (h : d < 10) : (digitChar d).toNat - 48 = d := by
  match d, h with
  | 0, _ | 1, _ | 2, _ | 3, _ | 4, _ | 5, _ | 6, _ | 7, _ | 8, _ | 9, _ => rfl

theorem digitChar_zero {d : Nat} (h : d < 10) (h0 : digitChar d = '0') : d = 0 := by
  have := digitChar_toNat h
  rw [h0] at this
  exact this.symm

theorem digitsF_spec : ∀ (fuel n : Nat), n < fuel → (∀ c ∈ digitsF fuel n, c.isDigit = true) ∧ numValue (digitsF fuel n) = n ∧
    digitsF fuel n ≠ [] ∧ ((digitsF fuel n).head? = some '0' → n = 0 ∧ (digitsF fuel n).length = 1) := by
  intro fuel
  induction fuel with
  | zero => intro n h; omega
  | succ fuel ih =>
    intro n h
    unfold digitsF
    by_cases hn : n < 10
    · rw [if_pos hn]
      refine ⟨fun c hc => ?_, ?_, by simp, fun h0 => ?_⟩
      · rw [List.mem_singleton.1 hc]; exact digitChar_digit hn
      · unfold numValue; simp [digitChar_toNat hn]
      · simp only [List.head?_cons, Option.some.injEq] at h0
        exact ⟨digitChar_zero hn h0, rfl⟩
    · rw [if_neg hn]
      obtain ⟨h1, h2, h3, h4⟩ := ih (n / 10) (by omega)
      have hm : n % 10 < 10 := Nat.mod_lt _ (by omega)
      refine ⟨fun c hc => ?_, ?_, by simp, fun h0 => ?_⟩
      · rcases List.mem_append.1 hc with hc | hc
        · exact h1 c hc
        · rw [List.mem_singleton.1 hc]; exact digitChar_digit hm
      · unfold numValue at h2 ⊢
        rw [List.foldl_append, h2]
        simp only [List.foldl_cons, List.foldl_nil, digitChar_toNat hm]
        omega
      · exfalso
        have : (digitsF fuel (n / 10)).head? = some '0' := by
          cases hd : digitsF fuel (n / 10) with
          | nil => exact absurd hd h3
          | cons a t => rw [hd] at h0; exact h0
        have := (h4 this).1
        omega

theorem takeWhile_all {α : Type} {p : α → Bool} : ∀ (l r : List α), (∀ c ∈ l, p c = true) → (∀ c, r.head? = some c → p c = false) →
    (l ++ r).takeWhile p = l ∧ (l ++ r).dropWhile p = r := by
  intro l r
  induction l with
  | nil =>
    intro _ hr
    cases r with
    | nil => exact ⟨rfl, rfl⟩
    | cons c r =>
      have := hr c rfl
      simp [this]
  | cons c l ih =>
    intro hl hr
    have hc := hl c (by simp)
    obtain ⟨h1, h2⟩ := ih (fun d hd => hl d (by simp [hd])) hr
    simp [hc, h1, h2]

theorem parseNum_digits (n : Nat) {rest : List Char} (h : NoDigit rest) : parseNum (digits n ++ rest) = some (n, rest) := by
  obtain ⟨h1, h2, h3, h4⟩ := digitsF_spec (n + 1) n (by omega)
  obtain ⟨a, b⟩ := takeWhile_all (digitsF (n + 1) n) rest h1 h
  unfold parseNum digits
  simp only [a, b]
  rw [if_neg, h2]
  rintro (hc | ⟨hc, hd⟩)
  · exact h3 hc
  · exact hd (h4 hc).2

theorem digit_not {c : Char} (h : c.isDigit = true) : isSpace c = false ∧ c ≠ 'n' ∧ c ≠ '"' ∧ c ≠ '[' ∧ c ≠ '{' := by
  refine ⟨?_, ?_, ?_, ?_, ?_⟩
  · cases hs : isSpace c with
    | false => rfl
    | true =>
      unfold isSpace at hs
      simp only [Bool.or_eq_true, beq_iff_eq] at hs
      rcases hs with ((hs | hs) | hs) | hs <;> (rw [hs] at h; exact absurd h (by decide))
  all_goals (rintro rfl; exact absurd h (by decide))

theorem digits_head (n : Nat) : ∃ c t, digits n = c :: t ∧ c.isDigit = true := by
  obtain ⟨h1, -, h3, -⟩ := digitsF_spec (n + 1) n (by omega)
  unfold digits
  cases hd : digitsF (n + 1) n with
  | nil => exact absurd hd h3
  | cons c t => exact ⟨c, t, rfl, h1 c (by rw [hd]; simp)⟩

theorem skip_cons {c : Char} {cs : List Char} (h : isSpace c = false) : skip (c :: cs) = c :: cs := by
  unfold skip; simp [h]

/-- A text starts with a character that is neither white space nor a closing bracket. -/
theorem print_head (j : Json) : ∃ c t, j.print = c :: t ∧ isSpace c = false ∧ c ≠ ']' ∧ c ≠ '}' := by
  cases j with
  | null => exact ⟨'n', ['u', 'l', 'l'], rfl, rfl, by decide, by decide⟩
  | num n =>
    obtain ⟨c, t, h, hd⟩ := digits_head n
    refine ⟨c, t, h, (digit_not hd).1, ?_, ?_⟩ <;> (rintro rfl; exact absurd hd (by decide))
  | str s => exact ⟨'"', _, rfl, rfl, by decide, by decide⟩
  | arr l => cases l with
    | nil => exact ⟨'[', _, rfl, rfl, by decide, by decide⟩
    | cons j l => exact ⟨'[', _, rfl, rfl, by decide, by decide⟩
  | obj l => cases l with
    | nil => exact ⟨'{', _, rfl, rfl, by decide, by decide⟩
    | cons k j l => exact ⟨'{', _, rfl, rfl, by decide, by decide⟩

theorem elems_noDigit (l : Elems) (rest : List Char) : NoDigit (l.print ++ rest) := by
  intro c h
  cases l with
  | nil => cases h; rfl
  | cons j l => cases h; rfl

theorem fields_noDigit (l : Fields) (rest : List Char) : NoDigit (l.print ++ rest) := by
  intro c h
  cases l with
  | nil => cases h; rfl
  | cons k j l => cases h; rfl

theorem parseEntry_step {n : Nat} {k : String} {j : Json} {cs rest : List Char} (hk : Plain k)
    (h : parseVal n cs = some (j, rest)) : parseEntry (n + 1) ('"' :: (k.toList ++ '"' :: ':' :: cs)) = some (k, j, rest) := by
  unfold parseEntry
  rw [skip_cons (by rfl)]
  simp only [if_true]
  rw [parseStr_plain _ _ hk]
  simp only [Option.bind_eq_bind, Option.bind_some]
  rw [skip_cons (by rfl)]
  simp only [h, Option.bind_some, String.ofList_toList]

mutual
theorem parseVal_print : ∀ (j : Json), j.Plain → ∀ (n : Nat) (rest : List Char), 2 * j.print.length < n → NoDigit rest →
    parseVal n (j.print ++ rest) = some (j, rest)
  | .null, _, n + 1, rest, _, _ => by
    show parseVal (n + 1) ('n' :: 'u' :: 'l' :: 'l' :: rest) = _
    unfold parseVal
    rw [skip_cons (by rfl)]
    rfl
  | .num k, _, n + 1, rest, _, hr => by
    obtain ⟨c, t, hd, hc⟩ := digits_head k
    have hp := parseNum_digits k hr
    show parseVal (n + 1) (digits k ++ rest) = _
    rw [hd, List.cons_append] at hp ⊢
    obtain ⟨h1, h2, h3, h4, h5⟩ := digit_not hc
    unfold parseVal
    rw [skip_cons h1]
    simp only []
    rw [if_neg h2, if_neg h3, if_neg h4, if_neg h5, hp]
    rfl
  | .str s, hs, n + 1, rest, _, _ => by
    show parseVal (n + 1) ('"' :: ((s.toList ++ ['"']) ++ rest)) = _
    unfold parseVal
    rw [skip_cons (by rfl)]
    simp only []
    rw [if_neg (by decide), if_pos trivial, List.append_assoc, List.singleton_append, parseStr_plain _ _ hs]
    simp
  | .arr .nil, _, n + 1, rest, _, _ => by
    show parseVal (n + 1) ('[' :: ']' :: rest) = _
    unfold parseVal
    rw [skip_cons (by rfl)]
    simp only []
    rw [if_neg (by decide), if_neg (by decide), if_pos trivial, skip_cons (by rfl)]
    rfl
  | .arr (.cons j l), hp, n + 1, rest, hn, hr => by
    have hn' : 2 * (j.print.length + l.print.length + 1) < n + 1 := by
      have : (Json.arr (.cons j l)).print.length = j.print.length + l.print.length + 1 := by
        show ('[' :: (j.print ++ l.print)).length = _
        simp
      omega
    show parseVal (n + 1) ('[' :: ((j.print ++ l.print) ++ rest)) = _
    unfold parseVal
    rw [skip_cons (by rfl)]
    simp only []
    rw [if_neg (by decide), if_neg (by decide), if_pos trivial, List.append_assoc]
    obtain ⟨c, t, h1, h2, h3, -⟩ := print_head j
    rw [if_neg (by rw [h1, List.cons_append, skip_cons h2]; simp [h3])]
    rw [parseVal_print j hp.1 n _ (by omega) (elems_noDigit l rest)]
    simp only [Option.bind_eq_bind, Option.bind_some]
    rw [parseElems_print l hp.2 n rest (by omega) hr]
    rfl
  | .obj .nil, _, n + 1, rest, _, _ => by
    show parseVal (n + 1) ('{' :: '}' :: rest) = _
    unfold parseVal
    rw [skip_cons (by rfl)]
    simp only []
    rw [if_neg (by decide), if_neg (by decide), if_neg (by decide), if_pos trivial, skip_cons (by rfl)]
    rfl
  | .obj (.cons k j l), hp, n + 1, rest, hn, hr => by
    have hn' : 2 * (k.toList.length + j.print.length + l.print.length + 4) < n + 1 := by
      have : (Json.obj (.cons k j l)).print.length = k.toList.length + j.print.length + l.print.length + 4 := by
        show ('{' :: '"' :: (k.toList ++ '"' :: ':' :: (j.print ++ l.print))).length = _
        simp only [List.length_cons, List.length_append]; omega
      omega
    have he : (Json.obj (.cons k j l)).print ++ rest = '{' :: '"' :: (k.toList ++ '"' :: ':' :: (j.print ++ (l.print ++ rest))) := by
      show ('{' :: '"' :: (k.toList ++ '"' :: ':' :: (j.print ++ l.print))) ++ rest = _
      simp
    rw [he]
    unfold parseVal
    rw [skip_cons (by rfl)]
    simp only []
    rw [if_neg (by decide), if_neg (by decide), if_neg (by decide), if_pos trivial]
    rw [if_neg (by rw [skip_cons (by rfl)]; simp)]
    obtain ⟨m, rfl⟩ : ∃ m, n = m + 1 := ⟨n - 1, by omega⟩
    rw [parseEntry_step hp.1 (parseVal_print j hp.2.1 m _ (by omega) (fields_noDigit l rest))]
    simp only [Option.bind_eq_bind, Option.bind_some]
    rw [parseFields_print l hp.2.2 (m + 1) rest (by omega) hr]
    rfl
theorem parseElems_print : ∀ (l : Elems), l.Plain → ∀ (n : Nat) (rest : List Char), 2 * l.print.length < n → NoDigit rest →
    parseElems n (l.print ++ rest) = some (l, rest)
  | .nil, _, n + 1, rest, _, _ => by
    show parseElems (n + 1) (']' :: rest) = _
    unfold parseElems
    rw [skip_cons (by rfl)]
    rfl
  | .cons j l, hp, n + 1, rest, hn, hr => by
    have hn' : 2 * (j.print.length + l.print.length + 1) < n + 1 := by
      have : (Elems.cons j l).print.length = j.print.length + l.print.length + 1 := by
        show (',' :: (j.print ++ l.print)).length = _
        simp
      omega
    show parseElems (n + 1) (',' :: ((j.print ++ l.print) ++ rest)) = _
    unfold parseElems
    rw [skip_cons (by rfl)]
    simp only []
    rw [if_neg (by decide), if_pos trivial, List.append_assoc, parseVal_print j hp.1 n _ (by omega) (elems_noDigit l rest)]
    simp only [Option.bind_eq_bind, Option.bind_some]
    rw [parseElems_print l hp.2 n rest (by omega) hr]
    rfl
theorem parseFields_print : ∀ (l : Fields), l.Plain → ∀ (n : Nat) (rest : List Char), 2 * l.print.length < n → NoDigit rest →
    parseFields n (l.print ++ rest) = some (l, rest)
  | .nil, _, n + 1, rest, _, _ => by
    show parseFields (n + 1) ('}' :: rest) = _
    unfold parseFields
    rw [skip_cons (by rfl)]
    rfl
  | .cons k j l, hp, n + 1, rest, hn, hr => by
    have hn' : 2 * (k.toList.length + j.print.length + l.print.length + 4) < n + 1 := by
      have : (Fields.cons k j l).print.length = k.toList.length + j.print.length + l.print.length + 4 := by
        show (',' :: '"' :: (k.toList ++ '"' :: ':' :: (j.print ++ l.print))).length = _
        simp only [List.length_cons, List.length_append]; omega
      omega
    have he : (Fields.cons k j l).print ++ rest = ',' :: '"' :: (k.toList ++ '"' :: ':' :: (j.print ++ (l.print ++ rest))) := by
      show (',' :: '"' :: (k.toList ++ '"' :: ':' :: (j.print ++ l.print))) ++ rest = _
      simp
    rw [he]
    unfold parseFields
    rw [skip_cons (by rfl)]
    simp only []
    rw [if_neg (by decide), if_pos trivial]
    obtain ⟨m, rfl⟩ : ∃ m, n = m + 1 := ⟨n - 1, by omega⟩
    rw [parseEntry_step hp.1 (parseVal_print j hp.2.1 m _ (by omega) (fields_noDigit l rest))]
    simp only [Option.bind_eq_bind, Option.bind_some]
    rw [parseFields_print l hp.2.2 (m + 1) rest (by omega) hr]
    rfl
end

/-- **What is written is read back.** -/
theorem parse_print {j : Json} (hj : j.Plain) : parse j.print = some j := by
  unfold parse
  have h := parseVal_print j hj (2 * j.print.length + 1) [] (by omega) (by intro c h; cases h)
  rw [List.append_nil] at h
  rw [h]
  rfl

end Jmt.Serde

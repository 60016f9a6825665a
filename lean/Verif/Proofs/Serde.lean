import Verif.Proofs.Json
import Verif.Model.Serde
/-!
# Round trips of the serde forms
-/
namespace Jmt.Serde

/-- What is written is read back, and no string has to be escaped. -/
structure Lawful {α : Type} (f : Form α) : Prop where
  back : ∀ {a j}, f.enc a = some j → f.dec j = some a
  plain : ∀ {a j}, f.enc a = some j → j.Plain

theorem Elems.toList_ofList (l : List Json) : (Elems.ofList l).toList = l := by
  induction l with
  | nil => rfl
  | cons j l ih => simp [Elems.ofList, Elems.toList, ih]

theorem Fields.toList_ofList (l : List (String × Json)) : (Fields.ofList l).toList = l := by
  induction l with
  | nil => rfl
  | cons e l ih => obtain ⟨k, j⟩ := e; simp [Fields.ofList, Fields.toList, ih]

theorem Fields.ofList_toList (l : Fields) : Fields.ofList l.toList = l := by
  match l with
  | .nil => rfl
  | .cons k j l => simp only [Fields.toList, Fields.ofList, Fields.ofList_toList l]

theorem Elems.plain_ofList {l : List Json} (h : ∀ j ∈ l, j.Plain) : (Elems.ofList l).Plain := by
  induction l with
  | nil => trivial
  | cons j l ih => exact ⟨h j (by simp), ih fun j hj => h j (by simp [hj])⟩

theorem Fields.plain_ofList {l : List (String × Json)} (h : ∀ e ∈ l, Serde.Plain e.1 ∧ e.2.Plain) : (Fields.ofList l).Plain := by
  induction l with
  | nil => trivial
  | cons e l ih => exact ⟨(h e (by simp)).1, (h e (by simp)).2, ih fun j hj => h j (by simp [hj])⟩

theorem Lawful.text {α : Type} {f : Form α} (h : Lawful f) {a : α} {t : List Char} (ht : f.toText a = some t) :
    f.fromText t = some a := by
  unfold Form.toText at ht
  cases hj : f.enc a with
  | none => rw [hj] at ht; cases ht
  | some j =>
    rw [hj] at ht
    cases ht
    unfold Form.fromText
    rw [parse_print (h.plain hj)]
    exact h.back hj

theorem uint_lawful (b : Nat) : Lawful (uint b) where
  back {a j} h := by
    simp only [uint] at h
    split at h
    · cases h; simp only [uint]; rw [if_pos (by assumption)]
    · cases h
  plain {a j} h := by
    simp only [uint] at h
    split at h
    · cases h; trivial
    · cases h

theorem u8_lawful : Lawful u8 where
  back {a j} h := by
    cases h
    simp only [u8]
    rw [if_pos a.toNat_lt, UInt8.ofNat_toNat]
  plain {a j} h := by cases h; trivial

theorem phantom_lawful : Lawful phantom where
  back {a j} h := by cases h; rfl
  plain {a j} h := by cases h; trivial

/-- Nothing is written as `null`. -/
def NotNull {α : Type} (f : Form α) : Prop := ∀ a, f.enc a ≠ some .null

theorem option_lawful {α : Type} {f : Form α} (h : Lawful f) (hn : NotNull f) : Lawful (option f) where
  back {a j} he := by
    cases a with
    | none => cases he; rfl
    | some a =>
      have he' : f.enc a = some j := he
      have hb := h.back he'
      cases j with
      | null => exact absurd he' (hn a)
      | _ => simp only [option, hb]; rfl
  plain {a j} he := by
    cases a with
    | none => cases he; trivial
    | some a => exact h.plain (show f.enc a = some j from he)

theorem all_back {α : Type} {f : Form α} (h : Lawful f) : ∀ {l : List α} {js}, all f.enc l = some js →
    all f.dec js = some l ∧ js.length = l.length ∧ ∀ j ∈ js, j.Plain := by
  intro l
  induction l with
  | nil => intro js hj; cases hj; exact ⟨rfl, rfl, by simp⟩
  | cons a l ih =>
    intro js hj
    simp only [all, Option.bind_eq_bind, Option.bind_eq_some_iff] at hj
    obtain ⟨j, h1, js', h2, h3⟩ := hj
    cases h3
    obtain ⟨i1, i2, i3⟩ := ih h2
    refine ⟨by simp only [all, h.back h1, i1, Option.bind_eq_bind, Option.bind_some], by simp [i2], ?_⟩
    intro x hx
    rcases List.mem_cons.1 hx with rfl | hx
    · exact h.plain h1
    · exact i3 x hx

theorem vec_lawful {α : Type} {f : Form α} (h : Lawful f) : Lawful (vec f) where
  back {a j} he := by
    simp only [vec, Option.map_eq_some_iff] at he
    obtain ⟨js, h1, rfl⟩ := he
    show all f.dec (Elems.ofList js).toList = _
    rw [Elems.toList_ofList]
    exact (all_back h h1).1
  plain {a j} he := by
    simp only [vec, Option.map_eq_some_iff] at he
    obtain ⟨js, h1, rfl⟩ := he
    exact Elems.plain_ofList (all_back h h1).2.2

theorem array_lawful {α : Type} {n : Nat} {f : Form α} (h : Lawful f) : Lawful (array n f) where
  back {a j} he := by
    have hb := (vec_lawful h).back (show (vec f).enc (List.ofFn a) = some j from he)
    simp only [array, hb, Option.bind_eq_bind, Option.bind_some]
    rw [dif_pos (by simp)]
    simp
  plain {a j} he := (vec_lawful h).plain (show (vec f).enc (List.ofFn a) = some j from he)

theorem bytes32_lawful : Lawful bytes32 where
  back {a j} he := by
    have hb := (vec_lawful u8_lawful).back (show (vec u8).enc a.val = some j from he)
    simp only [bytes32, hb, Option.bind_eq_bind, Option.bind_some]
    rw [dif_pos a.property]
  plain {a j} he := (vec_lawful u8_lawful).plain (show (vec u8).enc a.val = some j from he)

theorem iso_lawful {α β : Type} {c : Form α} {f : α → β} {g : β → α} (h : Lawful c) (hfg : ∀ b, f (g b) = b) :
    Lawful (iso c f g) where
  back {a j} he := by
    have hb := h.back (show c.enc (g a) = some j from he)
    simp only [iso, hb, Option.map_some, hfg]
  plain {a j} he := h.plain (show c.enc (g a) = some j from he)

/-- The same for fields. -/
structure LawfulRec {α : Type} (r : Rec α) : Prop where
  back : ∀ {a js}, r.enc a = some js → js.length = r.names.length ∧ r.dec (js.map some) = some a ∧ ∀ j ∈ js, j.Plain
  names : ∀ n ∈ r.names, Plain n

theorem field_lawful {α : Type} {f : Form α} {name : String} (h : Lawful f) (hn : Plain name) : LawfulRec (field name f) where
  back {a js} he := by
    simp only [field, Option.map_eq_some_iff] at he
    obtain ⟨j, h1, rfl⟩ := he
    exact ⟨rfl, h.back h1, by intro x hx; rw [List.mem_singleton.1 hx]; exact h.plain h1⟩
  names n hn' := by
    rw [List.mem_singleton.1 hn']; exact hn

theorem and_lawful {α β : Type} {r : Rec α} {s : Rec β} (hr : LawfulRec r) (hs : LawfulRec s) : LawfulRec (r.and s) where
  back {a js} he := by
    simp only [Rec.and, Option.bind_eq_bind, Option.bind_eq_some_iff] at he
    obtain ⟨x, h1, y, h2, h3⟩ := he
    cases h3
    obtain ⟨l1, d1, p1⟩ := hr.back h1
    obtain ⟨l2, d2, p2⟩ := hs.back h2
    refine ⟨by simp [Rec.and, l1, l2], ?_, ?_⟩
    · have e1 : ((x ++ y).map some).take r.names.length = x.map some := by
        rw [List.map_append, List.take_left' (by simp [l1])]
      have e2 : ((x ++ y).map some).drop r.names.length = y.map some := by
        rw [List.map_append, List.drop_left' (by simp [l1])]
      simp only [Rec.and, e1, e2, d1, d2, Option.bind_eq_bind, Option.bind_some]
    · intro j hj
      rcases List.mem_append.1 hj with hj | hj
      · exact p1 j hj
      · exact p2 j hj
  names n hn := by
    rcases List.mem_append.1 hn with hn | hn
    · exact hr.names n hn
    · exact hs.names n hn

theorem lookup_cons_ne {name k : String} {j : Json} {l : List (String × Json)} (h : k ≠ name) :
    lookup name ((k, j) :: l) = lookup name l := by
  unfold lookup
  rw [List.filter_cons_of_neg (by simpa using h)]

theorem lookup_absent {name : String} {l : List (String × Json)} (h : name ∉ l.map (·.1)) : lookup name l = some none := by
  unfold lookup
  rw [List.filter_eq_nil_iff.2]
  intro e he hn
  exact h (List.mem_map.2 ⟨e, he, by simpa using hn⟩)

theorem lookup_head {name : String} {j : Json} {l : List (String × Json)} (h : name ∉ l.map (·.1)) :
    lookup name ((name, j) :: l) = some (some j) := by
  have hl : l.filter (fun e => decide (e.1 = name)) = [] := by
    rw [List.filter_eq_nil_iff]
    intro e he hn
    exact h (List.mem_map.2 ⟨e, he, by simpa using hn⟩)
  unfold lookup
  rw [List.filter_cons_of_pos (by simp), hl]

theorem lookups : ∀ (names : List String) (js : List Json), names.Nodup → js.length = names.length →
    all (fun n => lookup n (names.zip js)) names = some (js.map some) := by
  suffices h : ∀ (pre : List (String × Json)) (names : List String) (js : List Json), names.Nodup → js.length = names.length →
      (∀ e ∈ pre, e.1 ∉ names) → all (fun n => lookup n (pre ++ names.zip js)) names = some (js.map some) from
    fun names js hn hl => h [] names js hn hl (by simp)
  intro pre names
  induction names generalizing pre with
  | nil => intro js _ hl _; cases js with
    | nil => rfl
    | cons j js => cases hl
  | cons n names ih =>
    intro js hn hl hp
    cases js with
    | nil => cases hl
    | cons j js =>
      obtain ⟨hn1, hn2⟩ := List.nodup_cons.1 hn
      have hlen : js.length = names.length := by simpa using hl
      have hrest := ih (pre ++ [(n, j)]) js hn2 hlen (by
        intro e he
        rcases List.mem_append.1 he with he | he
        · exact fun hm => hp e he (by simp [hm])
        · rw [List.mem_singleton.1 he]; exact hn1)
      rw [List.append_assoc, List.singleton_append] at hrest
      have hfirst : lookup n (pre ++ (n, j) :: names.zip js) = some (some j) := by
        have hpre : pre.filter (fun e => decide (e.1 = n)) = [] := by
          rw [List.filter_eq_nil_iff]
          intro e he hne
          exact hp e he (by simp [show e.1 = n by simpa using hne])
        have hz : n ∉ (names.zip js).map (·.1) := by
          intro hm
          obtain ⟨e, he, rfl⟩ := List.mem_map.1 hm
          exact hn1 (List.of_mem_zip he).1
        have := lookup_head (j := j) hz
        unfold lookup at this ⊢
        rw [List.filter_append, hpre, List.nil_append]
        exact this
      simp only [all, List.zip_cons_cons, hfirst, hrest, Option.bind_eq_bind, Option.bind_some, List.map_cons]

theorem struct_lawful {α : Type} {r : Rec α} (h : LawfulRec r) (hn : r.names.Nodup) : Lawful (struct r) where
  back {a j} he := by
    simp only [struct, Option.map_eq_some_iff] at he
    obtain ⟨js, h1, rfl⟩ := he
    obtain ⟨hl, hd, -⟩ := h.back h1
    simp only [struct, Fields.toList_ofList, lookups r.names js hn hl, Option.bind_eq_bind, Option.bind_some, hd]
  plain {a j} he := by
    simp only [struct, Option.map_eq_some_iff] at he
    obtain ⟨js, h1, rfl⟩ := he
    refine Fields.plain_ofList fun e he => ?_
    exact ⟨h.names _ (List.of_mem_zip he).1, (h.back h1).2.2 _ (List.of_mem_zip he).2⟩

theorem struct_notNull {α : Type} (r : Rec α) : NotNull (struct r) := by
  intro a h
  simp only [struct, Option.map_eq_some_iff] at h
  obtain ⟨js, -, h2⟩ := h
  cases h2

theorem iso_notNull {α β : Type} {c : Form α} (f : α → β) (g : β → α) (h : NotNull c) : NotNull (iso c f g) := fun b => h (g b)

theorem nibblePath_lawful : Lawful nibblePath :=
  iso_lawful (struct_lawful (and_lawful (field_lawful (uint_lawful _) (by decide)) (field_lawful (vec_lawful u8_lawful) (by decide)))
    (by decide)) (fun _ => rfl)

theorem nodeKey_lawful : Lawful nodeKey :=
  iso_lawful (struct_lawful (and_lawful (field_lawful (uint_lawful _) (by decide)) (field_lawful nibblePath_lawful (by decide)))
    (by decide)) (fun _ => rfl)

theorem leafCountField_lawful : Lawful leafCountField := struct_lawful (field_lawful (uint_lawful _) (by decide)) (by decide)

theorem nodeType_lawful : Lawful nodeType where
  back {a j} he := by
    cases a with
    | leaf => cases he; rfl
    | internal n =>
      simp only [nodeType, Option.map_eq_some_iff] at he
      obtain ⟨c, h1, rfl⟩ := he
      have hb := leafCountField_lawful.back h1
      simp [nodeType, tagged, variant, hb]
  plain {a j} he := by
    cases a with
    | leaf => cases he; exact (by decide : Plain "Leaf")
    | internal n =>
      simp only [nodeType, Option.map_eq_some_iff] at he
      obtain ⟨c, h1, rfl⟩ := he
      exact ⟨(by decide : Plain "Internal"), leafCountField_lawful.plain h1, trivial⟩

theorem child_lawful : Lawful child :=
  iso_lawful (struct_lawful (and_lawful (field_lawful bytes32_lawful (by decide)) (and_lawful (field_lawful (uint_lawful _) (by decide))
    (field_lawful nodeType_lawful (by decide)))) (by decide)) (fun _ => rfl)

theorem children_lawful : Lawful children :=
  iso_lawful (struct_lawful (and_lawful (field_lawful (array_lawful (option_lawful child_lawful (iso_notNull _ _ (struct_notNull _))))
    (by decide)) (field_lawful (uint_lawful _) (by decide))) (by decide)) (fun _ => rfl)

theorem internalNode_lawful : Lawful internalNode :=
  iso_lawful (struct_lawful (and_lawful (field_lawful children_lawful (by decide)) (field_lawful (uint_lawful _) (by decide)))
    (by decide)) (fun _ => rfl)

theorem leafPair_lawful : Lawful leafPair :=
  struct_lawful (and_lawful (field_lawful bytes32_lawful (by decide)) (field_lawful bytes32_lawful (by decide))) (by decide)

theorem leafNode_lawful : Lawful leafNode := iso_lawful leafPair_lawful (fun _ => rfl)

theorem node_lawful : Lawful node where
  back {a j} he := by
    cases a with
    | null => cases he; rfl
    | internal n =>
      simp only [node, Option.map_eq_some_iff] at he
      obtain ⟨c, h1, rfl⟩ := he
      have hb := internalNode_lawful.back h1
      simp [node, tagged, variant, hb]
    | leaf n =>
      simp only [node, Option.map_eq_some_iff] at he
      obtain ⟨c, h1, rfl⟩ := he
      have hb := leafNode_lawful.back h1
      simp [node, tagged, variant, hb]
  plain {a j} he := by
    cases a with
    | null => cases he; exact (by decide : Plain "Null")
    | internal n =>
      simp only [node, Option.map_eq_some_iff] at he
      obtain ⟨c, h1, rfl⟩ := he
      exact ⟨(by decide : Plain "Internal"), internalNode_lawful.plain h1, trivial⟩
    | leaf n =>
      simp only [node, Option.map_eq_some_iff] at he
      obtain ⟨c, h1, rfl⟩ := he
      exact ⟨(by decide : Plain "Leaf"), leafNode_lawful.plain h1, trivial⟩

theorem childHashes_lawful : Lawful childHashes :=
  struct_lawful (and_lawful (field_lawful bytes32_lawful (by decide)) (field_lawful bytes32_lawful (by decide))) (by decide)

theorem smNode_lawful : Lawful smNode where
  back {a j} he := by
    cases a with
    | null => cases he; rfl
    | internal l r =>
      simp only [smNode, Option.map_eq_some_iff] at he
      obtain ⟨c, h1, rfl⟩ := he
      have hb := childHashes_lawful.back h1
      simp [smNode, tagged, variant, hb]
    | leaf l r =>
      simp only [smNode, Option.map_eq_some_iff] at he
      obtain ⟨c, h1, rfl⟩ := he
      have hb := leafPair_lawful.back h1
      simp [smNode, tagged, variant, hb]
  plain {a j} he := by
    cases a with
    | null => cases he; exact (by decide : Plain "Null")
    | internal l r =>
      simp only [smNode, Option.map_eq_some_iff] at he
      obtain ⟨c, h1, rfl⟩ := he
      exact ⟨(by decide : Plain "Internal"), childHashes_lawful.plain h1, trivial⟩
    | leaf l r =>
      simp only [smNode, Option.map_eq_some_iff] at he
      obtain ⟨c, h1, rfl⟩ := he
      exact ⟨(by decide : Plain "Leaf"), leafPair_lawful.plain h1, trivial⟩

theorem smProofFields_lawful : LawfulRec smProofFields :=
  and_lawful (field_lawful (option_lawful leafPair_lawful (struct_notNull _)) (by decide)) (and_lawful
    (field_lawful (vec_lawful smNode_lawful) (by decide)) (field_lawful phantom_lawful (by decide)))

theorem smProof_lawful : Lawful smProof := iso_lawful (struct_lawful smProofFields_lawful (by decide)) (fun _ => rfl)

theorem updateProof_lawful : Lawful updateProof := vec_lawful smProof_lawful

theorem rangeProof_lawful : Lawful rangeProof :=
  iso_lawful (struct_lawful (and_lawful (field_lawful (vec_lawful smNode_lawful) (by decide)) (field_lawful phantom_lawful (by decide)))
    (by decide)) (fun _ => rfl)

end Jmt.Serde

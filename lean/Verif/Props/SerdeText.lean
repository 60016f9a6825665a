import Verif.Props.Serde
import Verif.Spec.SerdeText
/-!
# Property C68: the JSON text of every type
-/
namespace Jmt
open Serde Spec.JsonText

variable {H : Hasher} {ops : List Op} {y : Sys}

namespace Serde

/-- What is written for `a` prints as `g a`. -/
def Prints {α : Type} (f : Form α) (g : α → List Char) : Prop := ∀ a j, f.enc a = some j → j.print = g a

theorem elems_print : ∀ (j : Json) (l : List Json),
    j.print ++ (Elems.ofList l).print = commaSep ((j :: l).map Json.print) ++ [']'] := by
  intro j l
  induction l generalizing j with
  | nil => rfl
  | cons k l ih =>
    show j.print ++ ',' :: (k.print ++ (Elems.ofList l).print) = _
    rw [ih]
    simp [commaSep]

theorem arr_print (l : List Json) : (Json.arr (.ofList l)).print = arr (l.map Json.print) := by
  cases l with
  | nil => rfl
  | cons j l =>
    show '[' :: (j.print ++ (Elems.ofList l).print) = _
    rw [elems_print]; rfl

theorem fields_print : ∀ (k : String) (j : Json) (l : List (String × Json)),
    '"' :: (k.toList ++ '"' :: ':' :: (j.print ++ (Fields.ofList l).print)) =
      commaSep (((k, j) :: l).map fun e => '"' :: (e.1.toList ++ '"' :: ':' :: e.2.print)) ++ ['}'] := by
  intro k j l
  induction l generalizing k j with
  | nil => simp [commaSep, Fields.ofList, Fields.print]
  | cons e l ih =>
    have := ih e.1 e.2
    simp only [List.map_cons, commaSep, Fields.ofList, Fields.print, List.append_assoc, List.cons_append] at this ⊢
    rw [this]

theorem obj_print (l : List (String × Json)) : (Json.obj (.ofList l)).print = obj (l.map fun e => (e.1, e.2.print)) := by
  cases l with
  | nil => rfl
  | cons e l =>
    show '{' :: '"' :: (e.1.toList ++ '"' :: ':' :: (e.2.print ++ (Fields.ofList l).print)) = _
    rw [fields_print]
    simp [obj, Function.comp_def]

theorem uint_prints (b : Nat) : Prints (uint b) digits := by
  intro a j h
  simp only [uint] at h
  split at h
  · cases h; rfl
  · cases h

theorem all_prints {α : Type} {f : Form α} {g : α → List Char} (h : Prints f g) : ∀ (l : List α) js, all f.enc l = some js →
    js.map Json.print = l.map g := by
  intro l
  induction l with
  | nil => intro js hj; cases hj; rfl
  | cons a l ih =>
    intro js hj
    simp only [all, Option.bind_eq_bind, Option.bind_eq_some_iff] at hj
    obtain ⟨x, hx, xs, hxs, he⟩ := hj
    cases he
    simp [h a x hx, ih xs hxs]

theorem vec_prints {α : Type} {f : Form α} {g : α → List Char} (h : Prints f g) : Prints (vec f) fun l => arr (l.map g) := by
  intro l j hj
  simp only [vec, Option.map_eq_some_iff] at hj
  obtain ⟨js, hjs, rfl⟩ := hj
  rw [arr_print, all_prints h l js hjs]

theorem u8_prints : Prints u8 fun b => digits b.toNat := by
  intro a j h; cases h; rfl

theorem phantom_prints : Prints phantom fun _ => "null".toList := by
  intro a j h; cases h; rfl

theorem option_prints {α : Type} {f : Form α} {g : α → List Char} (h : Prints f g) :
    Prints (option f) (orNull g) := by
  intro o j hj
  cases o with
  | none => cases hj; rfl
  | some a => exact h a j hj

theorem bytes32_prints : Prints bytes32 fun b => bytes b.val := fun b j h => vec_prints u8_prints b.val j h

theorem array_prints {α : Type} {n : Nat} {f : Form α} {g : α → List Char} (h : Prints f g) :
    Prints (array n f) fun s => arr ((List.finRange n).map fun i => g (s i)) := by
  intro s j hj
  rw [vec_prints h (List.ofFn s) j hj]
  have : (List.ofFn s).map g = (List.finRange n).map fun i => g (s i) := by apply List.ext_getElem <;> simp
  exact congrArg arr this

theorem iso_prints {α β : Type} {c : Form α} {f : α → β} {g : β → α} {t : α → List Char} (h : Prints c t) :
    Prints (iso c f g) fun b => t (g b) := fun b j hj => h (g b) j hj

/-- The same for the fields of a struct. -/
def PrintsRec {α : Type} (r : Rec α) (g : α → List (String × List Char)) : Prop :=
  ∀ a js, r.enc a = some js → js.length = r.names.length ∧ (r.names.zip js).map (fun e => (e.1, e.2.print)) = g a

theorem field_prints {α : Type} {f : Form α} {g : α → List Char} (name : String) (h : Prints f g) :
    PrintsRec (field name f) fun a => [(name, g a)] := by
  intro a js hj
  simp only [field, Option.map_eq_some_iff] at hj
  obtain ⟨j, hj, rfl⟩ := hj
  exact ⟨rfl, by simp [field, h a j hj]⟩

theorem and_prints {α β : Type} {r : Rec α} {s : Rec β} {g : α → List (String × List Char)} {g' : β → List (String × List Char)}
    (h : PrintsRec r g) (h' : PrintsRec s g') : PrintsRec (r.and s) fun p => g p.1 ++ g' p.2 := by
  intro p js hj
  simp only [Rec.and, Option.bind_eq_bind, Option.bind_eq_some_iff] at hj
  obtain ⟨x, hx, z, hz, he⟩ := hj
  cases he
  obtain ⟨l1, e1⟩ := h _ _ hx
  obtain ⟨l2, e2⟩ := h' _ _ hz
  refine ⟨by simp [Rec.and, l1, l2], ?_⟩
  simp only [Rec.and]
  rw [List.zip_append l1.symm, List.map_append, e1, e2]

theorem struct_prints {α : Type} {r : Rec α} {g : α → List (String × List Char)} (h : PrintsRec r g) :
    Prints (struct r) fun a => obj (g a) := by
  intro a j hj
  simp only [struct, Option.map_eq_some_iff] at hj
  obtain ⟨js, hjs, rfl⟩ := hj
  rw [obj_print, (h a js hjs).2]

theorem tagged_print (name : String) (j : Json) : (tagged name j).print = obj [(name, j.print)] := obj_print [(name, j)]

theorem nibblePath_prints : Prints nibblePath path :=
  iso_prints (struct_prints (and_prints (field_prints _ (uint_prints _)) (field_prints _ (vec_prints u8_prints))))

theorem nodeKey_prints : Prints nodeKey Spec.JsonText.nodeKey :=
  iso_prints (struct_prints (and_prints (field_prints _ (uint_prints _)) (field_prints _ nibblePath_prints)))

theorem leafPair_prints : Prints leafPair fun p => leaf p.1 p.2 :=
  struct_prints (and_prints (field_prints _ bytes32_prints) (field_prints _ bytes32_prints))

theorem leafNode_prints : Prints leafNode fun l => leaf l.keyHash l.valueHash := iso_prints leafPair_prints

theorem nodeType_prints : Prints nodeType Spec.JsonText.nodeType := by
  intro a j h
  cases a with
  | leaf => cases h; decide +kernel
  | internal n =>
    simp only [nodeType, Option.map_eq_some_iff] at h
    obtain ⟨b, hb, rfl⟩ := h
    rw [tagged_print, struct_prints (field_prints _ (uint_prints _)) n b hb]; rfl

theorem child_prints : Prints child Spec.JsonText.child :=
  iso_prints (struct_prints (and_prints (field_prints _ bytes32_prints)
    (and_prints (field_prints _ (uint_prints _)) (field_prints _ nodeType_prints))))

theorem children_prints : Prints children Spec.JsonText.children :=
  iso_prints (struct_prints (and_prints (field_prints _ (array_prints (option_prints child_prints))) (field_prints _ (uint_prints _))))

theorem internalNode_prints : Prints internalNode Spec.JsonText.internalNode :=
  iso_prints (struct_prints (and_prints (field_prints _ children_prints) (field_prints _ (uint_prints _))))

theorem node_prints : Prints node Spec.JsonText.node := by
  intro a j h
  cases a with
  | null => cases h; decide +kernel
  | internal n =>
    simp only [node, Option.map_eq_some_iff] at h
    obtain ⟨b, hb, rfl⟩ := h
    rw [tagged_print, internalNode_prints n b hb]; rfl
  | leaf l =>
    simp only [node, Option.map_eq_some_iff] at h
    obtain ⟨b, hb, rfl⟩ := h
    rw [tagged_print, leafNode_prints l b hb]; rfl

theorem childHashes_prints : Prints childHashes fun p => obj [("left_child", bytes p.1.val), ("right_child", bytes p.2.val)] :=
  struct_prints (and_prints (field_prints _ bytes32_prints) (field_prints _ bytes32_prints))

theorem smNode_prints : Prints smNode Spec.JsonText.smNode := by
  intro a j h
  cases a with
  | null => cases h; decide +kernel
  | internal l r =>
    simp only [smNode, Option.map_eq_some_iff] at h
    obtain ⟨b, hb, rfl⟩ := h
    rw [tagged_print, childHashes_prints _ b hb]; rfl
  | leaf l r =>
    simp only [smNode, Option.map_eq_some_iff] at h
    obtain ⟨b, hb, rfl⟩ := h
    rw [tagged_print, leafPair_prints _ b hb]; rfl

theorem smProof_prints : Prints smProof proof :=
  iso_prints (struct_prints (and_prints (field_prints _ (option_prints leafPair_prints))
    (and_prints (field_prints _ (vec_prints smNode_prints)) (field_prints _ phantom_prints))))

theorem updateProof_prints : Prints updateProof Spec.JsonText.updateProof := vec_prints smProof_prints

theorem rangeProof_prints : Prints rangeProof Spec.JsonText.rangeProof :=
  iso_prints (struct_prints (and_prints (field_prints _ (vec_prints smNode_prints)) (field_prints _ phantom_prints)))

theorem Prints.text {α : Type} {f : Form α} {g : α → List Char} (h : Prints f g) {a : α} {t : List Char} (ht : f.toText a = some t) :
    t = g a := by
  obtain ⟨j, hj, rfl⟩ := Option.map_eq_some_iff.1 ht
  exact h a j hj

theorem Prints.total {α : Type} {f : Form α} {g : α → List Char} (h : Prints f g) {a : α} (he : Enc f a) (hf : f.RoundTrips) :
    f.toText a = some (g a) ∧ f.fromText (g a) = some a := by
  obtain ⟨t, h1, h2⟩ := he.text hf
  cases h.text h1
  exact ⟨h1, h2⟩

end Serde

/-- C68, the texts of hashes and of all proofs: exactly those of the specification; and these are read back. -/
theorem C68_proof_texts :
    (∀ b : Bytes32, Serde.hash.toText b = some (bytes b.val) ∧ Serde.hash.fromText (bytes b.val) = some b) ∧
    (∀ p : SMProof, Serde.smProof.toText p = some (proof p) ∧ Serde.smProof.fromText (proof p) = some p) ∧
    (∀ ps : List SMProof, Serde.updateProof.toText ps = some (Spec.JsonText.updateProof ps) ∧
      Serde.updateProof.fromText (Spec.JsonText.updateProof ps) = some ps) ∧
    (∀ p : RangeProof, Serde.rangeProof.toText p = some (Spec.JsonText.rangeProof p) ∧
      Serde.rangeProof.fromText (Spec.JsonText.rangeProof p) = some p) :=
  ⟨fun b => Serde.bytes32_prints.total (Serde.bytes32_enc b) Serde.bytes32_lawful.roundTrips,
    fun p => Serde.smProof_prints.total (Serde.smProof_enc p) Serde.smProof_lawful.roundTrips,
    fun ps => Serde.updateProof_prints.total (Serde.vec_enc fun p _ => Serde.smProof_enc p) Serde.updateProof_lawful.roundTrips,
    fun p => Serde.rangeProof_prints.total (Serde.rangeProof_enc p) Serde.rangeProof_lawful.roundTrips⟩

/-- C68, the texts of node keys and nodes: if there is one (that is, if all numbers fit into 64 bits) it is that of the specification. -/
theorem C68_node_texts :
    (∀ k t, Serde.nodeKey.toText k = some t → t = Spec.JsonText.nodeKey k) ∧
    (∀ nd t, Serde.node.toText nd = some t → t = Spec.JsonText.node nd) :=
  ⟨fun _ _ h => Serde.nodeKey_prints.text h, fun _ _ h => Serde.node_prints.text h⟩

/-- C68, the texts of everything an update writes. -/
theorem C68_update_texts (hr : Reached H ops y) (sets : List ValueSet)
    (hb : (setsOf ops).length + sets.length < 2 ^ 64) (hw : numWrites (ops ++ [.commit sets]) < 2 ^ 64) {hs b}
    (hp : putValueSets H y.store.reader sets y.next = .ok (hs, b)) :
    ∀ k nd, b.nodeBatch.nodes.get? k = some nd →
      Serde.nodeKey.toText k.packed = some (Spec.JsonText.nodeKey k.packed) ∧ Serde.node.toText nd = some (Spec.JsonText.node nd) := by
  intro k nd hk
  obtain ⟨⟨t, h1, -⟩, ⟨t', h2, -⟩⟩ := C68_update_has_texts hr sets hb hw hp k nd hk
  exact ⟨Serde.nodeKey_prints.text h1 ▸ h1, Serde.node_prints.text h2 ▸ h2⟩

/-- Two texts of the specification, written out. -/
example : Spec.JsonText.nodeKey (NodeKey.packed ⟨258, [1, 2, 3]⟩) =
      "{\"version\":258,\"nibble_path\":{\"num_nibbles\":3,\"bytes\":[18,48]}}".toList ∧
    Spec.JsonText.rangeProof ⟨[.null, .null]⟩ = "{\"right_siblings\":[\"Null\",\"Null\"],\"_phantom\":null}".toList := by
  refine ⟨?_, ?_⟩ <;> decide +kernel

/-- A first update. -/
example (H : Hasher) : ∃ y hs b, Reached H [] y ∧ putValueSets H y.store.reader [[(Sample.key 7, some [1])]] y.next = .ok (hs, b) ∧
    ∀ k nd, b.nodeBatch.nodes.get? k = some nd →
      Serde.nodeKey.toText k.packed = some (Spec.JsonText.nodeKey k.packed) ∧ Serde.node.toText nd = some (Spec.JsonText.node nd) := by
  obtain ⟨y, hy⟩ : ∃ y, Reached H [] y := ⟨⟨Store.new false, 0⟩, false, rfl⟩
  obtain ⟨hs, b, _, h, _⟩ := hy.commit [[(Sample.key 7, some [1])]] (by decide)
  exact ⟨y, hs, b, hy, h, C68_update_texts hy _ (by decide) (by decide) h⟩

end Jmt

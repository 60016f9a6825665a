import Verif.Proofs.Serde
import Verif.Props.Borsh
/-!
# Property C68: JSON round trips
-/
namespace Jmt
open Serde

variable {H : Hasher} {ops : List Op} {y : Sys}

/-- What is written is read back as it was. -/
def Serde.Form.RoundTrips {α : Type} (f : Form α) : Prop := ∀ a t, f.toText a = some t → f.fromText t = some a

theorem Serde.Lawful.roundTrips {α : Type} {f : Form α} (h : Serde.Lawful f) : f.RoundTrips := fun _ _ ht => h.text ht

/-- C68: every type of the crate that derives the serde traits is read back from its JSON text as it was written. -/
theorem C68_roundtrip : Serde.nibble.RoundTrips ∧ Serde.nibblePath.RoundTrips ∧ Serde.nodeKey.RoundTrips ∧ Serde.hash.RoundTrips ∧
    Serde.nodeType.RoundTrips ∧ Serde.child.RoundTrips ∧ Serde.children.RoundTrips ∧ Serde.internalNode.RoundTrips ∧
    Serde.leafNode.RoundTrips ∧ Serde.node.RoundTrips ∧ childHashes.RoundTrips ∧ leafPair.RoundTrips ∧ Serde.smNode.RoundTrips ∧
    Serde.smProof.RoundTrips ∧ Serde.updateProof.RoundTrips ∧ Serde.rangeProof.RoundTrips :=
  ⟨u8_lawful.roundTrips, Serde.nibblePath_lawful.roundTrips, Serde.nodeKey_lawful.roundTrips, Serde.bytes32_lawful.roundTrips,
    Serde.nodeType_lawful.roundTrips, Serde.child_lawful.roundTrips, Serde.children_lawful.roundTrips,
    Serde.internalNode_lawful.roundTrips, Serde.leafNode_lawful.roundTrips, Serde.node_lawful.roundTrips,
    childHashes_lawful.roundTrips, leafPair_lawful.roundTrips, Serde.smNode_lawful.roundTrips, Serde.smProof_lawful.roundTrips,
    Serde.updateProof_lawful.roundTrips, Serde.rangeProof_lawful.roundTrips⟩

/-- C68: different values have different texts. -/
theorem C68_injective {α : Type} {f : Form α} (h : f.RoundTrips) {a b : α} {t} (ha : f.toText a = some t) (hb : f.toText b = some t) :
    a = b := by
  have h1 := h a t ha
  rw [h b t hb] at h1
  exact (Option.some.inj h1).symm

/-! ### What can be written -/

namespace Serde

/-- The value has a text. -/
def Enc {α : Type} (f : Form α) (a : α) : Prop := ∃ j, f.enc a = some j

theorem all_enc {α : Type} {f : Form α} : ∀ {l : List α}, (∀ a ∈ l, Enc f a) → ∃ js, all f.enc l = some js := by
  intro l
  induction l with
  | nil => intro _; exact ⟨[], rfl⟩
  | cons a l ih =>
    intro h
    obtain ⟨j, hj⟩ := h a (by simp)
    obtain ⟨js, hjs⟩ := ih fun b hb => h b (by simp [hb])
    exact ⟨j :: js, by simp only [all, hj, hjs, Option.bind_eq_bind, Option.bind_some]⟩

theorem vec_enc {α : Type} {f : Form α} {l : List α} (h : ∀ a ∈ l, Enc f a) : Enc (vec f) l := by
  obtain ⟨js, hjs⟩ := all_enc h
  exact ⟨_, by simp only [vec, hjs]; rfl⟩

theorem option_enc {α : Type} {f : Form α} {o : Option α} (h : ∀ a, o = some a → Enc f a) : Enc (option f) o := by
  cases o with
  | none => exact ⟨.null, rfl⟩
  | some a => exact h a rfl

theorem bytes32_enc (b : Bytes32) : Enc bytes32 b := vec_enc fun c _ => ⟨.num c.toNat, rfl⟩

theorem struct_enc {α : Type} {r : Rec α} {a : α} (h : ∃ js, r.enc a = some js) : Enc (struct r) a := by
  obtain ⟨js, hjs⟩ := h
  exact ⟨_, by simp only [struct, hjs]; rfl⟩

theorem field_enc {α : Type} {f : Form α} {name : String} {a : α} (h : Enc f a) : ∃ js, (field name f).enc a = some js := by
  obtain ⟨j, hj⟩ := h
  exact ⟨[j], by simp only [field, hj]; rfl⟩

theorem and_enc {α β : Type} {r : Rec α} {s : Rec β} {p : α × β} (hr : ∃ js, r.enc p.1 = some js) (hs : ∃ js, s.enc p.2 = some js) :
    ∃ js, (r.and s).enc p = some js := by
  obtain ⟨x, hx⟩ := hr
  obtain ⟨z, hz⟩ := hs
  exact ⟨x ++ z, by simp only [Rec.and, hx, hz, Option.bind_eq_bind, Option.bind_some]⟩

theorem leafPair_enc (p : KeyHash × ValueHash) : Enc leafPair p :=
  struct_enc (and_enc (field_enc (bytes32_enc _)) (field_enc (bytes32_enc _)))

theorem smNode_enc (n : SMNode) : Enc smNode n := by
  cases n with
  | null => exact ⟨_, rfl⟩
  | internal l r =>
    obtain ⟨j, hj⟩ : Enc childHashes (l, r) := struct_enc (and_enc (field_enc (bytes32_enc _)) (field_enc (bytes32_enc _)))
    exact ⟨tagged "Internal" j, by simp only [smNode, hj]; rfl⟩
  | leaf l r =>
    obtain ⟨j, hj⟩ := leafPair_enc (l, r)
    exact ⟨tagged "Leaf" j, by simp only [smNode, hj]; rfl⟩

theorem smProof_enc (p : SMProof) : Enc smProof p :=
  struct_enc (and_enc (field_enc (option_enc fun a _ => leafPair_enc a))
    (and_enc (field_enc (vec_enc fun n _ => smNode_enc n)) (field_enc ⟨.null, rfl⟩)))

theorem rangeProof_enc (p : RangeProof) : Enc rangeProof p :=
  struct_enc (and_enc (field_enc (vec_enc fun n _ => smNode_enc n)) (field_enc ⟨.null, rfl⟩))

theorem Enc.text {α : Type} {f : Form α} {a : α} (h : Enc f a) (hf : f.RoundTrips) :
    ∃ t, f.toText a = some t ∧ f.fromText t = some a := by
  obtain ⟨j, hj⟩ := h
  have ht : f.toText a = some j.print := by unfold Form.toText; rw [hj]; rfl
  exact ⟨_, ht, hf _ _ ht⟩

/-- What borsh can write, JSON can. -/
def Covers {α : Type} (c : Borsh.Codec α) (f : Form α) : Prop := ∀ a bs, c.enc a = some bs → Enc f a

theorem uint_covers : Covers (Borsh.uint 8) (uint (2 ^ 64)) := by
  intro a bs h
  simp only [Borsh.uint] at h
  split at h
  · rename_i h1
    exact ⟨.num a, if_pos (by simpa using h1)⟩
  · cases h

theorem pair_covers {α β : Type} {c : Borsh.Codec α} {d : Borsh.Codec β} {r : Rec α} {s : Rec β}
    (h1 : ∀ a bs, c.enc a = some bs → ∃ js, r.enc a = some js) (h2 : ∀ a bs, d.enc a = some bs → ∃ js, s.enc a = some js) :
    ∀ a bs, (Borsh.pair c d).enc a = some bs → ∃ js, (r.and s).enc a = some js := by
  intro p bs h
  simp only [Borsh.pair, Option.bind_eq_bind, Option.bind_eq_some_iff] at h
  obtain ⟨x, hx, z, hz, -⟩ := h
  exact and_enc (h1 _ _ hx) (h2 _ _ hz)

theorem field_covers {α : Type} {c : Borsh.Codec α} {f : Form α} (name : String) (h : Covers c f) :
    ∀ a bs, c.enc a = some bs → ∃ js, (field name f).enc a = some js := fun a bs hb => field_enc (h a bs hb)

theorem struct_covers {α β : Type} {c : Borsh.Codec α} {r : Rec α} {f : α → β} {g : β → α}
    (h : ∀ a bs, c.enc a = some bs → ∃ js, r.enc a = some js) : Covers (Borsh.iso c f g) (iso (struct r) f g) := by
  intro b bs hb
  exact struct_enc (h (g b) bs hb)

theorem seq_covers {α : Type} {c : Borsh.Codec α} {f : Form α} (h : Covers c f) : ∀ (l : List α) bs, Borsh.encSeq c l = some bs →
    ∀ a ∈ l, Enc f a := by
  intro l
  induction l with
  | nil => intro _ _ a ha; cases ha
  | cons b l ih =>
    intro bs hb a ha
    simp only [Borsh.encSeq, Option.bind_eq_bind, Option.bind_eq_some_iff] at hb
    obtain ⟨x, hx, xs, hxs, -⟩ := hb
    rcases List.mem_cons.1 ha with rfl | ha
    · exact h _ _ hx
    · exact ih _ hxs a ha

theorem nodeType_covers : Covers Borsh.nodeType nodeType := by
  intro a bs h
  cases a with
  | leaf => exact ⟨_, rfl⟩
  | internal n =>
    simp only [Borsh.nodeType, Option.map_eq_some_iff] at h
    obtain ⟨b, hb, -⟩ := h
    obtain ⟨j, hj⟩ : Enc leafCountField n := struct_enc (field_enc (uint_covers n b hb))
    exact ⟨tagged "Internal" j, by simp only [nodeType, hj]; rfl⟩

theorem child_covers : Covers Borsh.child child :=
  struct_covers (pair_covers (field_covers _ fun b _ _ => bytes32_enc b)
    (pair_covers (field_covers _ uint_covers) (field_covers _ nodeType_covers)))

theorem children_covers : Covers Borsh.children children :=
  struct_covers (pair_covers (field_covers _ fun g bs h => vec_enc (seq_covers (c := Borsh.option Borsh.child) (fun o bs h =>
    option_enc fun a ha => by
      subst ha
      simp only [Borsh.option, Option.map_eq_some_iff] at h
      obtain ⟨b, hb, -⟩ := h
      exact child_covers a b hb) _ bs h)) (field_covers _ uint_covers))

theorem internalNode_covers : Covers Borsh.internalNode internalNode :=
  struct_covers (pair_covers (field_covers _ children_covers) (field_covers _ uint_covers))

theorem node_covers : Covers Borsh.node node := by
  intro a bs h
  cases a with
  | null => exact ⟨_, rfl⟩
  | internal n =>
    simp only [Borsh.node, Option.map_eq_some_iff] at h
    obtain ⟨b, hb, -⟩ := h
    obtain ⟨j, hj⟩ := internalNode_covers n b hb
    exact ⟨tagged "Internal" j, by simp only [node, hj]; rfl⟩
  | leaf l =>
    obtain ⟨j, hj⟩ : Enc leafNode l := leafPair_enc (l.keyHash, l.valueHash)
    exact ⟨tagged "Leaf" j, by simp only [node, hj]; rfl⟩

theorem nodeKey_covers : Covers Borsh.nodeKey nodeKey :=
  struct_covers (pair_covers (field_covers _ uint_covers) (field_covers _ (struct_covers (pair_covers (field_covers _ uint_covers)
    (field_covers _ fun l _ _ => vec_enc fun b _ => ⟨.num b.toNat, rfl⟩)))))

end Serde

/-- C68, proofs: every proof, update proof, range proof and hash has a text, and is read back from it. -/
theorem C68_proofs_have_texts :
    (∀ p : SMProof, ∃ t, Serde.smProof.toText p = some t ∧ Serde.smProof.fromText t = some p) ∧
    (∀ ps : List SMProof, ∃ t, Serde.updateProof.toText ps = some t ∧ Serde.updateProof.fromText t = some ps) ∧
    (∀ p : RangeProof, ∃ t, Serde.rangeProof.toText p = some t ∧ Serde.rangeProof.fromText t = some p) ∧
    (∀ b : Bytes32, ∃ t, Serde.hash.toText b = some t ∧ Serde.hash.fromText t = some b) :=
  ⟨fun p => (Serde.smProof_enc p).text Serde.smProof_lawful.roundTrips,
    fun ps => Enc.text (Serde.vec_enc fun p _ => Serde.smProof_enc p) Serde.updateProof_lawful.roundTrips,
    fun p => (Serde.rangeProof_enc p).text Serde.rangeProof_lawful.roundTrips,
    fun b => (Serde.bytes32_enc b).text Serde.bytes32_lawful.roundTrips⟩

/-- C68, updates: every node of an update batch and its key have texts, from which they are read back. -/
theorem C68_update_has_texts (hr : Reached H ops y) (sets : List ValueSet)
    (hb : (setsOf ops).length + sets.length < 2 ^ 64) (hw : numWrites (ops ++ [.commit sets]) < 2 ^ 64) {hs b}
    (hp : putValueSets H y.store.reader sets y.next = .ok (hs, b)) :
    ∀ k nd, b.nodeBatch.nodes.get? k = some nd →
      (∃ t, Serde.nodeKey.toText k.packed = some t ∧ Serde.nodeKey.fromText t = some k.packed) ∧
      (∃ t, Serde.node.toText nd = some t ∧ Serde.node.fromText t = some nd) := by
  intro k nd hk
  obtain ⟨kb, nb, h1, h2⟩ := C49_update_encodes hr sets hb hw hp k nd hk
  exact ⟨(Serde.nodeKey_covers _ _ h1).text Serde.nodeKey_lawful.roundTrips,
    (Serde.node_covers _ _ h2).text Serde.node_lawful.roundTrips⟩

/-! ### What else is read -/

theorem Serde.lookup_perm {name : String} {l l' : List (String × Json)} (h : l.Perm l') : lookup name l = lookup name l' := by
  have hp := h.filter (fun e => decide (e.1 = name))
  unfold lookup
  generalize l.filter _ = a at hp
  generalize l'.filter _ = b at hp
  match a, b, hp with
  | [], b, hp => rw [hp.nil_eq]
  | [e], b, hp => rw [List.singleton_perm.1 hp]
  | e :: f :: a, b, hp =>
    have hl := hp.length_eq
    match b, hl with
    | g :: i :: b, _ => rfl

/-- C68: the order of the fields of an object does not matter, for any struct. -/
theorem C68_field_order {α : Type} (r : Rec α) {l l' : List (String × Json)} (h : l.Perm l') :
    (struct r).dec (.obj (.ofList l)) = (struct r).dec (.obj (.ofList l')) := by
  simp only [struct, Fields.toList_ofList, fun n => Serde.lookup_perm (name := n) h]

/-- C68: fields with other names are ignored. -/
theorem C68_unknown_fields {α : Type} (r : Rec α) (l : List (String × Json)) (k : String) (j : Json) (h : k ∉ r.names) :
    (struct r).dec (.obj (.ofList ((k, j) :: l))) = (struct r).dec (.obj (.ofList l)) := by
  simp only [struct, Fields.toList_ofList]
  have : ∀ names : List String, k ∉ names → all (fun n => lookup n ((k, j) :: l)) names = all (fun n => lookup n l) names := by
    intro names
    induction names with
    | nil => intro _; rfl
    | cons n names ih =>
      intro hk
      simp only [List.mem_cons, not_or] at hk
      simp only [all, lookup_cons_ne hk.1, ih hk.2]
  rw [this _ h]

/-- C68, the text of a proof: field by field, without white space. -/
theorem C68_proof_text (ns : List SMNode) {t : List Char} (h : (Serde.vec Serde.smNode).toText ns = some t) :
    Serde.smProof.toText ⟨none, ns⟩ = some ("{\"leaf\":null,\"siblings\":".toList ++ t ++ ",\"phantom_hasher\":null}".toList) := by
  obtain ⟨j, hj, rfl⟩ := Option.map_eq_some_iff.1 h
  have he : Serde.smProof.enc ⟨none, ns⟩ =
      some (.obj (.cons "leaf" .null (.cons "siblings" j (.cons "phantom_hasher" .null .nil)))) := by
    show (struct smProofFields).enc (none, ns, ()) = _
    simp only [struct, smProofFields, Rec.and, field, hj, Serde.option, phantom, Option.map_some, Option.bind_eq_bind, Option.bind_some]
    rfl
  unfold Form.toText
  rw [he]
  show some (Json.print _) = _
  simp [Json.print, Fields.print]

/-- C68: a proof whose `leaf` is left out is read as the proof without a leaf; `siblings` and `phantom_hasher` must be there. -/
theorem C68_missing_leaf (j : Json) {ns : List SMNode} (h : (Serde.vec Serde.smNode).dec j = some ns) :
    Serde.smProof.dec (.obj (.ofList [("siblings", j), ("phantom_hasher", .null)])) = some ⟨none, ns⟩ ∧
    Serde.smProof.dec (.obj (.ofList [("leaf", .null), ("siblings", j)])) = none ∧
    Serde.smProof.dec (.obj (.ofList [("leaf", .null), ("phantom_hasher", .null)])) = none := by
  refine ⟨?_, ?_, ?_⟩
  · simp only [Serde.smProof, iso, struct, smProofFields, Rec.and, field, Fields.ofList, Fields.toList, List.singleton_append, List.cons_append,
      List.nil_append, all, lookup]
    simp [h, Serde.option, phantom]
  · simp only [Serde.smProof, iso, struct, smProofFields, Rec.and, field, Fields.ofList, Fields.toList, List.singleton_append, List.cons_append,
      List.nil_append, all, lookup]
    simp [h, Serde.option, phantom]
  · simp only [Serde.smProof, iso, struct, smProofFields, Rec.and, field, Fields.ofList, Fields.toList, List.singleton_append, List.cons_append,
      List.nil_append, all, lookup]
    simp [Serde.option, phantom, Serde.vec]

/-- C68: a text is not determined by the value (unlike the borsh encoding): white space, another order, an unknown field and the
array form are all read as the same proof.  A duplicate field is refused, and so is text after the value. -/
theorem C68_not_canonical : Serde.smProof.fromText "{\"leaf\":null,\"siblings\":[],\"phantom_hasher\":null}".toList = some ⟨none, []⟩ ∧
    Serde.smProof.fromText " { \"x\" : [1,{\"y\":2}], \"phantom_hasher\":null,\"siblings\": [ ] }".toList = some ⟨none, []⟩ ∧
    Serde.smProof.fromText "[null,[],null]".toList = some ⟨none, []⟩ ∧
    Serde.smProof.fromText "{\"leaf\":null,\"siblings\":[],\"siblings\":[],\"phantom_hasher\":null}".toList = none ∧
    Serde.smProof.fromText "[null,[],null],".toList = none ∧
    Serde.smProof.fromText "[null,[],null".toList = none := by
  refine ⟨?_, ?_, ?_, ?_, ?_, ?_⟩ <;> decide +kernel

/-- C68, what reading does not check: a path whose nibbles cannot be iterated (indexing panics), and a nibble of 16 or more. -/
theorem C68_reading_is_unchecked :
    (∃ t p msg, Serde.nibblePath.fromText t = some p ∧ p.nibbles.next = .error (.panic msg)) ∧
    (∃ t b, Serde.nibble.fromText t = some b ∧ 16 ≤ b.toNat) := by
  refine ⟨⟨"{\"num_nibbles\":5,\"bytes\":[]}".toList, ⟨5, []⟩, _, by decide +kernel, rfl⟩, ⟨"200".toList, 200, by decide +kernel, by decide⟩⟩

/-- The texts of a node key and of a child kind. -/
example : Serde.nodeKey.toText (NodeKey.packed ⟨258, [1, 2, 3]⟩) =
      some "{\"version\":258,\"nibble_path\":{\"num_nibbles\":3,\"bytes\":[18,48]}}".toList ∧
    Serde.nodeType.toText (.internal 7) = some "{\"Internal\":{\"leaf_count\":7}}".toList ∧
    Serde.nodeType.toText .leaf = some "\"Leaf\"".toList ∧
    Serde.nodeType.toText (.internal (2 ^ 64)) = none := by
  refine ⟨?_, ?_, ?_, ?_⟩ <;> decide +kernel

/-- A served proof of the sample history, in JSON. -/
example (H : Hasher) : ∃ y p t, Reached H Sample.ops y ∧
    getWithProof H y.store.reader (Sample.key 0x1f) 3 = .ok (mapAt Sample.ops 3 (Sample.key 0x1f), p) ∧
    Serde.smProof.toText p = some t ∧ Serde.smProof.fromText t = some p := by
  obtain ⟨y, hy⟩ := Sample.reached H
  obtain ⟨t, h1, h2⟩ := C68_proofs_have_texts.1 (specProof H (entriesAfter H (setsOf Sample.ops) (3 + 1)) (Sample.key 0x1f))
  exact ⟨y, _, t, hy, (hy.readAt Sample.bound Sample.readable3).gwp _, h1, h2⟩

end Jmt

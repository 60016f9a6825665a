import Verif.Spec.Json
import Verif.Spec.Basic
/-!
# The serde data model in JSON

How `#[derive(Serialize, Deserialize)]` (serde 1.x, no attributes that change the format) and `serde_json` represent the kinds of
types this crate uses.  An encoder is partial only because a natural number of the model need not fit the Rust integer type.
-/
namespace Jmt.Serde

/-- How one type is written and read. -/
structure Form (α : Type) where
  enc : α → Option Json
  dec : Json → Option α
  /-- What a missing field of this type is read as: an error, except for `Option`. -/
  absent : Option α

/-- `serde_json::to_string`. -/
def Form.toText {α : Type} (f : Form α) (a : α) : Option (List Char) := (f.enc a).map Json.print

/-- `serde_json::from_str`. -/
def Form.fromText {α : Type} (f : Form α) (t : List Char) : Option α := (parse t).bind f.dec

/-- An unsigned integer below a bound. -/
def uint (bound : Nat) : Form Nat where
  enc n := if n < bound then some (.num n) else none
  dec | .num n => if n < bound then some n else none
      | _ => none
  absent := none

/-- `u8`. -/
def u8 : Form UInt8 where
  enc b := some (.num b.toNat)
  dec | .num n => if n < 256 then some (UInt8.ofNat n) else none
      | _ => none
  absent := none

/-- `PhantomData<T>`: a unit struct. -/
def phantom : Form Unit where
  enc _ := some .null
  dec | .null => some ()
      | _ => none
  absent := none

/-- `Option<T>`. -/
def option {α : Type} (f : Form α) : Form (Option α) where
  enc | none => some .null
      | some a => f.enc a
  dec | .null => some none
      | j => (f.dec j).map some
  absent := some none

/-- All results, or none. -/
def all {α β : Type} (f : α → Option β) : List α → Option (List β)
  | [] => some []
  | a :: l => do
    let b ← f a
    let bs ← all f l
    some (b :: bs)

/-- `Vec<T>`. -/
def vec {α : Type} (f : Form α) : Form (List α) where
  enc l := (all f.enc l).map (fun js => .arr (.ofList js))
  dec | .arr l => all f.dec l.toList
      | _ => none
  absent := none

/-- `[T; n]` (and the boxed array): exactly `n` elements. -/
def array {α : Type} (n : Nat) (f : Form α) : Form (Fin n → α) where
  enc g := (vec f).enc (List.ofFn g)
  dec j := do
    let l ← (vec f).dec j
    if h : l.length = n then some (fun i => l[i.val]'(h ▸ i.isLt)) else none
  absent := none

/-- `[u8; 32]`. -/
def bytes32 : Form Bytes32 where
  enc b := (vec u8).enc b.val
  dec j := do
    let l ← (vec u8).dec j
    if h : l.length = 32 then some ⟨l, h⟩ else none
  absent := none

/-- A newtype struct, and a type with the same content. -/
def iso {α β : Type} (c : Form α) (f : α → β) (g : β → α) : Form β where
  enc b := c.enc (g b)
  dec j := (c.dec j).map f
  absent := c.absent.map f

/-- The named fields of a struct: how they are written, and how they are read (`none`: the field is missing). -/
structure Rec (α : Type) where
  names : List String
  enc : α → Option (List Json)
  dec : List (Option Json) → Option α

/-- One field. -/
def field {α : Type} (name : String) (f : Form α) : Rec α where
  names := [name]
  enc a := (f.enc a).map ([·])
  dec | [some j] => f.dec j
      | [none] => f.absent
      | _ => none

/-- More fields. -/
def Rec.and {α β : Type} (r : Rec α) (s : Rec β) : Rec (α × β) where
  names := r.names ++ s.names
  enc p := do
    let a ← r.enc p.1
    let b ← s.enc p.2
    some (a ++ b)
  dec l := do
    let a ← r.dec (l.take r.names.length)
    let b ← s.dec (l.drop r.names.length)
    some (a, b)

/-- The entry with a name in an object: none, one, or the error of a duplicate field. -/
def lookup (name : String) (l : List (String × Json)) : Option (Option Json) :=
  match l.filter (fun e => decide (e.1 = name)) with
  | [] => some none
  | [e] => some (some e.2)
  | _ => none

/-- A struct: an object with the fields in the order of their declaration.  When reading, the order is free, unknown names are
ignored, and an array with the values of all fields will do as well. -/
def struct {α : Type} (r : Rec α) : Form α where
  enc a := (r.enc a).map (fun js => .obj (.ofList (r.names.zip js)))
  dec | .obj l => do
        let js ← all (fun name => lookup name l.toList) r.names
        r.dec js
      | .arr l => if l.toList.length = r.names.length then r.dec (l.toList.map some) else none
      | _ => none
  absent := none

/-- The variant of an enum: its name alone, or an object with its name and its content as the only entry. -/
def variant : Json → Option (String × Option Json)
  | .str s => some (s, none)
  | .obj (.cons k j .nil) => some (k, some j)
  | _ => none

/-- A variant with content. -/
def tagged (name : String) (j : Json) : Json := .obj (.cons name j .nil)

/-- The content of a variant without content. -/
def isUnit : Option Json → Bool
  | none => true
  | some .null => true
  | _ => false

end Jmt.Serde

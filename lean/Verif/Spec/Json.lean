/-!
# JSON texts

The part of JSON that `serde_json` produces for this crate: `null`, natural numbers, strings, arrays and objects.  (The reader knows
no other numbers, no `true`/`false` and no escapes in strings: texts with these are not read here.)
-/
namespace Jmt.Serde

mutual
/-- A JSON value. -/
inductive Json
  | null
  | num (n : Nat)
  | str (s : String)
  | arr (l : Elems)
  | obj (l : Fields)
/-- The elements of an array. -/
inductive Elems
  | nil
  | cons (j : Json) (l : Elems)
/-- The entries of an object. -/
inductive Fields
  | nil
  | cons (k : String) (j : Json) (l : Fields)
end

/-- As a list. -/
def Elems.toList : Elems → List Json
  | .nil => []
  | .cons j l => j :: l.toList

/-- From a list. -/
def Elems.ofList : List Json → Elems
  | [] => .nil
  | j :: l => .cons j (ofList l)

/-- As a list. -/
def Fields.toList : Fields → List (String × Json)
  | .nil => []
  | .cons k j l => (k, j) :: l.toList

/-- From a list. -/
def Fields.ofList : List (String × Json) → Fields
  | [] => .nil
  | (k, j) :: l => .cons k j (ofList l)

/-! ### Writing (`serde_json::to_string`: no white space) -/

/-- A decimal digit. -/
def digitChar (d : Nat) : Char := Char.ofNat (48 + d)

/-- The decimal digits of a number, with fuel. -/
def digitsF : Nat → Nat → List Char
  | 0, _ => []
  | fuel + 1, n => if n < 10 then [digitChar n] else digitsF fuel (n / 10) ++ [digitChar (n % 10)]

/-- The decimal digits of a number. -/
def digits (n : Nat) : List Char := digitsF (n + 1) n

mutual
/-- The text of a value. -/
def Json.print : Json → List Char
  | .null => "null".toList
  | .num n => digits n
  | .str s => '"' :: (s.toList ++ ['"'])
  | .arr .nil => ['[', ']']
  | .arr (.cons j l) => '[' :: (j.print ++ l.print)
  | .obj .nil => ['{', '}']
  | .obj (.cons k j l) => '{' :: '"' :: (k.toList ++ '"' :: ':' :: (j.print ++ l.print))
/-- The text after an element of an array. -/
def Elems.print : Elems → List Char
  | .nil => [']']
  | .cons j l => ',' :: (j.print ++ l.print)
/-- The text after an entry of an object. -/
def Fields.print : Fields → List Char
  | .nil => ['}']
  | .cons k j l => ',' :: '"' :: (k.toList ++ '"' :: ':' :: (j.print ++ l.print))
end

/-! ### Reading (`serde_json::from_str`) -/

/-- White space. -/
def isSpace (c : Char) : Bool := c == ' ' || c == '\n' || c == '\t' || c == '\r'

/-- Without leading white space. -/
def skip (cs : List Char) : List Char := cs.dropWhile isSpace

/-- A string after its opening quote. -/
def parseStr : List Char → Option (List Char × List Char)
  | [] => none
  | c :: cs =>
    if c = '"' then some ([], cs)
    else if c = '\\' ∨ c.toNat < 32 then none
    else (parseStr cs).map (fun r => (c :: r.1, r.2))

/-- The value of decimal digits. -/
def numValue (ds : List Char) : Nat := ds.foldl (fun a c => 10 * a + (c.toNat - 48)) 0

/-- A number: as many digits as there are, no superfluous leading zero. -/
def parseNum (cs : List Char) : Option (Nat × List Char) :=
  let ds := cs.takeWhile Char.isDigit
  if ds = [] ∨ (ds.head? = some '0' ∧ ds.length ≠ 1) then none else some (numValue ds, cs.dropWhile Char.isDigit)

mutual
/-- A value, and the rest of the text. -/
def parseVal : Nat → List Char → Option (Json × List Char)
  | 0, _ => none
  | n + 1, cs =>
    match skip cs with
    | [] => none
    | c :: r =>
      if c = 'n' then (if r.take 3 = ['u', 'l', 'l'] then some (.null, r.drop 3) else none)
      else if c = '"' then (parseStr r).map (fun p => (.str (String.ofList p.1), p.2))
      else if c = '[' then
        (if (skip r).head? = some ']' then some (.arr .nil, (skip r).tail)
        else do
          let (j, r) ← parseVal n r
          let (l, r) ← parseElems n r
          some (.arr (.cons j l), r))
      else if c = '{' then
        (if (skip r).head? = some '}' then some (.obj .nil, (skip r).tail)
        else do
          let (k, j, r) ← parseEntry n r
          let (l, r) ← parseFields n r
          some (.obj (.cons k j l), r))
      else (parseNum (c :: r)).map (fun p => (.num p.1, p.2))
/-- What follows an element of an array. -/
def parseElems : Nat → List Char → Option (Elems × List Char)
  | 0, _ => none
  | n + 1, cs =>
    match skip cs with
    | [] => none
    | c :: r =>
      if c = ']' then some (.nil, r)
      else if c = ',' then do
        let (j, r) ← parseVal n r
        let (l, r) ← parseElems n r
        some (.cons j l, r)
      else none
/-- An entry of an object: name, colon, value. -/
def parseEntry : Nat → List Char → Option (String × Json × List Char)
  | 0, _ => none
  | n + 1, cs =>
    match skip cs with
    | [] => none
    | c :: r =>
      if c = '"' then do
        let (k, r) ← parseStr r
        match skip r with
        | ':' :: r => do
          let (j, r) ← parseVal n r
          some (String.ofList k, j, r)
        | _ => none
      else none
/-- What follows an entry of an object. -/
def parseFields : Nat → List Char → Option (Fields × List Char)
  | 0, _ => none
  | n + 1, cs =>
    match skip cs with
    | [] => none
    | c :: r =>
      if c = '}' then some (.nil, r)
      else if c = ',' then do
        let (k, j, r) ← parseEntry n r
        let (l, r) ← parseFields n r
        some (.cons k j l, r)
      else none
end

/-- The whole text is one value. -/
def parse (cs : List Char) : Option Json :=
  match parseVal (2 * cs.length + 1) cs with
  | some (j, r) => if skip r = [] then some j else none
  | none => none

end Jmt.Serde

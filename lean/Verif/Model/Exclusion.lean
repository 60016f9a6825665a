import Verif.Model.Proof
/-!
# Model of src/tree.rs: exclusion proofs and range proofs
-/
namespace Jmt

/-- src/tree.rs:1446-1450 `Extreme`. -/
inductive Extreme where
  | left
  | right
deriving DecidableEq

/-- src/tree.rs:1452-1459 `opposite`. -/
def Extreme.opposite : Extreme → Extreme
  | .left => .right
  | .right => .left

/-- `Iterator::max_by_key(|(nibble, _)| *nibble)`: the last of the greatest elements. -/
def maxByNibble (l : List (Nibble × Child)) : Option (Nibble × Child) :=
  l.foldl (fun acc e => match acc with
    | none => some e
    | some b => if e.1.val < b.1.val then some b else some e) none

/-- `Iterator::min_by_key(|(nibble, _)| *nibble)`: the first of the least elements. -/
def minByNibble (l : List (Nibble × Child)) : Option (Nibble × Child) :=
  l.foldl (fun acc e => match acc with
    | none => some e
    | some b => if e.1.val < b.1.val then some e else some b) none

/-- src/tree.rs:1089-1108 `neighbor_nibble`. -/
def neighborNibble (n : InternalNode) (i : Nibble) : Extreme → Option (Nibble × Version)
  | .left => (maxByNibble (n.children.iter.filter (fun e => decide (e.1.val < i.val)))).map (fun e => (e.1, e.2.version))
  | .right => (minByNibble (n.children.iter.filter (fun e => decide (i.val < e.1.val)))).map (fun e => (e.1, e.2.version))

/-- src/tree.rs:1316-1323 `min_or_max`. -/
def extremeNibble (n : InternalNode) : Extreme → Option Nibble
  | .left => (minByNibble n.children.iter).map Prod.fst
  | .right => (maxByNibble n.children.iter).map Prod.fst

/-- src/tree.rs:1308-1353 `get_extreme_key_hash`; `fuel` is what is left of
`nibble_depth..=ROOT_NIBBLE_HEIGHT`, `depth` the loop variable. -/
def getExtremeKeyHash (R : Reader) (version : Version) (extreme : Extreme) :
    (fuel depth : Nat) → NodeKey → Except Err KeyHash
  | 0, _, _ => .error (.bail "Jellyfish Merkle tree has cyclic graph inside.")
  | fuel + 1, depth, nk => do
    let node ← (match R.getNode nk with
      | .ok n => .ok n
      | .error e => if depth = 0 then .error (.missingRoot version) else .error e)
    match node with
    | .internal n =>
      match extremeNibble n extreme with
      | none => .error (.panic "a child always exists")
      | some i => do
        let ck? ← n.getOnlyChildWithoutSiblings nk i
        match ck? with
        | some ck => getExtremeKeyHash R version extreme fuel (depth + 1) ck
        | none => .error (.bail "Internal node has no children")
    | .leaf l => .ok l.keyHash
    | .null => .error (.bail "Null node cannot have children")

/-- src/tree.rs:1109-1126: the loop of `search_closest_extreme_node`.  `path` and `parents` are given last
element first (both are popped from the end); the pushed path is `path.reverse ++ [neighbor]`. -/
def searchClosestLoop (R : Reader) (version : Version) (extreme : Extreme) :
    (path : List Nibble) → (parents : List InternalNode) → Except Err (Option KeyHash)
  | i :: path, parent :: parents =>
    match neighborNibble parent i extreme with
    | some (j, w) => do
      let p := path.reverse ++ [j]
      let k ← getExtremeKeyHash R version extreme.opposite (rootNibbleHeight + 1 - p.length) p.length ⟨w, p⟩
      .ok (some k)
    | none => searchClosestLoop R version extreme path parents
  | _, _ => .ok none

/-- src/tree.rs:1082-1127 `search_closest_extreme_node`. -/
def searchClosestExtremeNode (R : Reader) (version : Version) (extreme : Extreme) (to : List Nibble)
    (parents : List InternalNode) : Except Err (Option KeyHash) :=
  searchClosestLoop R version extreme to.reverse parents.reverse

/-- src/tree.rs:1461-1473 `SearchResult`; `ordering` is `key_hash.cmp(&search_key)`, kept as the two keys. -/
inductive SearchResult where
  | foundLeaf (leaf : KeyHash) (path : List Nibble) (parents : List InternalNode)
  | foundInternal (path : List Nibble) (parents : List InternalNode)

/-- src/tree.rs:1139-1196: the loop of `search_for_closest_node`; `visited` and `rem` split the nibbles of
the search key, `fuel` is what is left of `0..=ROOT_NIBBLE_HEIGHT`. -/
def searchForClosestLoop (R : Reader) (version : Version) :
    (fuel depth : Nat) → NodeKey → (visited rem : List Nibble) → List InternalNode → Except Err SearchResult
  | 0, _, _, _, _, _ => .error (.bail "Jellyfish Merkle tree has cyclic graph inside.")
  | fuel + 1, depth, nk, visited, rem, parents => do
    let node ← (match R.getNode nk with
      | .ok n => .ok n
      | .error e => if depth = 0 then .error (.missingRoot version) else .error e)
    match node with
    | .internal n =>
      match rem with
      | [] => .error (.bail "ran out of nibbles")
      | i :: rem' => do
        let ck? ← n.getOnlyChildWithoutSiblings nk i
        match ck? with
        | some ck => searchForClosestLoop R version fuel (depth + 1) ck (visited ++ [i]) rem' (parents ++ [n])
        | none => .ok (.foundInternal (visited ++ [i]) (parents ++ [n]))
    | .leaf l => .ok (.foundLeaf l.keyHash visited parents)
    | .null =>
      if depth = 0 then .error (.bail "Cannot manufacture nonexistence proof by exclusion for the empty tree")
      else .error (.bail "Non-root null node exists")

/-- src/tree.rs:1129-1197 `search_for_closest_node`. -/
def searchForClosestNode (R : Reader) (version : Version) (key : KeyHash) : Except Err SearchResult :=
  searchForClosestLoop R version (rootNibbleHeight + 1) 0 (NodeKey.root version) [] key.nibbles []

/-- src/tree.rs:1199-1262 `get_bounding_path`. -/
def getBoundingPath (R : Reader) (key : KeyHash) (version : Version) :
    Except Err (Option KeyHash × Option KeyHash) := do
  match ← searchForClosestNode R version key with
  | .foundLeaf leaf path parents =>
    if leaf.val < key.val then do
      let r ← searchClosestExtremeNode R version .right path parents
      .ok (some leaf, r)
    else if key.val < leaf.val then do
      let l ← searchClosestExtremeNode R version .left path parents
      .ok (l, some leaf)
    else .error (.bail "found exact key when searching for bounding path for nonexistence proof")
  | .foundInternal path parents => do
    let r ← searchClosestExtremeNode R version .right path parents
    let l ← searchClosestExtremeNode R version .left path parents
    .ok (l, r)

/-- src/tree.rs:1432-1443 `ExclusionProof`. -/
inductive ExclusionProof where
  | leftmost (leftmostRight : SMProof)
  | middle (leftmostRight rightmostLeft : SMProof)
  | rightmost (rightmostLeft : SMProof)

/-- src/tree.rs:1265-1306 `get_with_exclusion_proof`; `.inl` is `Ok((value, proof))`, `.inr` is
`Err(exclusion_proof)`. -/
def getWithExclusionProof (H : Hasher) (R : Reader) (key : KeyHash) (version : Version) :
    Except Err (Sum (Value × SMProof) ExclusionProof) := do
  match ← getWithProof H R key version with
  | (some x, proof) => .ok (.inl (x, proof))
  | (none, _) => do
    match ← getBoundingPath R key version with
    | (some l, some r) => do
      let lp ← getWithProof H R l version
      let rp ← getWithProof H R r version
      .ok (.inr (.middle rp.2 lp.2))
    | (some l, none) => do
      let lp ← getWithProof H R l version
      .ok (.inr (.rightmost lp.2))
    | (none, some r) => do
      let rp ← getWithProof H R r version
      .ok (.inr (.leftmost rp.2))
    | (none, none) => .error (.bail "Invalid exclusion proof")

/-- src/tree.rs:1366-1383: keep the siblings where the key bit (root first) is 0. -/
def rightSiblingsOf (siblings : List SMNode) (key : KeyHash) : List SMNode :=
  ((siblings.reverse.zip (Bytes32.iterBits key)).filterMap (fun e => if e.2 then none else some e.1)).reverse

/-- src/tree.rs:1361-1385 `get_range_proof`. -/
def getRangeProof (H : Hasher) (R : Reader) (key : KeyHash) (version : Version) : Except Err RangeProof := do
  let (x, proof) ← getWithProof H R key version
  match x with
  | none => .error (.bail "rightmost_key_to_prove must exist.")
  | some _ => .ok ⟨rightSiblingsOf proof.siblings key⟩

end Jmt

import Verif.Proofs.BytesView
import Verif.Proofs.NibbleRange
import Verif.Props.Sample
/-!
# Properties C33-C36: packed nibble paths, common prefixes, key views, nibble ranges
-/
namespace Jmt

/-! ## C33 -/

/-- An operation on a `NibblePath` value. -/
inductive PathOp where
  | push (n : Nibble)
  | pop
deriving DecidableEq

/-- The operations on the packed path; what each `pop` returned is recorded. -/
def runPath : List PathOp → NibblePath → Except Err (NibblePath × List (Option Nibble))
  | [], p => .ok (p, [])
  | .push n :: ops, p => do
    let p ← p.push n
    runPath ops p
  | .pop :: ops, p => do
    let (n, p) ← p.pop
    let (p, out) ← runPath ops p
    .ok (p, n :: out)

/-- The same operations on a plain list of nibbles; `none` if the list would outgrow 64 nibbles. -/
def runList : List PathOp → List Nibble → Option (List Nibble × List (Option Nibble))
  | [], l => some (l, [])
  | .push n :: ops, l => if l.length < 64 then runList ops (l ++ [n]) else none
  | .pop :: ops, l => (runList ops l.dropLast).map (fun r => (r.1, l.getLast? :: r.2))

/-- **C33.** Any sequence of pushes and pops on a packed path does what it does on a list of nibbles: it
succeeds exactly when the list never outgrows 64 nibbles, yields the packed form of the resulting list, and
every `pop` returns what the list returns. -/
theorem C33_refines (ops : List PathOp) (l : List Nibble) :
    match runList ops l with
    | some (l', out) => runPath ops (NibblePath.ofList l) = .ok (NibblePath.ofList l', out)
    | none => ∃ e, runPath ops (NibblePath.ofList l) = .error (.panic e) := by
  induction ops generalizing l with
  | nil => simp only [runList, runPath]
  | cons op ops ih =>
    cases op with
    | push n =>
      unfold runList runPath
      by_cases h : l.length < 64
      · rw [if_pos h, push_ofList l n h]
        exact ih (l ++ [n])
      · rw [if_neg h]
        obtain ⟨e, he⟩ := push_full l n (by omega)
        rw [he]
        exact ⟨e, rfl⟩
    | pop =>
      unfold runList runPath
      rw [pop_ofList, ok_bind]
      have := ih l.dropLast
      revert this
      cases runList ops l.dropLast with
      | none =>
        rintro ⟨e, he⟩
        simp only [he]
        exact ⟨e, rfl⟩
      | some r =>
        intro he
        simp only at he
        simp only [he, ok_bind, Option.map_some]

example : runList [.push 1, .push 2, .push 10, .pop, .push 15] [] = some ([1, 2, 15], [some 10]) := by decide

/-- **C33, queries.** On the packed form of a list: number of nibbles, emptiness, last nibble, nibble and
bit at every index (a panic out of range), construction from a list or from bytes. -/
theorem C33_queries (l : List Nibble) :
    (NibblePath.ofList l).numNibbles = l.length ∧
    (NibblePath.ofList l).isEmpty = l.isEmpty ∧
    (NibblePath.ofList l).last = .ok l.getLast? ∧
    (∀ i (h : i < l.length), (NibblePath.ofList l).getNibble i = .ok l[i]) ∧
    (∀ i, l.length ≤ i → ∃ e, (NibblePath.ofList l).getNibble i = .error (.panic e)) ∧
    (∀ i (h : i < 4 * l.length), (NibblePath.ofList l).getBit i =
      .ok ((l[i / 4]'(by omega)).val.testBit (3 - i % 4))) ∧
    (∀ i, 4 * l.length ≤ i → ∃ e, (NibblePath.ofList l).getBit i = .error (.panic e)) ∧
    (l.length ≤ 64 → NibblePath.collect l = .ok (NibblePath.ofList l)) := by
  refine ⟨rfl, ?_, last_ofList l, fun i h => getNibble_ofList l i h, fun i h => getNibble_out l i h, ?_, ?_, collect_ofList l⟩
  · cases l <;> rfl
  · intro i h
    rw [getBit_ofList l i h]
    congr 1
    have hb : (pathBits l)[i]? = l[i / 4]?.bind (fun a => (nibbleBits a)[i % 4]?) :=
      getElem?_flatMap_const nibbleBits 4 (by decide) (fun _ => rfl) l i
    have hi4 : i / 4 < l.length := by omega
    rw [List.getElem?_eq_getElem hi4, Option.bind_some, List.getElem?_eq_getElem (by rw [pathBits_length]; exact h)] at hb
    have h4 : ∀ (n : Nibble) (j : Fin 4), (nibbleBits n)[j.val]? = some (n.val.testBit (3 - j.val)) := by decide
    have := h4 l[i / 4] ⟨i % 4, Nat.mod_lt _ (by decide)⟩
    rw [this] at hb
    exact Option.some.inj hb
  · intro i h
    unfold NibblePath.getBit NibblePath.ofList
    rw [if_pos (by simp only; omega)]
    exact ⟨_, rfl⟩

/-- **C33, construction from bytes**: `new(bytes)` is the path of all the bytes' nibbles; `new_odd(bytes)` is
that path without its last nibble and is accepted exactly when that nibble exists and is zero. -/
theorem C33_new (bytes : List UInt8) :
    NibblePath.new bytes = NibblePath.ofList (bytes.flatMap byteNibbles) ∧
    ((bytes.flatMap byteNibbles).getLast? = some 0 →
      NibblePath.newOdd bytes = .ok (NibblePath.ofList (bytes.flatMap byteNibbles).dropLast)) ∧
    ((bytes.flatMap byteNibbles).getLast? ≠ some 0 → ∃ e, NibblePath.newOdd bytes = .error (.panic e)) := by
  refine ⟨new_ofList bytes, ?_⟩
  rcases List.eq_nil_or_concat bytes with rfl | ⟨bs, b, rfl⟩
  · exact ⟨fun h => by simp at h, fun _ => ⟨_, rfl⟩⟩
  · rw [List.concat_eq_append]
    have hsplit : (bs ++ [b]).flatMap byteNibbles =
        bs.flatMap byteNibbles ++ [⟨(b.toNat >>> 4) % 16, Nat.mod_lt _ (by decide)⟩] ++ [⟨b.toNat % 16, Nat.mod_lt _ (by decide)⟩] := by
      simp [byteNibbles]
    rw [hsplit]
    rw [List.getLast?_append, List.getLast?_singleton, Option.some_or, List.dropLast_append_of_ne_nil (by simp),
      List.dropLast_singleton, List.append_nil]
    have hb : ∀ n : Fin 256, (UInt8.ofNat n.val &&& 0x0f = 0 ↔ n.val % 16 = 0) ∧
        (n.val % 16 = 0 → UInt8.ofNat (16 * ((n.val >>> 4) % 16)) = UInt8.ofNat n.val) := by decide +kernel
    have hb := hb ⟨b.toNat, b.toNat_lt⟩
    simp only [UInt8.ofNat_toNat] at hb
    unfold NibblePath.newOdd
    rw [List.getLast?_append, List.getLast?_singleton, Option.some_or]
    simp only [Option.some.injEq, ne_eq]
    have hz : ((⟨b.toNat % 16, Nat.mod_lt _ (by decide)⟩ : Nibble) = 0) ↔ b.toNat % 16 = 0 := by
      rw [Fin.ext_iff]; rfl
    rw [hz]
    constructor
    · intro h
      rw [if_pos (hb.1.2 h)]
      have hlen : (bs.flatMap byteNibbles).length = 2 * bs.length := by
        clear hsplit
        induction bs with
        | nil => rfl
        | cons c cs ih => rw [List.flatMap_cons, List.length_append, ih]; simp [byteNibbles]; omega
      unfold NibblePath.ofList
      rw [pack_snoc_even _ _ (by rw [hlen]; omega), pack_flatMap, hb.2 h]
      simp only [List.length_append, List.length_singleton, hlen]
      congr 2
      omega
    · intro h
      rw [if_neg (fun hc => h (hb.1.1 hc))]
      exact ⟨_, rfl⟩

example : ([0x12, 0x30] : List UInt8).flatMap byteNibbles = [1, 2, 3, 0] := by decide

/-- **C33, uniqueness and order.** Equal packed paths come from equal lists, and the derived order compares
the number of nibbles first and the nibbles lexicographically for equal lengths. -/
theorem C33_unique (l l' : List Nibble) :
    (NibblePath.ofList l = NibblePath.ofList l' ↔ l = l') ∧
    ((NibblePath.ofList l).lt (NibblePath.ofList l') ↔ l.length < l'.length ∨ l.length = l'.length ∧ l < l') := by
  refine ⟨⟨ofList_inj, fun h => h ▸ rfl⟩, ?_⟩
  unfold NibblePath.lt NibblePath.ofList
  simp only
  constructor
  · rintro (h | ⟨h, h'⟩)
    · exact .inl h
    · exact .inr ⟨h, (pack_lt h).1 h'⟩
  · rintro (h | ⟨h, h'⟩)
    · exact .inl h
    · exact .inr ⟨h, (pack_lt h).2 h'⟩

/-- **C33, nibble iterator.** `nibbles()` yields the list from its first nibble; at every later point `next`
and `peek` deliver the head of what remains, and visited/remaining iterators and `get_nibble_path` describe
the part already yielded and the part to come. -/
theorem C33_iter (l : List Nibble) :
    ((NibblePath.ofList l).nibbles.At l ∧ (NibblePath.ofList l).nibbles.remaining l = l ∧
      (NibblePath.ofList l).nibbles.visited l = []) ∧
    ∀ it : NibbleIter, it.At l →
      (∃ it', it.next = .ok ((it.remaining l).head?, it') ∧ it'.At l ∧ it'.remaining l = (it.remaining l).tail ∧
        it'.visited l = it.visited l ++ (it.remaining l).head?.toList) ∧
      it.peek = .ok (it.remaining l).head? ∧
      it.isFinished = .ok (it.remaining l).isEmpty ∧
      it.numNibbles = (it.visited l).length + (it.remaining l).length ∧
      (it.visitedNibbles.At l ∧ it.visitedNibbles.remaining l = it.visited l) ∧
      (it.remainingNibbles.At l ∧ it.remainingNibbles.remaining l = it.remaining l ∧ it.remainingNibbles.visited l = []) ∧
      (l.length ≤ 64 → it.getNibblePath = .ok (NibblePath.ofList (it.visited l ++ it.remaining l))) := by
  refine ⟨⟨⟨rfl, Nat.le_refl _, Nat.zero_le _, Nat.le_refl _⟩, ?_, rfl⟩, fun it h => ?_⟩
  · simp [NibbleIter.remaining, NibblePath.nibbles, NibblePath.ofList]
  · obtain ⟨it', a1, a2, a3, a4, -, -⟩ := h.next
    refine ⟨⟨it', a1, a2, a3, a4⟩, h.peek, ?_, ?_, h.visitedIter, h.remainingIter, fun hl => h.getNibblePath ?_⟩
    · unfold NibbleIter.isFinished
      rw [h.peek, ok_bind]
      cases it.remaining l <;> rfl
    · have h1 := h.start_le
      have h2 := h.pos_le
      have h3 := h.stop_le
      simp [NibbleIter.numNibbles, NibbleIter.visited, NibbleIter.remaining]
      omega
    · have h3 := h.stop_le
      omega

/-- The bits a bit iterator has yet to yield. -/
def BitIter.remaining (it : BitIter) (l : List Nibble) : List Bool :=
  ((l.flatMap Nibble.bits).take it.stop).drop it.pos

/-- **C33, bit iterator.** `bits()` yields the four bits of every nibble, most significant first, from the
front (`next`, `peek`) and from the back (`next_back`). -/
theorem C33_bits (l : List Nibble) :
    (NibblePath.ofList l).bits.remaining l = l.flatMap Nibble.bits ∧
    (∀ it : NibbleIter, it.At l → it.bits.path = it.path ∧ it.bits.stop ≤ 4 * l.length ∧
      it.bits.remaining l = (it.remaining l).flatMap Nibble.bits) ∧
    ∀ it : BitIter, it.path = NibblePath.ofList l → it.stop ≤ 4 * l.length →
      (∃ it', it.next = .ok ((it.remaining l).head?, it') ∧ it'.path = it.path ∧ it'.stop = it.stop ∧
        it'.remaining l = (it.remaining l).tail) ∧
      it.peek = .ok (it.remaining l).head? ∧
      (∃ it', it.nextBack = .ok ((it.remaining l).getLast?, it') ∧ it'.path = it.path ∧ it'.stop ≤ it.stop ∧
        it'.remaining l = (it.remaining l).dropLast) := by
  have hbits : ∀ l : List Nibble, l.flatMap Nibble.bits = pathBits l := fun l => rfl
  refine ⟨?_, ?_, ?_⟩
  · unfold BitIter.remaining NibblePath.bits
    simp only [NibblePath.ofList, List.drop_zero]
    rw [List.take_of_length_le]
    rw [hbits, pathBits_length]; omega
  · intro it h
    refine ⟨rfl, by have := h.stop_le; simp only [NibbleIter.bits]; omega, ?_⟩
    have ht : ∀ (l : List Nibble) (n : Nat), (pathBits l).take (n * 4) = pathBits (l.take n) := by
      intro l
      induction l with
      | nil => intro n; simp [pathBits]
      | cons a l ih =>
        intro n
        cases n with
        | zero => simp [pathBits]
        | succ n =>
          rw [pathBits_cons, List.take_succ_cons, pathBits_cons, ← ih n]
          have : (n + 1) * 4 = (nibbleBits a).length + n * 4 := by simp [nibbleBits]; omega
          rw [this, List.take_length_add_append]
    have hd : ∀ (l : List Nibble) (n : Nat), (pathBits l).drop (n * 4) = pathBits (l.drop n) := by
      intro l
      induction l with
      | nil => intro n; simp [pathBits]
      | cons a l ih =>
        intro n
        cases n with
        | zero => simp
        | succ n =>
          rw [pathBits_cons, List.drop_succ_cons, ← ih n]
          have : (n + 1) * 4 = (nibbleBits a).length + n * 4 := by simp [nibbleBits]; omega
          rw [this, List.drop_length_add_append]
    unfold BitIter.remaining NibbleIter.bits NibbleIter.remaining
    simp only [hbits]
    rw [ht, hd]
  · intro it hp hs
    have hlen : (pathBits l).length = 4 * l.length := pathBits_length l
    unfold BitIter.next BitIter.peek BitIter.nextBack
    by_cases hlt : it.pos < it.stop
    · have hc : it.remaining l = (pathBits l)[it.pos]'(by omega) ::
          (({ it with pos := it.pos + 1 } : BitIter).remaining l) := by
        unfold BitIter.remaining
        simp only [hbits]
        rw [List.drop_eq_getElem_cons (by simp; omega)]
        simp
      have hl : it.remaining l = (({ it with stop := it.stop - 1 } : BitIter).remaining l) ++
          [(pathBits l)[it.stop - 1]'(by omega)] := by
        unfold BitIter.remaining
        simp only [hbits]
        have h2 : (pathBits l).take it.stop = (pathBits l).take (it.stop - 1) ++ [(pathBits l)[it.stop - 1]'(by omega)] := by
          have := List.take_add_one (l := pathBits l) (i := it.stop - 1)
          rw [List.getElem?_eq_getElem (by omega), Option.toList_some] at this
          rw [← this]
          congr 1
          omega
        rw [h2, List.drop_append_of_le_length (by simp; omega)]
      have g1 : it.path.getBit it.pos = .ok ((pathBits l)[it.pos]'(by omega)) := by
        rw [hp]; exact getBit_ofList l it.pos (by omega)
      have g2 : it.path.getBit (it.stop - 1) = .ok ((pathBits l)[it.stop - 1]'(by omega)) := by
        rw [hp]; exact getBit_ofList l (it.stop - 1) (by omega)
      rw [if_pos hlt, if_pos hlt, if_pos hlt, g1, g2]
      simp only [ok_bind]
      refine ⟨⟨{ it with pos := it.pos + 1 }, by rw [hc]; rfl, rfl, rfl, by rw [hc]; rfl⟩, by rw [hc]; rfl,
        ⟨{ it with stop := it.stop - 1 }, by rw [hl]; simp, rfl, by simp only; omega, by rw [hl]; simp⟩⟩
    · have hn : it.remaining l = [] := by
        unfold BitIter.remaining
        apply List.drop_eq_nil_of_le
        simp; omega
      rw [if_neg hlt, if_neg hlt, if_neg hlt, hn]
      exact ⟨⟨it, rfl, rfl, rfl, hn⟩, rfl, ⟨it, rfl, rfl, Nat.le_refl _, hn⟩⟩

/-! ## C34 -/

/-- **C34.** `skip_common_prefix` on two iterators: the number returned is the length of the longest common
prefix of what the two had yet to yield, and both iterators have moved past exactly that prefix. -/
theorem C34_skip_common_prefix {l l' : List Nibble} {x y : NibbleIter} (hx : x.At l) (hy : y.At l') :
    ∃ c x' y', NibbleIter.skipCommonPrefix (x.stop - x.pos + 1) x y 0 = .ok (c.length, x', y') ∧
      Spec.IsLcp c (x.remaining l) (y.remaining l') ∧ x'.At l ∧ y'.At l' ∧
      x.remaining l = c ++ x'.remaining l ∧ y.remaining l' = c ++ y'.remaining l' := by
  obtain ⟨x', y', e1, e2, e3, e4, e5, -⟩ := skipCommonPrefix_iter (n := 0) hx hy (Nat.lt_succ_self _)
  obtain ⟨c, c1, c2⟩ := skipCommonPrefix_lcp (x.remaining l) (y.remaining l')
  rw [c1] at e1 e4 e5
  simp only [Nat.zero_add] at e1
  refine ⟨c, x', y', e1, c2, e2, e3, ?_, ?_⟩
  · rw [e4]
    obtain ⟨t, ht⟩ := c2.1
    rw [← ht]; simp
  · rw [e5]
    obtain ⟨t, ht⟩ := c2.2.1
    rw [← ht]; simp

/-- **C34, generic items**: the list form of `skip_common_prefix` used by the tree model (also for proof
siblings and bits) has the same meaning. -/
theorem C34_skip_common_prefix_list {α : Type} [DecidableEq α] (xs ys : List α) :
    ∃ c, skipCommonPrefix xs ys = (c.length, xs.drop c.length, ys.drop c.length) ∧ Spec.IsLcp c xs ys :=
  skipCommonPrefix_lcp xs ys

example : Spec.IsLcp [1, 2] [1, 2, 3] [1, 2, 4, 5] := by
  refine ⟨⟨[3], rfl⟩, ⟨[4, 5], rfl⟩, fun d h h' => ?_⟩
  match d, h, h' with
  | [], _, _ => simp
  | [_], _, _ => simp
  | [_, _], _, _ => simp
  | a :: b :: c :: d, h, h' => simp [List.cons_prefix_cons] at h h'; omega

/-- **C34, keys.** `common_prefix_bits_len` is the greatest `n ≤ 256` such that the first `n` bits agree, and
`common_prefix_nibbles_len` the greatest `n ≤ 64` such that the first `n` nibbles agree. -/
theorem C34_common_prefix_len (a b : KeyHash) :
    (∀ n, n ≤ Bytes32.commonPrefixBitsLen a b ↔ n ≤ 256 ∧ ∀ i, i < n → Spec.bit a i = Spec.bit b i) ∧
    (∀ n, n ≤ Bytes32.commonPrefixNibblesLen a b ↔
      n ≤ 64 ∧ ∀ i, i < n → Bytes32.getNibble a i = Bytes32.getNibble b i) := by
  have hmax : Bytes32.commonPrefixBitsLen a b ≤ 256 := by
    unfold Bytes32.commonPrefixBitsLen
    refine Nat.le_trans (List.IsPrefix.length_le (List.takeWhile_prefix _)) ?_
    simp [Bytes32.iterBits]
  have htake : ∀ n, n ≤ 256 → ((keyBits a).take n = (keyBits b).take n ↔ ∀ i, i < n → Spec.bit a i = Spec.bit b i) := by
    intro n hn
    rw [keyBits_take a hn, keyBits_take b hn, List.map_inj_left]
    simp
  have h1 : ∀ n, n ≤ Bytes32.commonPrefixBitsLen a b ↔ n ≤ 256 ∧ ∀ i, i < n → Spec.bit a i = Spec.bit b i := by
    intro n
    constructor
    · intro h
      have hn : n ≤ 256 := by omega
      exact ⟨hn, (htake n hn).1 ((le_commonPrefixBitsLen hn).1 h)⟩
    · rintro ⟨hn, h⟩
      exact (le_commonPrefixBitsLen hn).2 ((htake n hn).2 h)
  refine ⟨h1, fun n => ?_⟩
  unfold Bytes32.commonPrefixNibblesLen
  have h4 : n ≤ Bytes32.commonPrefixBitsLen a b / 4 ↔ 4 * n ≤ Bytes32.commonPrefixBitsLen a b := by omega
  rw [h4]
  have hp : ∀ n, n ≤ 64 → ((keyBits a).take (4 * n) = (keyBits b).take (4 * n) ↔
      ∀ i, i < n → Bytes32.getNibble a i = Bytes32.getNibble b i) := by
    intro n hn
    have ht : ∀ k : KeyHash, (keyBits k).take (4 * n) = pathBits (k.nibbles.take n) := by
      intro k
      have h0 : pathBits (k.nibbles.take n) <+: keyBits k := pathBits_prefix.2 (List.take_prefix _ _)
      have hl : (pathBits (k.nibbles.take n)).length = 4 * n := by
        rw [pathBits_length, List.length_take, nibbles_length]; omega
      rw [← hl]
      exact (List.prefix_iff_eq_take.1 h0).symm
    rw [ht, ht]
    constructor
    · intro h i hi
      have h' := pathBits_inj h
      obtain ⟨x, x1, -, x3⟩ := nibbles_get a i (by omega)
      obtain ⟨y, y1, -, y3⟩ := nibbles_get b i (by omega)
      have : (a.nibbles.take n)[i]? = (b.nibbles.take n)[i]? := by rw [h']
      rw [List.getElem?_take_of_lt hi, List.getElem?_take_of_lt hi, x1, y1] at this
      rw [x3, y3, Option.some.inj this]
    · intro h
      congr 1
      apply List.ext_getElem?
      intro i
      by_cases hi : i < n
      · obtain ⟨x, x1, -, x3⟩ := nibbles_get a i (by omega)
        obtain ⟨y, y1, -, y3⟩ := nibbles_get b i (by omega)
        have := h i hi
        rw [x3, y3, ofNat_nibble_inj] at this
        rw [List.getElem?_take_of_lt hi, List.getElem?_take_of_lt hi, x1, y1, this]
      · rw [List.getElem?_eq_none (by simp; omega), List.getElem?_eq_none (by simp; omega)]
  constructor
  · intro h
    have hn : n ≤ 64 := by omega
    exact ⟨hn, (hp n hn).1 ((le_commonPrefixBitsLen (by omega)).1 h)⟩
  · rintro ⟨hn, h⟩
    exact (le_commonPrefixBitsLen (by omega)).2 ((hp n hn).2 h)

/-! ## C35 -/

/-- **C35.** The nibble accessors and the bit iterator of a 32-byte key read the same 256-bit big-endian
string: bit `i` is `Spec.bit`, the `i`-th nibble is the four bits from `4i` on, and `from_bit_iter` rebuilds
the key from its bits. -/
theorem C35_views (k : KeyHash) :
    Bytes32.iterBits k = (List.range 256).map (Spec.bit k) ∧
    (∀ i, i < 64 → Bytes32.nibble k i = Bytes32.getNibble k i ∧
      (Bytes32.getNibble k i).toNat = 8 * (Spec.bit k (4 * i)).toNat + 4 * (Spec.bit k (4 * i + 1)).toNat +
        2 * (Spec.bit k (4 * i + 2)).toNat + (Spec.bit k (4 * i + 3)).toNat ∧
      (k.nibbles[i]?).map (fun n => UInt8.ofNat n.val) = some (Bytes32.getNibble k i)) ∧
    Bytes32.fromBitIter (Bytes32.iterBits k) = some k.val := by
  refine ⟨?_, ?_, fromBitIter_iterBits k⟩
  · unfold Bytes32.iterBits
    apply List.map_congr_left
    intro i _
    exact getBit_eq k i
  · intro i hi
    obtain ⟨n, n1, n2, n3⟩ := nibbles_get k i hi
    refine ⟨by rw [n2, n3], ?_, by rw [n1, n3]; rfl⟩
    rw [n3]
    have hb : ∀ j, j < 4 → Spec.bit k (4 * i + j) = n.val.testBit (3 - j) := by
      intro j hj
      have h1 := keyBits_getElem? k (4 * i + j) (by omega)
      have h2 : (keyBits k)[4 * i + j]? = k.nibbles[(4 * i + j) / 4]?.bind (fun a => (nibbleBits a)[(4 * i + j) % 4]?) :=
        getElem?_flatMap_const nibbleBits 4 (by decide) (fun _ => rfl) k.nibbles (4 * i + j)
      have e1 : (4 * i + j) / 4 = i := by omega
      have e2 : (4 * i + j) % 4 = j := by omega
      rw [e1, e2, n1, Option.bind_some] at h2
      have h4 : ∀ (n : Nibble) (j : Fin 4), (nibbleBits n)[j.val]? = some (n.val.testBit (3 - j.val)) := by decide
      rw [h4 n ⟨j, hj⟩, h1] at h2
      exact Option.some.inj h2
    have h0 := hb 0 (by omega)
    rw [Nat.add_zero] at h0
    rw [h0, hb 1 (by omega), hb 2 (by omega), hb 3 (by omega)]
    revert n
    have : ∀ n : Nibble, (UInt8.ofNat n.val).toNat = 8 * (n.val.testBit (3 - 0)).toNat + 4 * (n.val.testBit (3 - 1)).toNat +
        2 * (n.val.testBit (3 - 2)).toNat + (n.val.testBit (3 - 3)).toNat := by decide
    intro n _ _ _ _ _
    exact this n

/-- **C35, order.** Byte order of keys (the derived `Ord` of `KeyHash`) is the lexicographic order of their
nibbles and of their bits. -/
theorem C35_order (k k' : KeyHash) :
    (k.val < k'.val ↔ (List.range 64).map (Bytes32.getNibble k) < (List.range 64).map (Bytes32.getNibble k')) ∧
    (k.val < k'.val ↔ Bytes32.iterBits k < Bytes32.iterBits k') := by
  have hn : ∀ k : KeyHash, (List.range 64).map (Bytes32.getNibble k) = k.nibbles.map (fun n => UInt8.ofNat n.val) := by
    intro k
    apply List.ext_getElem?
    intro i
    by_cases hi : i < 64
    · obtain ⟨n, n1, n2, n3⟩ := nibbles_get k i hi
      rw [List.getElem?_map, List.getElem?_range hi, List.getElem?_map, n1, Option.map_some, Option.map_some, n3]
    · rw [List.getElem?_eq_none (by simp; omega), List.getElem?_eq_none (by simp [nibbles_length]; omega)]
  have hm : ∀ p q : List Nibble, p.map (fun n => UInt8.ofNat n.val) < q.map (fun n => UInt8.ofNat n.val) ↔ p < q := by
    intro p
    induction p with
    | nil => intro q; cases q <;> simp
    | cons a p ih =>
      intro q
      cases q with
      | nil => simp
      | cons b q =>
        simp only [List.map_cons]
        rw [List.cons_lt_cons_iff, List.cons_lt_cons_iff, ih, ofNat_nibble_lt, ofNat_nibble_inj, Fin.lt_def]
  constructor
  · rw [hn, hn, hm, nibbles_lt]
  · rw [iterBits_eq, iterBits_eq]
    unfold keyBits
    rw [pathBits_lt (by rw [nibbles_length, nibbles_length]), nibbles_lt]

/-! ## C36 -/

/-- **C36.** On key-sorted pairs whose keys agree in their first `idx` nibbles, the ranges are consecutive,
non-empty and cover all positions; each range holds exactly the positions with one value of nibble `idx`;
the nibbles of successive ranges increase. -/
theorem C36_nibble_ranges (kvs : List (KeyHash × ValueHash)) (idx : Nat) (hi : idx < 64)
    (hsorted : kvs.Pairwise (fun a b => a.1.val < b.1.val))
    (hshare : ∀ a ∈ kvs, ∀ b ∈ kvs, ∀ j, j < idx → Bytes32.getNibble a.1 j = Bytes32.getNibble b.1 j) :
    ∃ rs, nibbleRanges kvs idx = .ok rs ∧ Spec.Tiles 0 rs kvs.length ∧
      (∀ lr ∈ rs, ∀ (i : Nat) (hi : i < kvs.length), ∀ a, kvs[lr.1]? = some a →
        (Bytes32.getNibble kvs[i].1 idx = Bytes32.getNibble a.1 idx ↔ lr.1 ≤ i ∧ i ≤ lr.2)) ∧
      rs.Pairwise (fun x y => ∀ a ∈ kvs[x.1]?, ∀ b ∈ kvs[y.1]?, Bytes32.getNibble a.1 idx < Bytes32.getNibble b.1 idx) := by
  have htake : ∀ a ∈ kvs, ∀ b ∈ kvs, a.1.nibbles.take idx = b.1.nibbles.take idx := by
    intro a ha b hb
    apply List.ext_getElem?
    intro i
    by_cases h : i < idx
    · obtain ⟨x, x1, -, x3⟩ := nibbles_get a.1 i (by omega)
      obtain ⟨y, y1, -, y3⟩ := nibbles_get b.1 i (by omega)
      have := hshare a ha b hb i h
      rw [x3, y3, ofNat_nibble_inj] at this
      rw [List.getElem?_take_of_lt h, List.getElem?_take_of_lt h, x1, y1, this]
    · rw [List.getElem?_eq_none (by simp; omega), List.getElem?_eq_none (by simp; omega)]
  let f : Nat → UInt8 := fun i => match kvs[i]? with | some a => Bytes32.getNibble a.1 idx | none => 0
  have hfi : ∀ i (h : i < kvs.length), f i = Bytes32.getNibble kvs[i].1 idx := by
    intro i h
    show (match kvs[i]? with | some a => Bytes32.getNibble a.1 idx | none => 0) = _
    rw [List.getElem?_eq_getElem h]
  have hf : ∀ i, i < kvs.length → kvNibble kvs idx i = .ok (f i) := by
    intro i h
    rw [hfi i h]
    unfold kvNibble
    rw [List.getElem?_eq_getElem h]
    obtain ⟨n, -, n2, n3⟩ := nibbles_get kvs[i].1 idx hi
    simp only [n2, n3]
  have hm : ∀ i j, i ≤ j → j < kvs.length → f i ≤ f j := by
    intro i j hij hj
    have hii : i < kvs.length := by omega
    rw [hfi i hii, hfi j hj]
    obtain ⟨a, a1, -, a3⟩ := nibbles_get kvs[i].1 idx hi
    obtain ⟨b, b1, -, b3⟩ := nibbles_get kvs[j].1 idx hi
    rw [a3, b3]
    have hle : a.val ≤ b.val := by
      refine nibble_mono (htake _ (List.getElem_mem hii) _ (List.getElem_mem hj)) a1 b1 ?_
      rw [nibbles_lt]
      rcases Nat.lt_or_eq_of_le hij with h | h
      · exact fun hc => List.lt_irrefl _ (List.lt_trans hc (List.pairwise_iff_getElem.1 hsorted i j hii hj h))
      · subst h; exact List.lt_irrefl _
    rw [← UInt8.not_lt, ofNat_nibble_lt]
    omega
  obtain ⟨rs, e1, e2, e3, e4⟩ := rangesFrom_spec hf hm (kvs.length + 1) 0 (by omega) (Nat.zero_le _) (fun n h => by omega)
  refine ⟨rs, ?_, e2, ?_, ?_⟩
  · unfold nibbleRanges
    rw [if_neg (by simp only [rootNibbleHeight]; omega)]
    exact e1
  · intro lr hlr i hi' a ha
    obtain ⟨-, h2, h3⟩ := e3 lr hlr
    rw [List.getElem?_eq_getElem h2, Option.some.injEq] at ha
    subst ha
    rw [← hfi i hi', ← hfi lr.1 h2]
    exact h3 i hi'
  · refine List.Pairwise.imp_of_mem ?_ e4
    intro x y hx hy h a ha b hb
    have h1 := (e3 x hx).2.1
    have h2 := (e3 y hy).2.1
    rw [List.getElem?_eq_getElem h1, Option.mem_some] at ha
    rw [List.getElem?_eq_getElem h2, Option.mem_some] at hb
    subst ha hb
    rw [← hfi _ h1, ← hfi _ h2]
    exact h

/-- **C36.** A nibble position that keys do not have is refused. -/
theorem C36_refuses_depth (kvs : List (KeyHash × ValueHash)) (idx : Nat) (hi : 64 ≤ idx) : ∃ m, nibbleRanges kvs idx = .error (.panic m) := by
  unfold nibbleRanges
  rw [if_pos (by simp only [rootNibbleHeight]; omega)]
  exact ⟨_, rfl⟩

/-- Three sorted keys, two of them starting with the nibble 1. -/
def Sample.kvs : List (KeyHash × ValueHash) :=
  [(Sample.key 0x11, placeholder), (Sample.key 0x1f, placeholder), (Sample.key 0x20, placeholder)]

example : Sample.kvs.Pairwise (fun a b => a.1.val < b.1.val) := by decide +kernel

example : (match nibbleRanges Sample.kvs 0 with
    | .ok rs => decide (rs = [(0, 1), (2, 2)])
    | .error _ => false) = true := by decide +kernel

example : (⟨NibblePath.ofList [1, 2, 3], 1, 3, 0⟩ : NibbleIter).At [1, 2, 3] ∧
    (⟨NibblePath.ofList [1, 2, 3], 1, 3, 0⟩ : NibbleIter).remaining [1, 2, 3] = [2, 3] :=
  ⟨⟨rfl, by decide, by decide, by decide⟩, rfl⟩

end Jmt

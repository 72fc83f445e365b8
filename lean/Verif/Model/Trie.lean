import Verif.Cpp

/-!
# Model of `class Trie`, /repo/src/include/string_utils/Trie.h and /repo/src/string_utils/Trie.cpp

Indices and counters of type `int` are taken to be unbounded (tables with fewer than 2^31 entries).
A `for` loop over the characters of `word` is a recursion over the rest of the word; `word.substr(ind)` is the rest
after the current character and `ind == word.size()` says that the rest is empty.
-/

namespace Trie
open Cpp

/-- `AutoArray<Type, initialLength>`, Trie.h:15-43: the first `size` entries of `val` are the elements of `vec`. -/
structure AA (α : Type) where
  init : Nat
  dflt : α
  size : Int
  val : Int → α

/-- Constructor, Trie.h:18-21. -/
def AA.new (init : Nat) (dflt : α) : AA α := ⟨init, dflt, init, fun _ => dflt⟩

/-- `get(pos)`, Trie.h:22: unchecked. -/
def AA.get (a : AA α) (p : Int) : Out α := if 0 ≤ p ∧ p < a.size then .ok (a.val p) else .ub

/-- `getWithCheck(pos)`, Trie.h:24-27. -/
def AA.getc (a : AA α) (p : Int) : Out α :=
  if p < a.size then (if 0 ≤ p then .ok (a.val p) else .ub) else .ok a.dflt

/-- `set(pos, value)`, Trie.h:29-35. -/
def AA.set (a : AA α) (p : Int) (v : α) : Out (AA α) :=
  if 0 ≤ p then
    .ok { a with
      size := if p ≥ a.size then p + 1 + a.init else a.size
      val := fun q => if q = p then v else if q < a.size then a.val q else a.dflt }
  else .ub

/-- A mapper of characters, as `int (*mapChar)(char)`. -/
abbrev Mapper := Byte → Out Int

/-- `private_::mapChar(ch)`, Trie.cpp:10-14. -/
def mapChar : Mapper := fun ch =>
  if ch = 1 then .ok 1
  else if charVal ch < 97 ∨ charVal ch > 122 then .exit
  else .ok (charVal ch - 97 + 2)

/-- `private_::mapInt(n)`, Trie.cpp:16-19 (conversion to `char` keeps the low byte). -/
def mapInt (n : Int) : Byte := if n = 1 then 1 else UInt8.ofInt (n - 2 + 97)

/-- First index (from `i`) at which the first string differs from the second, loop Trie.cpp:37-43; the first string
is not longer. -/
def firstDiff : Str → Str → Nat → Option Nat
  | [], _, _ => none
  | _ :: _, [], _ => none
  | a :: s, b :: t, i => if a ≠ b then some i else firstDiff s t (i + 1)

/-- `commonPrefix(string1, string2)`, Trie.cpp:23-49. -/
def commonPrefix (s1 s2 : Str) : Str :=
  let (a, b) := if s1.length > s2.length then (s2, s1) else (s1, s2)
  match firstDiff a b 0 with
  | some i => a.take i
  | none => if a.length = b.length then [] else a

/-- The data members of `Trie` other than the mappers, Trie.h:133-141. -/
structure St where
  base : AA Int
  check : AA Int
  tail : AA Str
  pos : Int
  tailList : List Int
  size : Int

/-- `endChar`, Trie.h:137. -/
def endChar : Byte := 1

/-- Constructor, Trie.cpp:55-62 (without the assignments of the mappers). -/
def new : Out St := do
  let base ← (AA.new 26 (-1) : AA Int).set 0 0
  .ok ⟨base, AA.new 26 (-1), AA.new 0 [], 0, [], 0⟩

/-- The loop of `retrieve(word)`, Trie.cpp:68-76, and its end; `ms` is `StringAdapter::mapChar`. -/
def retrieve (ms : Mapper) (st : St) : Int → Str → Out Bool
  | _, [] => .ok true
  | n, c :: rest => do
    let i ← ms c
    let next := (← st.base.get n) + i
    if (← st.check.getc next) ≠ n then .ok false else
    if (← st.base.getc next) < -1 then
      if rest = [] then .ok true else do
        .ok (decide ((← st.tail.getc (-(← st.base.get next) - 2)) = rest))
    else retrieve ms st next rest

/-- The loop of the functions `checkAvailable`, Trie.cpp:231-256, which differ only in how the list of offsets is
given.  It runs for at most as many rounds as the table is long, plus one; the model gives up after that. -/
def checkAvailableFrom (check : AA Int) (list : List Int) : Nat → Int → Out Int
  | 0, _ => .diverge
  | fuel + 1, q => do
    let free ← list.foldlM (fun ok i => do if ok then .ok (decide ((← check.getc (q + i)) = -1)) else .ok false) true
    if free then .ok q else checkAvailableFrom check list fuel (q + 1)

/-- `checkAvailable(list)`, `checkAvailable(i)`, `checkAvailable(i, j)`, Trie.cpp:231-256. -/
def checkAvailable (st : St) (list : List Int) : Out Int :=
  checkAvailableFrom st.check list (st.check.size.toNat + 1) 0

/-- `outArcs(n)`, Trie.cpp:258-265. -/
def outArcs (st : St) (n : Int) : Out (List Int) := do
  let b ← st.base.get n
  ((List.range 27).map fun (i : Nat) => (i : Int) + 1).foldlM
    (fun l i => do if (← st.check.getc (b + i)) = n then .ok (l ++ [i]) else .ok l) []

/-- `base.set(p, v)` -/
def setBase (st : St) (p v : Int) : Out St := do .ok { st with base := ← st.base.set p v }
/-- `check.set(p, v)` -/
def setCheck (st : St) (p v : Int) : Out St := do .ok { st with check := ← st.check.set p v }
/-- `tail.set(p, v)` -/
def setTailAt (st : St) (p : Int) (v : Str) : Out St := do .ok { st with tail := ← st.tail.set p v }

/-- `nextTail()`, Trie.cpp:274-280. -/
def nextTail (st : St) : Int × St :=
  match st.tailList with
  | [] => (st.pos, { st with pos := st.pos + 1 })
  | t :: l => (t, { st with tailList := l })

/-- `setTail(n, next, rest)`, Trie.cpp:267-272. -/
def setTail (st : St) (n next : Int) (rest : Str) : Out St := do
  let (p, st) := nextTail st
  let st ← setTailAt st p rest
  let st ← setBase st next (-p - 2)
  setCheck st next n

/-- The loop Trie.cpp:124-129. -/
def chain (ms : Mapper) : St → Int → Str → Out (St × Int)
  | st, next, [] => .ok (st, next)
  | st, next, c :: cs => do
    let j ← ms c
    let available ← checkAvailable st [j]
    let st ← setBase st next available
    let st ← setCheck st (available + j) next
    chain ms st ((← st.base.get next) + j) cs

/-- Trie.cpp:119-152: the leaf `next`, which holds a tail, is split; `rest` is `word.substr(ind)`; `mo` is the member
`mapChar`. -/
def split (ms mo : Mapper) (st : St) (next : Int) (rest : Str) : Out St := do
  let temp := -(← st.base.get next) - 2
  let tailTemp ← st.tail.get temp
  let pre := commonPrefix rest tailTemp
  let (st, next) ← chain ms st next pre
  let ct ← strAt tailTemp pre.length
  let ctv ← mo ct
  let cn ← strAt rest pre.length
  let cnv ← mo cn
  let q ← checkAvailable st [ctv, cnv]
  let st ← setBase st next q
  let st ← (if ct = endChar then do
      let st ← setBase st (q + ctv) (-1)
      .ok { st with tailList := st.tailList ++ [temp] }
    else do
      let st ← setBase st (q + ctv) (-temp - 2)
      setTailAt st temp (tailTemp.drop (pre.length + 1)))
  let st ← setCheck st (q + ctv) next
  let st ← (if cn = endChar then setBase st (q + cnv) (-1)
    else do
      let (p, st) := nextTail st
      let st ← setBase st (q + cnv) (-p - 2)
      setTailAt st p (rest.drop (pre.length + 1)))
  setCheck st (q + cnv) next

/-- Body of the loop Trie.cpp:176-192. -/
def moveArc (tempBase newBase : Int) (s : St × Int) (j : Int) : Out (St × Int) := do
  let (st, nodeOther) := s
  let old := tempBase + j
  let new := newBase + j
  let nodeOther := if old = nodeOther then new else nodeOther
  let st ← setBase st new (← st.base.get old)
  let st ← setCheck st new (← st.check.get old)
  let st ← (if (← st.base.get old) > -1 then do
      (← outArcs st old).foldlM (fun st k => do setCheck st ((← st.base.get old) + k) new) st
    else .ok st)
  let st ← setBase st old (-1)
  let st ← setCheck st old (-1)
  .ok (st, nodeOther)

/-- Trie.cpp:155-202: the slot `next` for the arc `i` of `n` belongs to another node. -/
def relocate (st : St) (n next i : Int) (rest : Str) : Out St := do
  let listN ← outArcs st n
  let other ← st.check.get next
  let listCheck ← outArcs st other
  let (nodeModify, list, newBase) ← (
    if listN.length + 1 < listCheck.length then do
      .ok (n, listN, ← checkAvailable st (listN ++ [i]))
    else do .ok (other, listCheck, ← checkAvailable st listCheck))
  let tempBase ← st.base.get nodeModify
  let st ← setBase st nodeModify newBase
  let (st, nodeOther) ← list.foldlM (moveArc tempBase newBase) (st, n)
  let tempNode := (← st.base.get nodeOther) + i
  let st ← (if i = 1 then setBase st tempNode (-1)
    else do
      let (p, st) := nextTail st
      let st ← setBase st tempNode (-p - 2)
      setTailAt st p rest)
  setCheck st tempNode nodeOther

/-- The loop of `insert_(word)`, Trie.cpp:112-206. -/
def insertGo (ms mo : Mapper) (st : St) : Int → Str → Out St
  | _, [] => .ok st
  | n, c :: rest => do
    let i ← ms c
    let next := (← st.base.get n) + i
    if (← st.check.getc next) = -1 then setTail st n next rest
    else if (← st.check.get next) = n then
      if (← st.base.get next) < -1 then split ms mo st next rest
      else insertGo ms mo st next rest
    else relocate st n next i rest

/-- `contain(str)`, Trie.cpp:287. -/
def contain (ms : Mapper) (st : St) (w : Str) : Out Bool := retrieve ms st 0 (w ++ [endChar])

/-- `insert(str)`, Trie.cpp:282-286. -/
def insert (ms mo : Mapper) (st : St) (w : Str) : Out St := do
  if ← contain ms st w then .ok st else
  let st ← insertGo ms mo st 0 (w ++ [endChar])
  .ok { st with size := st.size + 1 }

/-- The loop of `remove_(word)`, Trie.cpp:213-228. -/
def removeGo (ms : Mapper) (st : St) : Int → Str → Out (St × Bool)
  | n, [] => do .ok (← setCheck st n (-1), true)
  | n, c :: rest => do
    let i ← ms c
    let next := (← st.base.get n) + i
    if (← st.check.get next) ≠ n then .ok (st, false) else
    if (← st.base.get next) < -1 then
      if (← st.tail.getc (-(← st.base.get next) - 2)) = rest then do
        let st ← setBase st next (-1)
        let st ← setCheck st next (-1)
        .ok (st, true)
      else .ok (st, false)
    else removeGo ms st next rest

/-- `remove(str)`, Trie.cpp:288-290. -/
def remove (ms : Mapper) (st : St) (w : Str) : Out St := do
  let (st, r) ← removeGo ms st 0 (w ++ [endChar])
  .ok (if r then { st with size := st.size - 1 } else st)

/-- `visit(n, offset, buffer)`, Trie.cpp:79-106; returns the result and the new values of the three variables. -/
def visit (st : St) : Nat → Int → Int → List Int → Out (Bool × Int × Int × List Int)
  | 0, _, _, _ => .diverge
  | fuel + 1, n, offset, buffer => do
    if offset < 28 then
      let next := (← st.base.getc n) + offset
      if (← st.check.getc next) ≠ n then visit st fuel n (offset + 1) buffer
      else if offset = 1 then .ok (true, n, offset + 1, buffer ++ [offset, -1])
      else if (← st.base.getc next) < -1 then .ok (true, n, offset + 1, buffer ++ [offset, ← st.base.getc next])
      else visit st fuel next 1 (buffer ++ [offset])
    else if buffer.length ≤ 1 then .ok (false, n, offset, buffer)
    else
      let buffer := buffer.dropLast
      visit st fuel (← st.check.getc n) (buffer.getLastD 0 + 1) buffer

/-- The members of `Trie::iterator`, Trie.h:254-259. -/
structure Iter where
  n : Int
  offset : Int
  buffer : List Int
  done : Bool
  deriving DecidableEq

/-- `operator++`, Trie.h:228-237.  `pop_back` of an empty vector cannot happen: a non-empty buffer has at least two
elements here whenever the last call of `visit` returned true. -/
def Iter.next (st : St) (fuel : Nat) (it : Iter) : Out Iter := do
  if it.done then .ok it else
  let buffer := if it.buffer = [] then it.buffer else it.buffer.dropLast.dropLast
  let (r, n, offset, buffer) ← visit st fuel it.n it.offset buffer
  .ok ⟨n, offset, buffer, !r⟩

/-- `begin()`, Trie.h:203-206, 265. -/
def begin (st : St) (fuel : Nat) : Out Iter := Iter.next st fuel ⟨0, 1, [], false⟩

/-- `end()`, Trie.h:204-206, 270: `++` does nothing. -/
def endIter (st : St) (fuel : Nat) : Out Iter := Iter.next st fuel ⟨0, 1, [], true⟩

/-- `operator==`, Trie.h:239-249; `same` says that both iterators belong to one trie.  The copy constructor,
Trie.h:207-212, copies all members, so a copy is the same `Iter`. -/
def Iter.eq (same : Bool) (a b : Iter) : Bool :=
  if a.done || b.done then
    if a.done && b.done then true else false
  else same && decide (a.n = b.n) && decide (a.offset = b.offset) && decide (a.buffer = b.buffer)

/-- `operator!=`, Trie.h:251. -/
def Iter.ne (same : Bool) (a b : Iter) : Bool := !a.eq same b

/-- The loop of `operator*`, Trie.h:216-224. -/
def derefGo (mi : Int → Byte) (st : St) : List Int → Str → Out Str
  | [], s => .ok s
  | i :: l, s =>
    if i = 1 then .ok s
    else if i < 0 then do
      let ending ← st.tail.get (-i - 2)
      .ok (s ++ ending.take (ending.length - 1))
    else derefGo mi st l (s ++ [mi i])

/-- `operator*`, Trie.h:214-226. -/
def Iter.deref (mi : Int → Byte) (st : St) (it : Iter) : Out Str := derefGo mi st it.buffer []

/-- A client's `for (auto s : trie)`: the sequence of words it sees. -/
def iterateFrom (mi : Int → Byte) (st : St) (fuel : Nat) : Nat → Iter → Out (List Str)
  | 0, _ => .diverge
  | k + 1, it => do
    if it.done then .ok [] else
    let w ← it.deref mi st
    let it ← it.next st fuel
    .ok (w :: (← iterateFrom mi st fuel k it))

/-- A client's loop `for (auto it = first; it != last; ++it)` over `*it`. -/
def iterateRange (mi : Int → Byte) (st : St) (fuel : Nat) : Nat → Iter → Iter → Out (List Str)
  | 0, _, _ => .diverge
  | k + 1, it, last => do
    if it.ne true last then
      let w ← it.deref mi st
      let it ← it.next st fuel
      .ok (w :: (← iterateRange mi st fuel k it last))
    else .ok []

/-- `for (auto s : trie)` -/
def iterate (mi : Int → Byte) (st : St) (fuel : Nat) : Out (List Str) := do
  iterateFrom mi st fuel fuel (← begin st fuel)

/-- `insert` of several words into a new default trie. -/
def build (ws : List Str) : Out St := do
  ws.foldlM (fun st w => insert mapChar mapChar st w) (← new)

/-- The tries of a program: the static member `StringAdapter::mapChar` (Trie.h:144, Trie.cpp:53) and the objects with
their member `mapChar` (Trie.h:138). -/
structure World where
  static : Mapper
  trie : Nat → Option (St × Mapper)

/-- The construction `Trie t(mapChar, mapInt)` of the object `i`, Trie.cpp:55-62. -/
def World.construct (w : World) (i : Nat) (m : Mapper) : Out World := do
  let st ← new
  .ok ⟨m, fun j => if j = i then some (st, m) else w.trie j⟩

/-- `t.insert(s)`, Trie.cpp:282-286, `t` being the object `i`. -/
def World.insert (w : World) (i : Nat) (s : Str) : Out World :=
  match w.trie i with
  | none => .ub
  | some (st, m) => do
    let st ← Trie.insert w.static m st s
    .ok { w with trie := fun j => if j = i then some (st, m) else w.trie j }

/-- `t.remove(s)`, Trie.cpp:288-290. -/
def World.remove (w : World) (i : Nat) (s : Str) : Out World :=
  match w.trie i with
  | none => .ub
  | some (st, m) => do
    let st ← Trie.remove w.static st s
    .ok { w with trie := fun j => if j = i then some (st, m) else w.trie j }

/-- `t.contain(s)`, Trie.cpp:287. -/
def World.contain (w : World) (i : Nat) (s : Str) : Out Bool :=
  match w.trie i with
  | none => .ub
  | some (st, _) => Trie.contain w.static st s

/-- `t.size()`, Trie.h:117. -/
def World.size (w : World) (i : Nat) : Out Int :=
  match w.trie i with
  | none => .ub
  | some (st, _) => .ok st.size

/-- What a client may do with its tries. -/
inductive Act where
  | construct (i : Nat) (m : Mapper)
  | insert (i : Nat) (s : Str)
  | remove (i : Nat) (s : Str)

/-- one step of the client -/
def World.act (w : World) : Act → Out World
  | .construct i m => w.construct i m
  | .insert i s => w.insert i s
  | .remove i s => w.remove i s

/-- A client program that starts without tries; the static member is a null pointer at first (Trie.cpp:53). -/
def World.run (as : List Act) : Out World :=
  as.foldlM World.act ⟨fun _ => .ub, fun _ => none⟩

/-- A client with one default trie `t`: insertions (`true`) and removals (`false`). -/
def run (ops : List (Bool × Str)) : Out St := do
  ops.foldlM (fun st op => if op.1 then insert mapChar mapChar st op.2 else remove mapChar st op.2) (← new)

end Trie

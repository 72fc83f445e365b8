import Verif.Model.Trie

/-!
# Model of the work of a `Trie`, /repo/src/string_utils/Trie.cpp

The functions of Model/Trie.lean once more, with two counters: how often `get`, `getWithCheck` or `set` of one of the three
tables is called, and how many characters are copied into strings.  `get` and `getWithCheck` return, and `set` takes, a
`std::string` by value (Trie.h:22-35), so reading a tail copies it and storing one copies it once more.  The counters also
tell the work up to an error or to undefined behaviour.  Not counted: comparisons of strings, calls of the mappers, and the
moves when a `std::vector` grows (C129 bounds the size of the tables).
-/

namespace Trie.Work
open Cpp

/-- What a piece of the program does: accesses to tables, characters copied, outcome. -/
structure Job (α : Type) where
  acc : Nat
  chars : Nat
  out : Out α

/-- Sequencing of statements: the counters add up. -/
def Job.bind {α β : Type} (x : Job α) (f : α → Job β) : Job β :=
  match x.out with
  | .ok a => ⟨x.acc + (f a).acc, x.chars + (f a).chars, (f a).out⟩
  | .exit => ⟨x.acc, x.chars, .exit⟩
  | .ub => ⟨x.acc, x.chars, .ub⟩
  | .diverge => ⟨x.acc, x.chars, .diverge⟩

instance : Monad Job where
  pure a := ⟨0, 0, .ok a⟩
  bind := Job.bind

/-- A statement without counted work. -/
def free {α : Type} (x : Out α) : Job α := ⟨0, 0, x⟩

/-- `n` characters are copied. -/
def copied (n : Nat) : Job Unit := ⟨0, n, .ok ()⟩

/-- `n` accesses whose result is known already. -/
def again (n : Nat) : Job Unit := ⟨n, 0, .ok ()⟩

/-- The length of a string that is returned by value. -/
def len : Out Str → Nat
  | .ok s => s.length
  | _ => 0

/-- `get(pos)` of a table of numbers, Trie.h:22. -/
def get (a : AA Int) (p : Int) : Job Int := ⟨1, 0, a.get p⟩

/-- `getWithCheck(pos)` of a table of numbers, Trie.h:24-27. -/
def getc (a : AA Int) (p : Int) : Job Int := ⟨1, 0, a.getc p⟩

/-- `tail.get(pos)`, Trie.h:22: the string is copied. -/
def getT (a : AA Str) (p : Int) : Job Str := ⟨1, len (a.get p), a.get p⟩

/-- `tail.getWithCheck(pos)`, Trie.h:24-27: the string is copied. -/
def getcT (a : AA Str) (p : Int) : Job Str := ⟨1, len (a.getc p), a.getc p⟩

/-- `base.set(p, v)`, Trie.h:29-35. -/
def setBase (st : St) (p v : Int) : Job St := ⟨1, 0, Trie.setBase st p v⟩

/-- `check.set(p, v)`, Trie.h:29-35. -/
def setCheck (st : St) (p v : Int) : Job St := ⟨1, 0, Trie.setCheck st p v⟩

/-- `tail.set(p, v)`, Trie.h:29-35; `vec[pos] = value` copies (line 34), a copy into the parameter is counted at the call. -/
def setTailAt (st : St) (p : Int) (v : Str) : Job St := ⟨1, v.length, Trie.setTailAt st p v⟩

/-- `retrieve(word)`, Trie.cpp:64-79. -/
def retrieve (ms : Mapper) (st : St) : Int → Str → Job Bool
  | _, [] => free (.ok true)
  | n, c :: rest => do
    let i ← free (ms c)
    let b ← get st.base n
    let k ← getc st.check (b + i)
    if k ≠ n then free (.ok false) else do
      let b' ← getc st.base (b + i)
      if b' < -1 then
        if rest = [] then free (.ok true) else do
          let b2 ← get st.base (b + i)
          let t ← getcT st.tail (-b2 - 2)
          copied rest.length
          free (.ok (decide (t = rest)))
      else retrieve ms st (b + i) rest

/-- The test of one `q` in `checkAvailable`, Trie.cpp:234-240, 246, 253: it stops at the first slot that is taken. -/
def allFree (check : AA Int) (q : Int) (list : List Int) : Job Bool :=
  list.foldlM (fun ok i => if ok then do let k ← getc check (q + i); free (.ok (decide (k = -1))) else free (.ok false)) true

/-- The loop of the functions `checkAvailable`, Trie.cpp:231-256. -/
def checkAvailableFrom (check : AA Int) (list : List Int) : Nat → Int → Job Int
  | 0, _ => free .diverge
  | fuel + 1, q => do
    let ok ← allFree check q list
    if ok then free (.ok q) else checkAvailableFrom check list fuel (q + 1)

/-- `checkAvailable(list)`, `checkAvailable(i)`, `checkAvailable(i, j)`, Trie.cpp:231-256. -/
def checkAvailable (st : St) (list : List Int) : Job Int :=
  checkAvailableFrom st.check list (st.check.size.toNat + 1) 0

/-- `outArcs(n)`, Trie.cpp:258-265. -/
def outArcs (st : St) (n : Int) : Job (List Int) := do
  let b ← get st.base n
  ((List.range 27).map fun (i : Nat) => (i : Int) + 1).foldlM
    (fun l i => do
      let k ← getc st.check (b + i)
      if k = n then free (.ok (l ++ [i])) else free (.ok l)) []

/-- `setTail(n, next, rest)`, Trie.cpp:267-272; line 269 copies `rest` into the parameter of `set`. -/
def setTail (st : St) (n next : Int) (rest : Str) : Job St := do
  copied rest.length
  let st' ← setTailAt (nextTail st).2 (nextTail st).1 rest
  let st' ← setBase st' next (-(nextTail st).1 - 2)
  setCheck st' next n

/-- `int p = nextTail(); base.set(x, -p - 2); tail.set(p, …substr(…))`, Trie.cpp:146-148, 198-200; `rest` is the substring. -/
def newTail (st : St) (x : Int) (rest : Str) : Job St := do
  let st' ← setBase (nextTail st).2 x (-(nextTail st).1 - 2)
  copied rest.length
  setTailAt st' (nextTail st).1 rest

/-- The loop Trie.cpp:124-129. -/
def chain (ms : Mapper) : St → Int → Str → Job (St × Int)
  | st, next, [] => free (.ok (st, next))
  | st, next, c :: cs => do
    let j ← free (ms c)
    let available ← checkAvailable st [j]
    let st ← setBase st next available
    let st ← setCheck st (available + j) next
    let b ← get st.base next
    chain ms st (b + j) cs

/-- Trie.cpp:133-143: the old tail hangs below the split. -/
def oldSide (st : St) (q ctv temp : Int) (ct : Byte) (tailTemp : Str) : Job St :=
  if ct = endChar then do
    let st ← setBase st (q + ctv) (-1)
    free (.ok { st with tailList := st.tailList ++ [temp] })
  else do
    let st ← setBase st (q + ctv) (-temp - 2)
    copied tailTemp.length
    setTailAt st temp tailTemp

/-- Trie.cpp:145-150: the new word hangs below the split. -/
def newSide (st : St) (x : Int) (cn : Byte) (rest : Str) : Job St :=
  if cn = endChar then setBase st x (-1) else newTail st x rest

/-- Trie.cpp:119-152; the common prefix (line 122) copies `rest`, and the prefix. -/
def split (ms mo : Mapper) (st : St) (next : Int) (rest : Str) : Job St := do
  let b ← get st.base next
  let temp := -b - 2
  let tailTemp ← getT st.tail temp
  copied (rest.length + (commonPrefix rest tailTemp).length)
  let r ← chain ms st next (commonPrefix rest tailTemp)
  let ct ← free (strAt tailTemp (commonPrefix rest tailTemp).length)
  let ctv ← free (mo ct)
  let cn ← free (strAt rest (commonPrefix rest tailTemp).length)
  let cnv ← free (mo cn)
  let q ← checkAvailable r.1 [ctv, cnv]
  let st ← setBase r.1 r.2 q
  let st ← oldSide st q ctv temp ct (tailTemp.drop ((commonPrefix rest tailTemp).length + 1))
  let st ← setCheck st (q + ctv) r.2
  let st ← newSide st (q + cnv) cn (rest.drop ((commonPrefix rest tailTemp).length + 1))
  setCheck st (q + cnv) r.2

/-- Trie.cpp:184-189: the children of a moved node. -/
def moveKids (st : St) (old new : Int) : Job St := do
  let b ← get st.base old
  if b > -1 then do
    let l ← outArcs st old
    l.foldlM (fun st k => do let b ← get st.base old; setCheck st (b + k) new) st
  else free (.ok st)

/-- Body of the loop Trie.cpp:176-192. -/
def moveArc (tempBase newBase : Int) (s : St × Int) (j : Int) : Job (St × Int) := do
  let b ← get s.1.base (tempBase + j)
  let st ← setBase s.1 (newBase + j) b
  let k ← get st.check (tempBase + j)
  let st ← setCheck st (newBase + j) k
  let st ← moveKids st (tempBase + j) (newBase + j)
  let st ← setBase st (tempBase + j) (-1)
  let st ← setCheck st (tempBase + j) (-1)
  free (.ok (st, if tempBase + j = s.2 then newBase + j else s.2))

/-- Trie.cpp:162-172: which node is moved, and where to; line 170 reads `check.get(next)` again. -/
def choose (st : St) (n i other : Int) (listN listCheck : List Int) : Job (Int × List Int × Int) :=
  if listN.length + 1 < listCheck.length then do
    let q ← checkAvailable st (listN ++ [i])
    free (.ok (n, listN, q))
  else do
    again 1
    let q ← checkAvailable st listCheck
    free (.ok (other, listCheck, q))

/-- Trie.cpp:194-201: the new arc. -/
def newArc (st : St) (x i : Int) (rest : Str) : Job St :=
  if i = 1 then setBase st x (-1) else newTail st x rest

/-- Trie.cpp:155-203. -/
def relocate (st : St) (n next i : Int) (rest : Str) : Job St := do
  let listN ← outArcs st n
  let other ← get st.check next
  let listCheck ← outArcs st other
  let c ← choose st n i other listN listCheck
  let tempBase ← get st.base c.1
  let st ← setBase st c.1 c.2.2
  let s ← c.2.1.foldlM (moveArc tempBase c.2.2) (st, n)
  let b ← get s.1.base s.2
  let st ← newArc s.1 (b + i) i rest
  setCheck st (b + i) s.2

/-- The loop of `insert_(word)`, Trie.cpp:108-207; `check.get(next)` is read again in line 154. -/
def insertGo (ms mo : Mapper) (st : St) : Int → Str → Job St
  | _, [] => free (.ok st)
  | n, c :: rest => do
    let i ← free (ms c)
    let b ← get st.base n
    let k ← getc st.check (b + i)
    if k = -1 then do
      copied rest.length
      setTail st n (b + i) rest
    else do
      let k ← get st.check (b + i)
      if k = n then do
        let b' ← get st.base (b + i)
        if b' < -1 then split ms mo st (b + i) rest
        else do
          again 1
          insertGo ms mo st (b + i) rest
      else do
        again 1
        relocate st n (b + i) i rest

/-- `contain(str)`, Trie.cpp:287. -/
def contain (ms : Mapper) (st : St) (w : Str) : Job Bool := do
  copied (w.length + 1)
  retrieve ms st 0 (w ++ [endChar])

/-- `insert(str)`, Trie.cpp:282-286. -/
def insert (ms mo : Mapper) (st : St) (w : Str) : Job St := do
  let b ← contain ms st w
  if b then free (.ok st) else do
    copied (w.length + 1)
    let st ← insertGo ms mo st 0 (w ++ [endChar])
    free (.ok { st with size := st.size + 1 })

/-- The loop of `remove_(word)`, Trie.cpp:209-229. -/
def removeGo (ms : Mapper) (st : St) : Int → Str → Job (St × Bool)
  | n, [] => do
    let st ← setCheck st n (-1)
    free (.ok (st, true))
  | n, c :: rest => do
    let i ← free (ms c)
    let b ← get st.base n
    let k ← get st.check (b + i)
    if k ≠ n then free (.ok (st, false)) else do
      let b' ← get st.base (b + i)
      if b' < -1 then do
        let b2 ← get st.base (b + i)
        let t ← getcT st.tail (-b2 - 2)
        copied rest.length
        if t = rest then do
          let st ← setBase st (b + i) (-1)
          let st ← setCheck st (b + i) (-1)
          free (.ok (st, true))
        else free (.ok (st, false))
      else removeGo ms st (b + i) rest

/-- `remove(str)`, Trie.cpp:288-290. -/
def remove (ms : Mapper) (st : St) (w : Str) : Job St := do
  copied (w.length + 1)
  let r ← removeGo ms st 0 (w ++ [endChar])
  free (.ok (if r.2 then { r.1 with size := r.1.size - 1 } else r.1))

end Trie.Work

import Verif.Cpp

/-!
# Model of `class BSTNode` and `class BST`, /repo/src/include/graph/BST.h and /repo/src/graph/BST.cpp

Node objects live in a heap; a pointer is an address (a natural number), `none` is `nullptr`.  Following a null
pointer or the address of no object is undefined.  Loops are bounded by fuel.
-/

namespace BST
open Cpp

/-- The data members of `BSTNode`, BST.h:17-20. -/
structure Nd where
  ch0 : Option Nat
  ch1 : Option Nat
  fa : Option Nat
  rank : Int
  val : Int
  deriving DecidableEq

/-- `ch[c]` -/
def Nd.ch (n : Nd) (c : Bool) : Option Nat := if c then n.ch1 else n.ch0

/-- `ch[c] = v` -/
def Nd.setCh (n : Nd) (c : Bool) (v : Option Nat) : Nd := if c then { n with ch1 := v } else { n with ch0 := v }

/-- `BSTNode(k, v)`, BST.h:8. -/
def mkNode (k v : Int) : Nd := ⟨none, none, none, k, v⟩

/-- The objects alive. -/
abbrev Heap := Nat → Option Nd

/-- The object a pointer points to. -/
def ld (h : Heap) (p : Nat) : Out Nd := match h p with | some nd => .ok nd | none => .ub

/-- Writing the object at `p`. -/
def store (h : Heap) (p : Nat) (nd : Nd) : Heap := fun q => if q = p then some nd else h q

/-- `p->ch[c] = v` -/
def setCh (h : Heap) (p : Nat) (c : Bool) (v : Option Nat) : Out Heap := do .ok (store h p ((← ld h p).setCh c v))

/-- `p->fa = v` -/
def setFa (h : Heap) (p : Nat) (v : Option Nat) : Out Heap := do .ok (store h p { ← ld h p with fa := v })

/-- The pointer must not be null. -/
def nonNull (p : Option Nat) : Out Nat := match p with | some p => .ok p | none => .ub

/-- A `BST` object (its member `root`, BST.h:34) and the heap. -/
structure St where
  heap : Heap
  root : Option Nat

/-- BST.cpp:10-15: the parent `z` of `y`, if any, gets `x` as child in place of `y`. -/
def relink (h : Heap) (z : Option Nat) (y x : Nat) : Out Heap :=
  match z with
  | none => .ok h
  | some z => do if (← ld h z).ch false = some y then setCh h z false (some x) else setCh h z true (some x)

/-- `rotate(x, c)`, BST.cpp:5-18. -/
def rotate (s : St) (x : Nat) (c : Bool) : Out St := do
  let h := s.heap
  let y ← nonNull (← ld h x).fa
  let h ← setCh h y (!c) ((← ld h x).ch c)
  let h ← (match (← ld h x).ch c with | none => .ok h | some b => setFa h b (some y))
  let h ← setFa h x (← ld h y).fa
  let h ← relink h (← ld h y).fa y x
  let h ← setFa h y (some x)
  let h ← setCh h x c (some y)
  .ok ⟨h, if some y = s.root then some x else s.root⟩

/-- `splay(x)`, BST.cpp:20-43. -/
def splay : Nat → St → Nat → Out St
  | 0, _, _ => .diverge
  | fuel + 1, s, x => do
    match (← ld s.heap x).fa with
    | none => .ok s
    | some y =>
      let ny ← ld s.heap y
      match ny.fa with
      | none =>
        let s ← (if ny.ch false = some x then rotate s x true else rotate s x false)
        splay fuel s x
      | some z =>
        let nz ← ld s.heap z
        if nz.ch false = some y then
          if ny.ch false = some x then do
            let s ← rotate s y true
            let s ← rotate s x true
            splay fuel s x
          else do
            let s ← rotate s x false
            let s ← rotate s x true
            splay fuel s x
        else
          if ny.ch true = some x then do
            let s ← rotate s y false
            let s ← rotate s x false
            splay fuel s x
          else do
            let s ← rotate s x true
            let s ← rotate s x false
            splay fuel s x

/-- The loops BST.cpp:48 (`c` = true) and BST.cpp:55 (`c` = false). -/
def farthest (h : Heap) (c : Bool) : Nat → Nat → Out Nat
  | 0, _ => .diverge
  | fuel + 1, cur => do
    match (← ld h cur).ch c with
    | none => .ok cur
    | some q => farthest h c fuel q

/-- `pre(x)`, BST.cpp:45-50. -/
def pre (fuel : Nat) (h : Heap) (x : Nat) : Out (Option Nat) := do
  match (← ld h x).ch false with
  | none => .ok none
  | some q => .ok (some (← farthest h true fuel q))

/-- `suf(x)`, BST.cpp:52-57. -/
def suf (fuel : Nat) (h : Heap) (x : Nat) : Out (Option Nat) := do
  match (← ld h x).ch true with
  | none => .ok none
  | some q => .ok (some (← farthest h false fuel q))

/-- The loop of `insert`, BST.cpp:67-75. -/
def descend (h : Heap) (x : Nat) : Nat → Nat → Out Nat
  | 0, _ => .diverge
  | fuel + 1, cur => do
    let nx ← ld h x
    let nc ← ld h cur
    match (if nx.rank < nc.rank then nc.ch false else nc.ch true) with
    | none => .ok cur
    | some q => descend h x fuel q

/-- `insert(x)`, BST.cpp:59-79. -/
def insert (fuel : Nat) (s : St) (x : Nat) : Out St := do
  match s.root with
  | none => .ok { s with root := some x }
  | some r =>
    let cur ← descend s.heap x fuel r
    let h ← setFa s.heap x (some cur)
    let nx ← ld h x
    let nc ← ld h cur
    let h ← setCh h cur (decide (nx.rank ≥ nc.rank)) (some x)
    splay fuel ⟨h, s.root⟩ x

/-- `erase(x)`, BST.cpp:81-102. -/
def erase (fuel : Nat) (s : St) (x : Nat) : Out St := do
  let s ← splay fuel s x
  let nx ← ld s.heap x
  match nx.ch false, nx.ch true with
  | none, none => .ok { s with root := none }
  | none, some r => do .ok ⟨← setFa s.heap r none, some r⟩
  | some _, none => .ub
  | some _, some _ => do
    let r ← nonNull (← pre fuel s.heap x)
    let h := s.heap
    let nr ← ld h r
    let f ← nonNull nr.fa
    let h ← (if (← ld h f).ch false = some r then setCh h f false (nr.ch false) else setCh h f true (nr.ch false))
    let nr ← ld h r
    let h ← (match nr.ch false with | none => .ok h | some q => setFa h q nr.fa)
    let h ← setFa h r none
    let h ← setCh h r false ((← ld h x).ch false)
    let h ← setCh h r true ((← ld h x).ch true)
    .ok ⟨h, some r⟩

/-- The loop of `find`, BST.cpp:106-112. -/
def search (h : Heap) (k : Int) : Nat → Option Nat → Out (Option Nat)
  | 0, _ => .diverge
  | _ + 1, none => .ok none
  | fuel + 1, some cur => do
    let nc ← ld h cur
    if nc.rank = k then .ok (some cur)
    else if nc.rank < k then search h k fuel (nc.ch true)
    else search h k fuel (nc.ch false)

/-- `find(k)`, BST.cpp:104-114. -/
def find (fuel : Nat) (s : St) (k : Int) : Out (Option Nat) := search s.heap k fuel s.root

end BST

import Verif.Model.MultiLoop

/-!
# What a loop over a MultiSet or MultiMap means

Written without nodes: the elements before the current one, the current one, and those behind it.
-/

open Cpp

namespace Cont.MultiLoop.Spec
open Cont.MultiLoop

variable {κ ν σ : Type} [LinearOrder κ] [LinearOrder ν]

/-- Where the loop is. -/
inductive Place (κ ν : Type) where
  /-- at an element, with those before and behind it -/
  | at (before : List (κ × ν)) (x : κ × ν) (behind : List (κ × ν))
  /-- at an element that has been erased -/
  | gone (all : List (κ × ν))

/-- all elements -/
def Place.all : Place κ ν → List (κ × ν)
  | .at b x a => b ++ x :: a
  | .gone l => l

/-- a new element, behind all that are not greater -/
def put (k : κ) (v : ν) (l : List (κ × ν)) : List (κ × ν) :=
  l.takeWhile (fun p => decide (p.1 ≤ k)) ++ (k, v) :: l.dropWhile (fun p => decide (p.1 ≤ k))

/-- the elements with other keys -/
def without (k : κ) (l : List (κ × ν)) : List (κ × ν) := l.filter fun p => decide (p.1 ≠ k)

/-- the elements with this key -/
def only (k : κ) (l : List (κ × ν)) : List (κ × ν) := l.filter fun p => decide (p.1 = k)

/-- insertion: if it is not less than the current element, the loop will still come to it -/
def Place.insert (k : κ) (v : ν) : Place κ ν → Place κ ν
  | .at b x a => if k < x.1 then .at (put k v b) x a else .at b x (put k v a)
  | .gone l => .gone (put k v l)

/-- erasing all elements with this key -/
def Place.erase (k : κ) : Place κ ν → Place κ ν
  | .at b x a => if x.1 = k then .gone (without k (b ++ x :: a)) else .at (without k b) x (without k a)
  | .gone l => .gone (without k l)

/-- The body of the loop. -/
def exec : Place κ ν → Body κ ν σ → Out (σ × Place κ ν × Bool)
  | p, .done st => .ok (st, p, false)
  | p, .stop st => .ok (st, p, true)
  | p, .insert k v b => exec (p.insert k v) b
  | p, .remove k b => if only k p.all = [] then .exit else exec (p.erase k) b
  | p, .erase k b => exec (p.erase k) b
  | _, .clear b => exec (.gone []) b
  | p, .count k b => exec p (b (only k p.all).length)
  | p, .contains k b => exec p (b (decide (only k p.all ≠ [])))
  | p, .find k b => exec p (b (((only k p.all).map fun q => q.2).foldl Set.insert []))
  | p, .size b => exec p (b p.all.length)
  | p, .key b =>
    match p with
    | .at _ x _ => exec p (b x.1)
    | .gone _ => .ub
  | p, .read b =>
    match p with
    | .at _ x _ => exec p (b x.2)
    | .gone _ => .ub
  | p, .write v b =>
    match p with
    | .at c x a => exec (.at c (x.1, v) a) b
    | .gone _ => .ub

/-- The loop, with the elements it has passed and those to come: the variables, all elements, and the keys visited. -/
def loop (body : σ → Body κ ν σ) : Nat → σ → List (κ × ν) → List (κ × ν) → Out (σ × List (κ × ν) × List κ)
  | 0, _, _, _ => .diverge
  | _ + 1, st, b, [] => .ok (st, b, [])
  | n + 1, st, b, x :: a => do
    let (st, p, stop) ← exec (.at b x a) (body st)
    if stop then .ok (st, p.all, [x.1]) else
    match p with
    | .at b x a => do
      let (st, l, vis) ← loop body n st (b ++ [x]) a
      .ok (st, l, x.1 :: vis)
    | .gone _ => .ub

/-- A body that does not break. -/
def NoStop : Body κ ν σ → Prop
  | .done _ => True
  | .stop _ => False
  | .insert _ _ b | .remove _ b | .erase _ b | .clear b | .write _ b => NoStop b
  | .count _ b | .size b => ∀ n, NoStop (b n)
  | .contains _ b => ∀ c, NoStop (b c)
  | .find _ b => ∀ c, NoStop (b c)
  | .key b => ∀ k, NoStop (b k)
  | .read b => ∀ v, NoStop (b v)

/-- A body that does not insert. -/
def NoInsert : Body κ ν σ → Prop
  | .done _ | .stop _ => True
  | .insert _ _ _ => False
  | .remove _ b | .erase _ b | .clear b | .write _ b => NoInsert b
  | .count _ b | .size b => ∀ n, NoInsert (b n)
  | .contains _ b => ∀ c, NoInsert (b c)
  | .find _ b => ∀ c, NoInsert (b c)
  | .key b => ∀ k, NoInsert (b k)
  | .read b => ∀ v, NoInsert (b v)

/-- A loop that only reads the pair and assigns its value. -/
def sweep (f : σ → κ → ν → σ × ν) : σ → List (κ × ν) → σ × List (κ × ν)
  | st, [] => (st, [])
  | st, (k, x) :: m =>
    let (st, y) := f st k x
    let (st, m) := sweep f st m
    (st, (k, y) :: m)

end Cont.MultiLoop.Spec

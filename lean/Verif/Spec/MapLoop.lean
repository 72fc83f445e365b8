import Verif.Model.MapLoop
import Verif.Spec.ContRef

/-!
# What a loop over a Map or a Set means

Written without nodes: the loop is at a key; the next round is for the least greater key there is then.  The pairs are those of C55.
-/

open Cpp

namespace Cont.MapLoop.Spec
open Cont.MapLoop

variable {κ ν σ : Type} [LinearOrder κ]

/-- The body with the loop variable standing for the pair with the key `q` (`none`: it has been erased). -/
def exec (dflt : ν) : List (κ × ν) → Option κ → Body κ ν σ → Out (σ × List (κ × ν) × Option κ × Bool)
  | m, q, .done st => .ok (st, m, q, false)
  | m, q, .stop st => .ok (st, m, q, true)
  | m, q, .set k v b => exec dflt (Cont.Map.set m k v) q b
  | m, q, .erase k b => exec dflt (Cont.Map.erase m k) (if q = some k then none else q) b
  | _, _, .clear b => exec dflt [] none b
  | m, q, .index k b => exec dflt (Cont.Map.index dflt m k).2 q (b (Cont.Map.index dflt m k).1)
  | m, q, .get k b => do exec dflt m q (b (← Cont.Map.get m k))
  | m, q, .contains k b => exec dflt m q (b (Cont.Map.contains m k))
  | m, q, .size b => exec dflt m q (b m.length)
  | m, q, .key b =>
    match q with
    | some k => exec dflt m q (b k)
    | none => .ub
  | m, q, .read b =>
    match q with
    | some k => do exec dflt m q (b (← Cont.Map.get m k))
    | none => .ub
  | m, q, .write v b =>
    match q with
    | some k => exec dflt (Cont.Map.set m k v) q b
    | none => .ub

/-- the least key greater than `k` -/
def above (k : κ) (m : List (κ × ν)) : Option κ := (m.find? fun p => decide (k < p.1)).map fun p => p.1

/-- The loop from a key on (`none`: the end): the variables, the pairs, and the keys visited. -/
def loop (dflt : ν) (body : σ → Body κ ν σ) : Nat → σ → List (κ × ν) → Option κ → Out (σ × List (κ × ν) × List κ)
  | 0, _, _, _ => .diverge
  | _ + 1, st, m, none => .ok (st, m, [])
  | n + 1, st, m, some k => do
    let (st, m, q, stop) ← exec dflt m (some k) (body st)
    if stop then .ok (st, m, [k]) else
    match q with
    | some _ => do
      let (st, m, vis) ← loop dflt body n st m (above k m)
      .ok (st, m, k :: vis)
    | none => .ub

/-- A body that does not break. -/
def NoStop : Body κ ν σ → Prop
  | .done _ => True
  | .stop _ => False
  | .set _ _ b | .erase _ b | .clear b | .write _ b => NoStop b
  | .index _ b | .get _ b | .read b => ∀ v, NoStop (b v)
  | .contains _ b => ∀ c, NoStop (b c)
  | .size b => ∀ n, NoStop (b n)
  | .key b => ∀ k, NoStop (b k)

/-- A loop that only reads the pair and assigns its value. -/
def sweep (f : σ → κ → ν → σ × ν) : σ → List (κ × ν) → σ × List (κ × ν)
  | st, [] => (st, [])
  | st, (k, x) :: m =>
    let (st, y) := f st k x
    let (st, m) := sweep f st m
    (st, (k, y) :: m)

/-- The body of a loop over a Set, with the loop variable standing for the element `q`. -/
def sexec : List κ → Option κ → SBody κ σ → Out (σ × List κ × Option κ × Bool)
  | s, q, .done st => .ok (st, s, q, false)
  | s, q, .stop st => .ok (st, s, q, true)
  | s, q, .insert k b => sexec (Cont.Set.insert s k) q b
  | s, q, .erase k b => sexec (Cont.Set.erase s k) (if q = some k then none else q) b
  | _, _, .clear b => sexec [] none b
  | s, q, .contains k b => sexec s q (b (Cont.Set.contains s k))
  | s, q, .size b => sexec s q (b s.length)
  | s, q, .read b =>
    match q with
    | some k => sexec s q (b k)
    | none => .ub

/-- The loop over a Set from an element on. -/
def sloop (body : σ → SBody κ σ) : Nat → σ → List κ → Option κ → Out (σ × List κ × List κ)
  | 0, _, _, _ => .diverge
  | _ + 1, st, s, none => .ok (st, s, [])
  | n + 1, st, s, some k => do
    let (st, s, q, stop) ← sexec s (some k) (body st)
    if stop then .ok (st, s, [k]) else
    match q with
    | some _ => do
      let (st, s, vis) ← sloop body n st s (s.find? fun x => decide (k < x))
      .ok (st, s, k :: vis)
    | none => .ub

end Cont.MapLoop.Spec

import Verif.Proof.MultiLoop
import Mathlib.Order.Nat

/-! # Loops over MultiSet and MultiMap whose body uses the container: property C178 -/

namespace Cont.Props
open Cpp
open Cont.MultiLoop (Body forMulti ofPairs)

variable {κ ν σ : Type} [LinearOrder κ] [LinearOrder ν]

/-- **C178.**  `for (auto& x : m) body` for every body, whatever members of the MultiSet or MultiMap it calls: the variables and the
elements at the end, and the keys visited, are those of the loop over the elements to come, where what is inserted and not less than
the current element comes later and what is erased does not come; it is undefined, exits or never ends exactly if that does. -/
theorem C178_loop (body : σ → Body κ ν σ) (n : Nat) (st : σ) (m : List (κ × ν)) (hs : m.Pairwise fun a b => a.1 ≤ b.1) :
    (forMulti body n st (ofPairs m) >>= fun y => Out.ok (y.1, y.2.1.contents, y.2.2.map fun x => x.1)) =
      MultiLoop.Spec.loop body n st [] m := MultiLoop.forMulti_eq body n st hs

/-- **C178, order.**  Whatever the body does, no element is visited twice, and the keys never decrease. -/
theorem C178_order (body : σ → Body κ ν σ) (n : Nat) (st st' : σ) (m : List (κ × ν)) (hs : m.Pairwise fun a b => a.1 ≤ b.1)
    (s' : Ref.Map.MObj κ ν) (vis : List (κ × Nat)) (h : forMulti body n st (ofPairs m) = .ok (st', s', vis)) :
    vis.Nodup ∧ (vis.map fun x => x.1).Pairwise (· ≤ ·) := by
  have h1 := MultiLoop.forMulti_agree body n st hs
  rw [h] at h1
  obtain ⟨⟨a1, a2, a3⟩, -, -, -, e, -, -, -, h2, h3, -⟩ := MultiLoop.agree_right h1
  dsimp only at e h2 h3
  rw [e] at h3
  exact ⟨h2.of_map _, h3⟩

/-- **C178, all.**  If the body does not break, then every element that was there before the loop and has not been erased is
visited, whatever else was inserted and erased meanwhile. -/
theorem C178_all (body : σ → Body κ ν σ) (hb : ∀ st, MultiLoop.Spec.NoStop (body st)) (n : Nat) (st st' : σ) (m : List (κ × ν))
    (hs : m.Pairwise fun a b => a.1 ≤ b.1) (s' : Ref.Map.MObj κ ν) (vis : List (κ × Nat))
    (h : forMulti body n st (ofPairs m) = .ok (st', s', vis)) : ∀ x ∈ (ofPairs m).nodes, x ∈ s'.nodes → x ∈ vis :=
  MultiLoop.rounds_all body hb n st (ofPairs m) m [] _ st' s' vis (MultiLoop.rel_ofPairs hs) rfl h

/-- **C178, end.**  A loop ends, after at most as many rounds as there are elements, if the body does not insert; so does every loop
over a MultiMap, which has no member for inserting. -/
theorem C178_ends (body : σ → Body κ ν σ) (hb : ∀ st, MultiLoop.Spec.NoInsert (body st)) (n : Nat) (st : σ) (m : List (κ × ν))
    (hs : m.Pairwise fun a b => a.1 ≤ b.1) (hn : m.length < n) : forMulti body n st (ofPairs m) ≠ .diverge := by
  intro h
  have h1 := C178_loop body n st m hs
  rw [h] at h1
  exact MultiLoop.loop_ends body hb n st [] m hn h1.symm

/-- **C178, plain loops.**  A body that only reads the pair and assigns its value sees every pair once, in order, and the values
assigned are those in the MultiMap afterwards. -/
theorem C178_plain (f : σ → κ → ν → σ × ν) (n : Nat) (st : σ) (m : List (κ × ν)) (hs : m.Pairwise fun a b => a.1 ≤ b.1)
    (hn : m.length < n) :
    (forMulti (fun st => .key fun k => .read fun x => .write (f st k x).2 (.done (f st k x).1)) n st (ofPairs m) >>=
      fun y => Out.ok (y.1, y.2.1.contents, y.2.2.map fun x => x.1)) =
      .ok ((MultiLoop.Spec.sweep f st m).1, (MultiLoop.Spec.sweep f st m).2, m.map fun p => p.1) := by
  rw [C178_loop _ n st m hs, MultiLoop.loop_sweep f m [] st n hn]
  rfl

/-- **C178, end, refuted.**  A loop over a MultiSet that is not empty and inserts in every round an element that is not less, as in
`for (auto& x : s) s.insert(x);`, never ends, also for types with finitely many values. -/
theorem C178_ends_refuted (g : κ → κ) (hg : ∀ k, k ≤ g k) (v : ν) (n : Nat) (st : σ) (p : κ × ν) (m : List (κ × ν))
    (hs : (p :: m).Pairwise fun a b => a.1 ≤ b.1) :
    forMulti (fun st : σ => .key fun k => .insert (g k) v (.done st)) n st (ofPairs (p :: m)) = .diverge := by
  have h1 := C178_loop (fun st : σ => Body.key fun k => .insert (g k) v (.done st)) n st (p :: m) hs
  rw [MultiLoop.loop_insert g hg v n [] p m] at h1
  revert h1
  cases forMulti (fun st : σ => Body.key fun k => .insert (g k) v (.done st)) n st (ofPairs (p :: m)) <;> intro h1 <;>
    first | rfl | cases h1

/-- **C178, refuted.**  Erasing the current element, as in `for (auto& x : s) s.erase(x);`, is undefined, for both classes. -/
theorem C178_erase_refuted (n : Nat) (st : σ) (p : κ × ν) (m : List (κ × ν)) (hs : (p :: m).Pairwise fun a b => a.1 ≤ b.1) :
    forMulti (fun st : σ => .key fun k => .erase k (.done st)) (n + 1) st (ofPairs (p :: m)) = .ub ∧
    forMulti (fun st : σ => .key fun k => .remove k (.done st)) (n + 1) st (ofPairs (p :: m)) = .ub := by
  have h1 := C178_loop (fun st : σ => Body.key fun k => .erase k (.done st)) (n + 1) st (p :: m) hs
  have h2 := C178_loop (fun st : σ => Body.key fun k => .remove k (.done st)) (n + 1) st (p :: m) hs
  have e1 : MultiLoop.Spec.loop (fun st : σ => Body.key fun k => .erase k (.done st)) (n + 1) st [] (p :: m) = .ub := by
    simp [MultiLoop.Spec.loop, MultiLoop.Spec.exec, MultiLoop.Spec.Place.erase]
  have e2 : MultiLoop.Spec.loop (fun st : σ => Body.key fun k => .remove k (.done st)) (n + 1) st [] (p :: m) = .ub := by
    simp [MultiLoop.Spec.loop, MultiLoop.Spec.exec, MultiLoop.Spec.Place.erase, MultiLoop.Spec.only, MultiLoop.Spec.Place.all]
  rw [e1] at h1
  rw [e2] at h2
  constructor
  · revert h1
    cases forMulti (fun st : σ => Body.key fun k => .erase k (.done st)) (n + 1) st (ofPairs (p :: m)) <;> intro h1 <;>
      first | rfl | cases h1
  · revert h2
    cases forMulti (fun st : σ => Body.key fun k => .remove k (.done st)) (n + 1) st (ofPairs (p :: m)) <;> intro h2 <;>
      first | rfl | cases h2

/-! ## concrete cases -/

/-- `for (auto& x : s) { if (x == 2) { s.insert(1); s.insert(5); s.erase(7); } sum += x; }` -/
def multiLoopDemo : Nat → Body Nat Unit Nat := fun sum =>
  .key fun k => if k = 2 then .insert 1 () (.insert 5 () (.contains 7 fun c => if c then .remove 7 (.done (sum + k)) else .done (sum + k)))
    else .done (sum + k)

/-- 2, 2, 5, 5, 5, 9 are visited: both fives that were inserted, but neither the ones nor the sevens -/
example : (forMulti multiLoopDemo 10 0 (ofPairs [(2, ()), (2, ()), (5, ()), (7, ()), (7, ()), (9, ())]) >>=
    fun y => Out.ok (y.1, y.2.1.contents.map (fun p => p.1), y.2.2)) =
    .ok (28, [1, 1, 2, 2, 5, 5, 5, 9], [(2, 0), (2, 1), (5, 2), (5, 7), (5, 9), (9, 5)]) := by decide +kernel

example : [(2, ()), (2, ()), (5, ()), (7, ()), (7, ()), (9, ())].Pairwise (fun a b : Nat × Unit => a.1 ≤ b.1) := by decide

example : ∀ st, MultiLoop.Spec.NoStop (multiLoopDemo st) := by
  intro st k
  by_cases h : k = 2
  · subst h
    intro c
    cases c <;> trivial
  · simp [h, MultiLoop.Spec.NoStop]

/-- `for (auto& x : m) { if (m.count(x.first) > 1) sum += x.second; m.erase(x.first + 1); }`, a body that does not insert -/
def multiMapDemo : Nat → Body Nat Nat Nat := fun sum =>
  .key fun k => .count k fun c => .read fun x => .erase (k + 1) (.done (if 1 < c then sum + x else sum))

example : ∀ st, MultiLoop.Spec.NoInsert (multiMapDemo st) := fun _ _ _ _ => trivial
example : (forMulti multiMapDemo 10 0 (ofPairs [(1, 10), (1, 20), (2, 5), (2, 6), (4, 7)]) >>=
    fun y => Out.ok (y.1, y.2.1.contents, y.2.2)) = .ok (30, [(1, 10), (1, 20), (4, 7)], [(1, 0), (1, 1), (4, 4)]) := by decide +kernel

/-- `for (auto& x : m) n += m.find(x.first).size();`: equal values count once -/
example : (forMulti (fun n : Nat => Body.key fun k => .find k fun vs => .done (n + vs.length)) 10 0
    (ofPairs [(1, 10), (1, 10), (1, 20), (4, 7)]) >>= fun y => Out.ok y.1) = .ok 7 := by decide +kernel

/-- the hypotheses of `C178_ends_refuted` for `for (auto& x : s) s.insert(x);` with `{false, true}`, and 100 rounds of it -/
example : (∀ k : Bool, k ≤ id k) ∧ [(false, ()), (true, ())].Pairwise (fun a b : Bool × Unit => a.1 ≤ b.1) ∧
    forMulti (fun st : Unit => Body.key fun k => .insert k () (.done st)) 100 () (ofPairs [(false, ()), (true, ())]) = .diverge :=
  ⟨fun k => le_refl k, by decide, C178_ends_refuted id (fun k => le_refl k) () 100 () (false, ()) [(true, ())] (by decide)⟩
example : MultiLoop.Spec.sweep (fun s k x => (s + k * x, s)) 0 [(2, 7), (2, 8)] = (30, [(2, 0), (2, 14)]) := by decide

end Cont.Props

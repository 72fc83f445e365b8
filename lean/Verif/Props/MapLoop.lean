import Verif.Proof.MapLoop
import Mathlib.Order.Nat

/-! # Loops over Map and Set whose body uses the container: property C177 -/

namespace Cont.Props
open Cpp Cont.MapLoop

variable {κ ν σ : Type} [LinearOrder κ]

/-- **C177, Map.**  `for (auto& x : map) body` for every body, whatever members of the Map it calls: the variables and the pairs at
the end, and the keys visited, are those of the loop that goes to the least greater key each time; it is undefined, exits or never
ends exactly if that does. -/
theorem C177_map (dflt : ν) (body : σ → Body κ ν σ) (n : Nat) (st : σ) (m : List (κ × ν)) (hs : m.Pairwise fun a b => a.1 < b.1) :
    (forMap dflt body n st (ofMap m) >>= fun y => Out.ok (y.1, y.2.1.contents, y.2.2.map fun x => x.1)) =
      MapLoop.Spec.loop dflt body n st m (m.head?.map fun p => p.1) := by
  have h := forMap_agree dflt body n st hs
  revert h
  cases MapLoop.Spec.loop dflt body n st m (m.head?.map fun p => p.1) <;> cases forMap dflt body n st (ofMap m) <;> intro h <;>
    first | exact h.elim | rfl | skip
  next a b =>
  obtain ⟨a1, a2, a3⟩ := a
  obtain ⟨e1, h, e2, -⟩ := h
  dsimp only at e1 h e2
  rw [Out.ok_bind, h.contents, e1, e2]

/-- **C177, order.**  Whatever the body does, no key is visited twice, and the keys come in increasing order. -/
theorem C177_order (dflt : ν) (body : σ → Body κ ν σ) (n : Nat) (st st' : σ) (m : List (κ × ν)) (hs : m.Pairwise fun a b => a.1 < b.1)
    (s' : Ref.Map.MObj κ ν) (vis : List (κ × Nat)) (h : forMap dflt body n st (ofMap m) = .ok (st', s', vis)) :
    (vis.map fun x => x.1).Pairwise (· < ·) := by
  have h1 := C177_map dflt body n st m hs
  rw [h] at h1
  exact (loop_order dflt body n st m _ st' _ _ h1.symm).1

/-- **C177, all.**  If the body does not break, then every pair that was in the Map before the loop and has not been erased is
visited, whatever else was inserted and erased meanwhile. -/
theorem C177_all (dflt : ν) (body : σ → Body κ ν σ) (hb : ∀ st, MapLoop.Spec.NoStop (body st)) (n : Nat) (st st' : σ) (m : List (κ × ν))
    (hs : m.Pairwise fun a b => a.1 < b.1) (s' : Ref.Map.MObj κ ν) (vis : List (κ × Nat))
    (h : forMap dflt body n st (ofMap m) = .ok (st', s', vis)) : ∀ x ∈ (ofMap m).nodes, x ∈ s'.nodes → x ∈ vis := by
  intro x hx hx'
  have hR := rel_ofMap hs
  refine rounds_all dflt body hb n st (ofMap m) m _ st' s' vis hR (fun y hy => List.mem_of_mem_head? hy) h x hx ?_ hx'
  have hp := hR.sorted
  revert hx hp
  cases (ofMap m).nodes with
  | nil => intro hx; cases hx
  | cons z l =>
    intro hx hp
    refine ⟨z, rfl, ?_⟩
    rcases List.mem_cons.1 hx with rfl | hx
    · exact le_refl _
    · exact ((List.pairwise_cons.1 hp).1 x hx).le

/-- **C177, end.**  A loop over a Map ends if there are fewer than `B` possible keys, as for `int`: whatever the body inserts, after
`B` rounds there is no greater key. -/
theorem C177_ends (dflt : ν) (body : σ → Body κ ν σ) (rank : κ → Nat) (B : Nat) (hr : ∀ j k, j < k → rank j < rank k)
    (hB : ∀ k, rank k < B) (n : Nat) (hn : B < n) (st : σ) (m : List (κ × ν)) (hs : m.Pairwise fun a b => a.1 < b.1) :
    forMap dflt body n st (ofMap m) ≠ .diverge := by
  intro h
  have h1 := C177_map dflt body n st m hs
  rw [h] at h1
  exact loop_ends dflt body rank B hr hB n st m _ (fun k _ => by omega) (by omega) h1.symm

/-- **C177, plain loops.**  A body that only reads the pair and assigns its value sees every pair once, in the order of the keys,
and the values assigned are those in the Map afterwards. -/
theorem C177_plain (dflt : ν) (f : σ → κ → ν → σ × ν) (n : Nat) (st : σ) (m : List (κ × ν)) (hs : m.Pairwise fun a b => a.1 < b.1)
    (hn : m.length < n) :
    (forMap dflt (fun st => .key fun k => .read fun x => .write (f st k x).2 (.done (f st k x).1)) n st (ofMap m) >>=
      fun y => Out.ok (y.1, y.2.1.contents, y.2.2.map fun x => x.1)) =
      .ok ((MapLoop.Spec.sweep f st m).1, (MapLoop.Spec.sweep f st m).2, m.map fun p => p.1) := by
  rw [C177_map dflt _ n st m hs]
  exact loop_sweep dflt f m [] st n hn hs

/-- **C177, Set.**  The same for `for (auto& x : set) body`. -/
theorem C177_set (body : σ → SBody κ σ) (n : Nat) (st : σ) (xs : List κ) (hs : xs.Pairwise (· < ·)) :
    (forSet body n st xs >>= fun y => Out.ok (y.1, y.2.1.contents.map (fun p => p.1), y.2.2.map fun x => x.1)) =
      MapLoop.Spec.sloop body n st xs xs.head? := by
  have e1 : (xs.map fun x => (x, ())).map (fun p => p.1) = xs := by rw [List.map_map]; exact List.map_id _
  have e2 : (xs.map fun x => (x, ())).head?.map (fun p => p.1) = xs.head? := by cases xs <;> rfl
  have h := C177_map () (fun st => (body st).toMap) n st (xs.map fun x => (x, ())) (List.pairwise_map.2 hs)
  have h2 := sloop_eq body n st (xs.map fun x => (x, ())) xs.head?
  rw [e1, ← e2, ← h] at h2
  rw [← e2, h2, forSet]
  cases forMap () (fun st => (body st).toMap) n st (ofMap (xs.map fun x => (x, ()))) <;> rfl

/-- **C177, end, refuted** for types with ever greater keys, like strings: a loop over a Map that is not empty and inserts a greater
key in every round, as in `for (auto& x : map) map[x.first + "a"];`, never ends. -/
theorem C177_ends_refuted (dflt : ν) (g : κ → κ) (hg : ∀ k, k < g k) (n : Nat) (p : κ × ν) (m : List (κ × ν))
    (hs : (p :: m).Pairwise fun a b => a.1 < b.1) :
    forMap dflt (fun _ : Unit => .key fun k => .index (g k) fun _ => .done ()) n () (ofMap (p :: m)) = .diverge := by
  have h : ∀ (n : Nat) (m : List (κ × ν)) (k : κ),
      MapLoop.Spec.loop dflt (fun _ : Unit => .key fun k => .index (g k) fun _ => .done ()) n () m (some k) = .diverge := by
    intro n
    induction n with
    | zero => intro m k; rfl
    | succ n ih =>
      intro m k
      have hm : ∀ m : List (κ × ν), ∃ v, (g k, v) ∈ Stl.mapInsert (g k) dflt m := by
        intro m
        induction m with
        | nil => exact ⟨dflt, by simp [Stl.mapInsert]⟩
        | cons q m ih2 =>
          obtain ⟨v, hv⟩ := ih2
          obtain ⟨j, x⟩ := q
          rw [Stl.mapInsert]
          split_ifs with h1 h2
          · exact ⟨dflt, by simp⟩
          · exact ⟨v, by simp [hv]⟩
          · exact ⟨x, by simp [le_antisymm (not_lt.1 h2) (not_lt.1 h1)]⟩
      obtain ⟨v, hv⟩ := hm m
      obtain ⟨k', hk'⟩ : ∃ k', MapLoop.Spec.above k (Stl.mapInsert (g k) dflt m) = some k' := by
        cases ha : MapLoop.Spec.above k (Stl.mapInsert (g k) dflt m) with
        | some k' => exact ⟨k', rfl⟩
        | none =>
          have := List.find?_eq_none.1 (Option.map_eq_none_iff.1 ha) _ hv
          simp [hg k] at this
      simp [MapLoop.Spec.loop, MapLoop.Spec.exec, Map.index, hk', ih]
  have h1 := C177_map dflt (fun _ : Unit => Body.key fun k => .index (g k) fun _ => .done ()) n () (p :: m) hs
  rw [show (p :: m).head?.map (fun p => p.1) = some p.1 from rfl, h n (p :: m) p.1] at h1
  revert h1
  cases forMap dflt (fun _ : Unit => Body.key fun k => .index (g k) fun _ => .done ()) n () (ofMap (p :: m)) <;> intro h1 <;>
    first | rfl | cases h1

/-- **C177, refuted.**  Erasing the current pair, as in `for (auto& x : map) map.erase(x.first);`, is undefined. -/
theorem C177_erase_refuted (dflt : ν) (n : Nat) (st : σ) (p : κ × ν) (m : List (κ × ν)) (hs : (p :: m).Pairwise fun a b => a.1 < b.1) :
    forMap dflt (fun st : σ => .key fun k => .erase k (.done st)) (n + 1) st (ofMap (p :: m)) = .ub := by
  have h1 := C177_map dflt (fun st : σ => Body.key fun k => .erase k (.done st)) (n + 1) st (p :: m) hs
  have h2 : MapLoop.Spec.loop dflt (fun st : σ => Body.key fun k => .erase k (.done st)) (n + 1) st (p :: m)
      ((p :: m).head?.map fun p => p.1) = .ub := by
    simp [MapLoop.Spec.loop, MapLoop.Spec.exec]
  rw [h2] at h1
  revert h1
  cases forMap dflt (fun st : σ => Body.key fun k => .erase k (.done st)) (n + 1) st (ofMap (p :: m)) <;> intro h1 <;>
    first | rfl | cases h1

/-! ## concrete cases -/

/-- `for (auto& x : m) { if (x.first == 2) { m.erase(5); m.set(3, 30); m.set(1, 10); } x.second += 1; sum += x.first; }` -/
def mapLoopDemo : Nat → Body Nat Nat Nat := fun sum =>
  .key fun k => if k = 2 then .erase 5 (.set 3 30 (.set 1 10 (.read fun x => .write (x + 1) (.done (sum + k)))))
    else .read fun x => .write (x + 1) (.done (sum + k))

example : (forMap 0 mapLoopDemo 10 0 (ofMap [(2, 7), (5, 8), (9, 9)]) >>= fun y => Out.ok (y.1, y.2.1.contents, y.2.2)) =
    .ok (14, [(1, 10), (2, 8), (3, 31), (9, 10)], [(2, 0), (3, 3), (9, 2)]) := by decide +kernel

example : [(2, 7), (5, 8), (9, 9)].Pairwise (fun a b : Nat × Nat => a.1 < b.1) := by decide

example : ∀ st, MapLoop.Spec.NoStop (mapLoopDemo st) := by
  intro st k
  by_cases h : k = 2 <;> simp [h, MapLoop.Spec.NoStop]

/-- the hypotheses of `C177_ends` for keys with finitely many values, and of `C177_ends_refuted` -/
example : (∀ j k : Fin 300, j < k → j.1 < k.1) ∧ ∀ k : Fin 300, k.1 < 300 := ⟨fun _ _ h => h, fun k => k.2⟩
example : ∀ k : Nat, k < k + 1 := fun k => Nat.lt_succ_self k

example : MapLoop.Spec.sweep (fun s k x => (s + k * x, s)) 0 [(2, 7), (5, 8)] = (54, [(2, 0), (5, 14)]) := by decide

/-- `for (auto& x : s) if (x < 4) s.insert(x + 2);` -/
example : (forSet (fun _ : Unit => .read fun x => if x < 4 then .insert (x + 2) (.done ()) else .done ()) 10 () [1, 4] >>=
    fun y => Out.ok (y.2.1.contents.map (fun p => p.1), y.2.2.map fun x => x.1)) = .ok ([1, 3, 4, 5], [1, 3, 4, 5]) := by decide +kernel

end Cont.Props

import Verif.Proof.Mersenne

/-! # Properties of the random numbers with the engine that the library uses: C167

The theorems of the other files hold for every engine; here it is `std::mt19937_64`. -/

namespace Rand.Props
open Cpp Spec Rand Mersenne

/-! ### The engine is the one of the standard -/

/-- The first three numbers for the seed 5489, which the standard takes if none is given. -/
example : (List.range 3).map (outAt engine (new engine 5489)) =
    [14514284786278117030, 4620546740167642908, 13109570281517897720] := by decide +kernel

/-- The number 400 for this seed, which depends on words that were themselves made by the recurrence.  (The standard
gives the number 10000, 9981545732273789042; the interpreter computes this value from the model, for the kernel it takes
too long.) -/
example : outAt engine (new engine 5489) 399 = 4749231114166154448 := by decide +kernel

/-! ### C167 different seeds -/

/-- **C167.**  Two generators seeded with different numbers: at whatever moment, of the next 312 numbers of the engine at
least one differs. -/
theorem C167_seeds (s s' : Int) (hs : IsInt s) (hs' : IsInt s') (h : s ≠ s') (n : Nat) :
    ∃ k, n ≤ k ∧ k < n + 312 ∧ outAt engine (new engine s) k ≠ outAt engine (new engine s') k := by
  by_contra hc
  apply h
  refine uint64_inj hs hs' ?_
  have := seeds_out (u := ⟨uint64 s⟩) (v := ⟨uint64 s'⟩) n (fun k h1 h2 => by
    by_contra hne
    exact hc ⟨k, h1, h2, hne⟩)
  exact congrArg BitVec.toFin this

/-- **C167.**  What a program sees of it.  Two `Random` objects with different seeds, from which the same number `n` of
numbers has been drawn: if `nextInt(1 << 30)` returns the same 312 times from both, then `nextDouble()` in its place would
not have. -/
theorem C167_values (s s' : Int) (hs : IsInt s) (hs' : IsInt s') (h : s ≠ s') (n : Nat) :
    ∃ is is' ds ds' a a' b b',
      runMethods (List.replicate 312 (.int1 (2 ^ 30) : Call Dbl)) (stateAt engine (new engine s) n) = .ok (is, a) ∧
      runMethods (List.replicate 312 (.int1 (2 ^ 30) : Call Dbl)) (stateAt engine (new engine s') n) = .ok (is', a') ∧
      runMethods (List.replicate 312 (.double0 : Call Dbl)) (stateAt engine (new engine s) n) = .ok (ds, b) ∧
      runMethods (List.replicate 312 (.double0 : Call Dbl)) (stateAt engine (new engine s') n) = .ok (ds', b') ∧
      (is ≠ is' ∨ ds ≠ ds') := by
  refine ⟨_, _, _, _, _, _, _, _, ints_run _ _, ints_run _ _, doubles_run _ _, doubles_run _ _, ?_⟩
  by_contra hc
  have hc' := not_or.1 hc
  have key := outs_of_values (ints_run _ _) (ints_run _ _) (doubles_run _ _) (doubles_run _ _)
    ⟨not_not.1 hc'.1, not_not.1 hc'.2⟩
  obtain ⟨k, h1, h2, hne⟩ := C167_seeds s s' hs hs' h n
  apply hne
  have := key (k - n) (by omega)
  rw [outAt_add, outAt_add, Nat.sub_add_cancel h1] at this
  exact this

/-- **C167.**  The same for two objects constructed without a seed, at times whose lower 32 bits differ, and so for two
runs of a program that uses the shared generator. -/
theorem C167_times (t t' : Int) (h : t % 2 ^ 32 ≠ t' % 2 ^ 32) (n : Nat) :
    ∃ k, n ≤ k ∧ k < n + 312 ∧ outAt engine (newAt engine t) k ≠ outAt engine (newAt engine t') k :=
  C167_seeds _ _ (bmod_isInt t) (bmod_isInt t') (bmod_inj h) n

/-- **C167.**  No seed is a bad one: among any 312 consecutive values of `nextDouble()` at least one is not 0. -/
theorem C167_alive (s : Int) (n : Nat) : ∃ ds b,
    runMethods (List.replicate 312 (.double0 : Call Dbl)) (stateAt engine (new engine s) n) = .ok (ds, b) ∧
    ∃ x : ℚ, 0 < x ∧ Ret.double (.fin x) ∈ ds := by
  refine ⟨_, _, doubles_run _ _, ?_⟩
  obtain ⟨k, h1, h2, hne⟩ := not_all_zero ⟨uint64 s⟩ n
  refine ⟨unif (outAt engine (new engine s) k), ?_, List.mem_map.2 ⟨k - n, List.mem_range.2 (by omega), ?_⟩⟩
  · have h0 : unif 0 ≤ unif (outAt engine (new engine s) k) := unif_mono (Nat.zero_le _)
    rw [show unif 0 = 0 by decide +kernel] at h0
    exact lt_of_le_of_ne h0 (fun he => hne (unif_zero he.symm))
  · rw [outAt_add, Nat.sub_add_cancel h1]

/-- The seeds 0 and 1: already the first values differ. -/
example : IsInt 0 ∧ IsInt 1 ∧ (0 : Int) ≠ 1 ∧
    (nextInt1 (2 ^ 30) (new engine 0)).bind (fun p => Out.ok p.1) = .ok 188865598 ∧
    (nextInt1 (2 ^ 30) (new engine 1)).bind (fun p => Out.ok p.1) = .ok 996700008 := by
  refine ⟨by decide, by decide, by decide, by decide +kernel, by decide +kernel⟩

/-- A negative seed is not the same as its absolute value. -/
example : outAt engine (new engine (-1)) 0 ≠ outAt engine (new engine 1) 0 := by decide +kernel

example : (1700000000 : Int) % 2 ^ 32 ≠ 1700000001 % 2 ^ 32 := by decide

end Rand.Props

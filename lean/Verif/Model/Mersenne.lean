import Verif.Model.Random

/-!
# Model of the engine of `Random`: `std::mt19937_64`, /repo/src/include/random/Random.h:85

The engine is a part of the standard library; it is written down here from its definition in the C++ standard, section
[rand.eng.mers], with the parameters of `mt19937_64` in [rand.predef]: w = 64, n = 312, m = 156, r = 31, a = 0xb5026f5aa96619e9,
u = 29, d = 0x5555555555555555, s = 17, b = 0x71d67fffeda60000, t = 37, c = 0xfff7eee000000000, l = 43, f = 6364136223846793005.
`Random.cpp:10` and `:41` seed it with a number, `randomGenerator()` calls it.
-/

namespace Rand.Mersenne
open Cpp

/-- A word of w = 64 bits. -/
abbrev W := BitVec 64

/-- `X_i` from `X_{i-1}`, in the seeding of the engine. -/
def seedNext (i : Nat) (x : W) : W := 6364136223846793005#64 * (x ^^^ (x >>> 62)) + BitVec.ofNat 64 i

/-- The rest of the state from the word `x` with the number `i` on. -/
def seedFrom : Nat → Nat → W → List W
  | 0, _, _ => []
  | k + 1, i, x => x :: seedFrom k (i + 1) (seedNext (i + 1) x)

/-- `seed(v)`: the state, n = 312 words, the oldest first. -/
def seed (v : W) : List W := seedFrom 312 0 v

/-- `Y`: the upper w - r = 33 bits of one word and the lower r = 31 bits of the next. -/
def join (x y : W) : W := (x &&& 0xFFFFFFFF80000000#64) ||| (y &&& 0x7FFFFFFF#64)

/-- `(Y rshift 1) xor (a · (Y bitand 1))` -/
def twist (y : W) : W := (y >>> 1) ^^^ (if y.getLsbD 0 then 0xb5026f5aa96619e9#64 else 0#64)

/-- The next word `X_i` of the sequence. -/
def next (s : List W) : W := s.getD 156 0 ^^^ twist (join (s.getD 0 0) (s.getD 1 0))

/-- The transition: the oldest word is dropped and the next one added. -/
def step (s : List W) : List W := s.tail ++ [next s]

/-- The output `z_4` for the newest word. -/
def temper (x : W) : W :=
  let z1 := x ^^^ ((x >>> 29) &&& 0x5555555555555555#64)
  let z2 := z1 ^^^ ((z1 <<< 17) &&& 0x71d67fffeda60000#64)
  let z3 := z2 ^^^ ((z2 <<< 37) &&& 0xfff7eee000000000#64)
  z3 ^^^ (z3 >>> 43)

/-- `std::mt19937_64` -/
def engine : Engine where
  σ := List W
  seed v := seed ⟨v⟩
  draw s := ((temper (next s)).toFin, step s)

end Rand.Mersenne

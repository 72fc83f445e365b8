import Verif.Model.GcdTypes
import Verif.Spec.Stats

/-! # Spec: sums that stay in an integer type -/

namespace Stats.Spec
open GcdTypes

/-- All values of the list are values of the type `t`. -/
def Values (t : ITy) (xs : List Int) : Prop := ∀ x ∈ xs, t.In x

instance (t : ITy) (xs : List Int) : Decidable (Values t xs) := inferInstanceAs (Decidable (∀ x ∈ xs, t.In x))

/-- The sums of the first `k` values are values of the type `t`, for all `k`. -/
def SumsFit (t : ITy) (xs : List Int) : Prop := ∀ k, k ≤ xs.length → t.In (xs.take k).sum

instance (t : ITy) (xs : List Int) : Decidable (SumsFit t xs) :=
  inferInstanceAs (Decidable (∀ k, k ≤ xs.length → t.In (xs.take k).sum))

/-- The condition for the sum to be right: the total fits in the type; in `int` and the signed 64-bit type, where overflow is
undefined, the sums of all first parts too. -/
def Fits (t : ITy) (xs : List Int) : Prop :=
  match t with
  | .i32 => SumsFit .i32 xs
  | .i64 => SumsFit .i64 xs
  | t => t.In xs.sum

instance (t : ITy) (xs : List Int) : Decidable (Fits t xs) :=
  match t with
  | .i32 => inferInstanceAs (Decidable (SumsFit .i32 xs))
  | .i64 => inferInstanceAs (Decidable (SumsFit .i64 xs))
  | .i8 => inferInstanceAs (Decidable (ITy.i8.In xs.sum))
  | .u8 => inferInstanceAs (Decidable (ITy.u8.In xs.sum))
  | .i16 => inferInstanceAs (Decidable (ITy.i16.In xs.sum))
  | .u16 => inferInstanceAs (Decidable (ITy.u16.In xs.sum))
  | .u32 => inferInstanceAs (Decidable (ITy.u32.In xs.sum))
  | .u64 => inferInstanceAs (Decidable (ITy.u64.In xs.sum))

/-- The values as numbers. -/
def nums (xs : List Int) : List ℚ := xs.map fun (x : Int) => (x : ℚ)

/-- The truth values as numbers. -/
def bits (bs : List Bool) : List ℚ := bs.map fun b => if b then 1 else 0

end Stats.Spec

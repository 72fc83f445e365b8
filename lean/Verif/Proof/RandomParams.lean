import Verif.Model.RandomParams
import Verif.Proof.RandomDouble

/-! # Small doubles -/

namespace Rand
open Cpp

theorem dbl_two : ((2 : Int) : Dbl) = .fin 2 := by decide +kernel
theorem dbl_one : ((1 : Int) : Dbl) = .fin 1 := by decide +kernel
theorem dbl_zero : ((0 : Int) : Dbl) = .fin 0 := by decide +kernel

end Rand

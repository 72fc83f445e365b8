import Verif.Model.RandomCont

/-!
# Model of /repo/src/include/random: reading the parameters of a sampler

Only the two functions that compute something are modelled; the others return the member that the constructor set.
-/

namespace Rand
open Cpp

variable {D : Type} [Mul D] [Div D] [IntCast D]

/-- `ChiSquaredDistribution::r()`, ChiSquaredDistribution.h:44. -/
def chiSquaredR (d : Gamma D) : D := d.k * ((2 : Int) : D)

/-- `ExponentialDistribution::lambda()`, ExponentialDistribution.h:48. -/
def exponentialLambda (d : Gamma D) : D := ((1 : Int) : D) / d.theta

end Rand

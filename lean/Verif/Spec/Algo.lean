import Verif.Cpp

/-! # Calling a function for each element in order -/

namespace Algo.Spec
open Cpp

variable {α β σ : Type}

/-- The function is called once for each element, in order, each time with the state the call before left: the results, the
elements and the state afterwards. -/
inductive Calls (func : σ → α → Out (β × α × σ)) : σ → List α → List (β × α) → σ → Prop
  | nil (s : σ) : Calls func s [] [] s
  | cons {s s' s'' : σ} {v w : α} {r : β} {vs : List α} {l : List (β × α)} (h : func s v = .ok (r, w, s'))
      (hr : Calls func s' vs l s'') : Calls func s (v :: vs) ((r, w) :: l) s''

end Algo.Spec

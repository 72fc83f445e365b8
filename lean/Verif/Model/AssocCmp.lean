import Verif.Model.Assoc

/-!
# Models of the comparison operators of Map, Set, MultiSet and MultiMap,
/repo/src/include/containers/{Map,Set,MultiSet,MultiMap}.h

All of them call the same operator of the standard library: `==` compares the sizes and the elements in the order of iteration,
`<` is `std::lexicographical_compare`, the others are derived from these two.
-/

namespace Cont
open Cpp

variable {κ ν α : Type}

/-- `<` of `std::pair`, which the comparisons of Map and MultiMap use for their elements. -/
def pairLess [LinearOrder κ] [LinearOrder ν] (a b : κ × ν) : Bool := decide (a.1 < b.1) || (!decide (b.1 < a.1) && decide (a.2 < b.2))

/-- `<` of the elements of a Set or a MultiSet. -/
def less [LinearOrder α] (a b : α) : Bool := decide (a < b)

/-- `operator==`, Map.h:252-255, Set.h:207-210, MultiSet.h:222-225, MultiMap.h:223-226. -/
def cmpEq [DecidableEq α] (m m' : List α) : Bool := decide (m.length = m'.length) && (m.zip m').all fun p => decide (p.1 = p.2)

/-- `operator!=`, Map.h:257-260, Set.h:212-215, MultiSet.h:227-230, MultiMap.h:228-231. -/
def cmpNe [DecidableEq α] (m m' : List α) : Bool := !cmpEq m m'

/-- `operator<`, Map.h:262-265, Set.h:216-219, MultiSet.h:232-235, MultiMap.h:233-236. -/
def cmpLt (lt : α → α → Bool) (m m' : List α) : Bool := Stl.lexLt lt m m'

/-- `operator<=`, Map.h:267-270, Set.h:221-224, MultiSet.h:237-240, MultiMap.h:238-241. -/
def cmpLe (lt : α → α → Bool) (m m' : List α) : Bool := !Stl.lexLt lt m' m

/-- `operator>`, Map.h:272-275, Set.h:226-229, MultiSet.h:242-245, MultiMap.h:243-246. -/
def cmpGt (lt : α → α → Bool) (m m' : List α) : Bool := Stl.lexLt lt m' m

/-- `operator>=`, Map.h:277-280, Set.h:231-234, MultiSet.h:247-250, MultiMap.h:248-251. -/
def cmpGe (lt : α → α → Bool) (m m' : List α) : Bool := !Stl.lexLt lt m m'

end Cont

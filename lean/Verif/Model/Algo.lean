import Verif.Model.Stl

/-!
# Models of zip, mapAll and filterContainer, /repo/src/include/algorithm/{Zip,Map,Filter}.h

Containers are the lists of their elements.  A function passed to `mapAll` or `filterContainer` gets a reference to each
element: it is a function of its own state and the element which gives a result, the element afterwards and its state
afterwards, or any other outcome.  It does not touch the container other than through this reference.
-/

open Cpp

namespace Algo

variable {α β σ : Type}

/-- The members of `Zip<T>`, Zip.h:41-43. -/
structure Zip (α : Type) where
  items : List (List α)
  min : Nat

/-- `items.resize(n)`: elements that are added are empty. -/
def resize (items : List (List α)) (n : Nat) : List (List α) := items.take n ++ List.replicate (n - items.length) []

/-- The loop of `zip_`, Zip.h:30-34, body for `i`. -/
def zipBody (head : List α) (items : List (List α)) (i : Nat) : Out (List (List α)) := do
  let itr ← Stl.advance head 0 i
  let v ← Stl.at' head itr
  let item ← Stl.at' items i
  Stl.setAt items i (item ++ [v])

/-- `zip_(head, tail...)` and `zip_()`, Zip.h:26-39. -/
def zipGo : Zip α → List (List α) → Out (Zip α)
  | z, [] => .ok { z with items := resize z.items z.min }
  | z, head :: tail => do
    let min := if head.length < z.min then head.length else z.min
    let items ← (List.range min).foldlM (zipBody head) z.items
    zipGo ⟨items, min⟩ tail

/-- `zip(head, args...)`, Zip.h:64-67, with the constructor of `Zip`, Zip.h:16-20, and the conversion, Zip.h:21. -/
def zip (head : List α) (args : List (List α)) : Out (List (List α)) := do
  let z ← zipGo ⟨List.replicate head.length [], head.length⟩ (head :: args)
  .ok z.items

/-- The loop of `mapAll`, Map.h:27-29: `ret`, the elements of the container passed so far, and the state of `func`. -/
def mapGo (func : σ → α → Out (β × α × σ)) : List α → List β → List α → σ → Out (List β × List α × σ)
  | [], ret, done, s => .ok (ret, done, s)
  | v :: cont, ret, done, s => do
    let (r, v, s) ← func s v
    mapGo func cont (ret ++ [r]) (done ++ [v]) s

/-- `mapAll(cont, func)`, Map.h:19-31: the result, the container and the state of `func` afterwards. -/
def mapAll (func : σ → α → Out (β × α × σ)) (cont : List α) (s : σ) : Out (List β × List α × σ) := mapGo func cont [] [] s

/-- The loop of `filterContainer`, Filter.h:24-28. -/
def filterGo (func : σ → α → Out (Bool × α × σ)) : List α → List α → List α → σ → Out (List α × List α × σ)
  | [], ret, done, s => .ok (ret, done, s)
  | v :: cont, ret, done, s => do
    let (r, v, s) ← func s v
    filterGo func cont (if r then ret ++ [v] else ret) (done ++ [v]) s

/-- `filterContainer(cont, func)`, Filter.h:19-30: the result, the container and the state of `func` afterwards. -/
def filterContainer (func : σ → α → Out (Bool × α × σ)) (cont : List α) (s : σ) : Out (List α × List α × σ) :=
  filterGo func cont [] [] s

end Algo

import Verif.Proof.Algo
import Verif.Spec.Algo

/-! # zip, mapAll, filterContainer: properties C57, C58 -/

namespace Algo.Props
open Cpp Spec

variable {α β σ : Type}

/-- **C57.**  `zip` of one or more containers never has undefined behaviour; the result is as long as the shortest of them,
and its `i`-th element lists the `i`-th elements of all of them in order. -/
theorem C57_zip (head : List α) (args : List (List α)) :
    ∃ r, zip head args = .ok r ∧ (∀ c ∈ head :: args, r.length ≤ c.length) ∧ (∃ c ∈ head :: args, r.length = c.length) ∧
      ∀ i (h : i < r.length), r[i].map some = (head :: args).map (fun c => c[i]?) := by
  have h0 : Inv head [] ⟨List.replicate head.length [], head.length⟩ := by
    refine ⟨by simp, by simp, ⟨head, by simp, rfl⟩, fun i hi => ⟨[], ?_, rfl⟩⟩
    dsimp only at hi ⊢
    rw [List.getElem?_replicate, if_pos hi]
  obtain ⟨z, e, h, hl⟩ := zipGo_inv head (head :: args) [] _ h0
  refine ⟨z.items, by rw [zip, e]; rfl, ?_, ?_, fun i hi => ?_⟩
  · rw [hl]; exact h.le
  · rw [hl]
    obtain ⟨c, hc, e⟩ := h.eq
    refine ⟨c, ?_, e⟩
    simp at hc ⊢
    exact hc
  · obtain ⟨item, h1, h2⟩ := h.items i (by omega)
    rw [List.getElem?_eq_getElem hi] at h1
    rw [Option.some.inj h1]
    exact h2

example : zip [1, 2, 3, 4] [[5, 6, 7, 8], [9, 10, 11]] = .ok [[1, 5, 9], [2, 6, 10], [3, 7, 11]] := by decide
example : ∃ r, zip [1, 2, 3] [[5, 6]] = .ok r ∧ ∀ i (h : i < r.length), r[i].map some = [[1, 2, 3], [5, 6]].map (fun c => c[i]?) := by
  obtain ⟨r, h1, _, _, h⟩ := C57_zip [1, 2, 3] [[5, 6]]
  exact ⟨r, h1, h⟩

/-- **C58.**  `mapAll` with a function that has no effects returns the images of the elements in order, one for each, and
leaves the container as it is. -/
theorem C58_map (f : α → β) (cont : List α) :
    mapAll (fun (_ : Unit) v => .ok (f v, v, ())) cont () = .ok (cont.map f, cont, ()) := mapGo_pure f cont [] [] ()

/-- **C58.**  `filterContainer` with a predicate that has no effects returns the elements that satisfy it, in order and with
multiplicity, and leaves the container as it is. -/
theorem C58_filter (p : α → Bool) (cont : List α) :
    filterContainer (fun (_ : Unit) v => .ok (p v, v, ())) cont () = .ok (cont.filter p, cont, ()) := filterGo_pure p cont [] [] ()

/-- **C58.**  `mapAll` with any function: it returns just if the function, called for each element in order, returns, and
then the result lists what the calls returned. -/
theorem C58_map_effects (func : σ → α → Out (β × α × σ)) (cont cont' : List α) (ret : List β) (s s' : σ) :
    mapAll func cont s = .ok (ret, cont', s') ↔
      ∃ l, Calls func s cont l s' ∧ ret = l.map Prod.fst ∧ cont' = l.map Prod.snd := by
  suffices ∀ (cont : List α) (ret0 : List β) (done : List α) (s : σ), mapGo func cont ret0 done s = .ok (ret, cont', s') ↔
      ∃ l, Calls func s cont l s' ∧ ret = ret0 ++ l.map Prod.fst ∧ cont' = done ++ l.map Prod.snd by
    simpa [mapAll] using this cont [] [] s
  intro cont
  induction cont with
  | nil =>
    intro ret0 done s
    constructor
    · intro h
      cases h
      exact ⟨[], .nil _, by simp, by simp⟩
    · rintro ⟨l, h, rfl, rfl⟩
      cases h
      simp [mapGo]
  | cons v cont ih =>
    intro ret0 done s
    rw [mapGo, Out.bind_eq_ok]
    constructor
    · rintro ⟨⟨r, w, s1⟩, h1, h2⟩
      obtain ⟨l, hl, e1, e2⟩ := (ih _ _ _).1 h2
      exact ⟨(r, w) :: l, .cons h1 hl, by simp [e1], by simp [e2]⟩
    · rintro ⟨l, h, e1, e2⟩
      cases h with
      | cons h hr =>
        exact ⟨_, h, (ih _ _ _).2 ⟨_, hr, by simp [e1], by simp [e2]⟩⟩

/-- **C58.**  `filterContainer` with any function: it returns just if the function, called for each element in order,
returns, and then the result lists the elements, as the calls left them, for which it returned true. -/
theorem C58_filter_effects (func : σ → α → Out (Bool × α × σ)) (cont cont' ret : List α) (s s' : σ) :
    filterContainer func cont s = .ok (ret, cont', s') ↔
      ∃ l, Calls func s cont l s' ∧ ret = (l.filter Prod.fst).map Prod.snd ∧ cont' = l.map Prod.snd := by
  suffices ∀ (cont : List α) (ret0 : List α) (done : List α) (s : σ), filterGo func cont ret0 done s = .ok (ret, cont', s') ↔
      ∃ l, Calls func s cont l s' ∧ ret = ret0 ++ (l.filter Prod.fst).map Prod.snd ∧ cont' = done ++ l.map Prod.snd by
    simpa [filterContainer] using this cont [] [] s
  intro cont
  induction cont with
  | nil =>
    intro ret0 done s
    constructor
    · intro h
      cases h
      exact ⟨[], .nil _, by simp, by simp⟩
    · rintro ⟨l, h, rfl, rfl⟩
      cases h
      simp [filterGo]
  | cons v cont ih =>
    intro ret0 done s
    rw [filterGo, Out.bind_eq_ok]
    constructor
    · rintro ⟨⟨r, w, s1⟩, h1, h2⟩
      obtain ⟨l, hl, e1, e2⟩ := (ih _ _ _).1 h2
      refine ⟨(r, w) :: l, .cons h1 hl, ?_, by simp [e2]⟩
      cases r <;> simp [e1]
    · rintro ⟨l, h, e1, e2⟩
      cases h with
      | @cons _ s1 _ _ w r _ l h hr =>
        refine ⟨_, h, (ih _ _ _).2 ⟨_, hr, ?_, by simp [e2]⟩⟩
        cases r <;> simp [e1]

/-- a function that counts its calls, doubles the element and returns it with the number of the call -/
def counting (n : Nat) (v : Int) : Out ((Nat × Int) × Int × Nat) := .ok ((n, v), 2 * v, n + 1)

example : mapAll counting [5, 6] 0 = .ok ([(0, 5), (1, 6)], [10, 12], 2) :=
  (C58_map_effects counting [5, 6] _ _ 0 2).2 ⟨_, .cons rfl (.cons rfl (.nil _)), rfl, rfl⟩

/-- a predicate that lets every second element through and negates it -/
def alternate (b : Bool) (v : Int) : Out (Bool × Int × Bool) := .ok (b, -v, !b)

example : filterContainer alternate [5, 6, 7, 8] true = .ok ([-5, -7], [-5, -6, -7, -8], true) :=
  (C58_filter_effects alternate [5, 6, 7, 8] _ _ true true).2
    ⟨_, .cons rfl (.cons rfl (.cons rfl (.cons rfl (.nil _)))), rfl, rfl⟩
example : filterContainer (fun (_ : Unit) (v : Nat) => .ok (decide (v > 2), v, ())) [3, 1, 3, 4] () = .ok ([3, 3, 4], [3, 1, 3, 4], ()) :=
  C58_filter (fun v => decide (v > 2)) [3, 1, 3, 4]

end Algo.Props

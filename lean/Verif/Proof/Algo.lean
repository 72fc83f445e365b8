import Verif.Model.Algo
import Verif.Proof.Loop

/-! # Helper lemmas for zip, mapAll, filterContainer -/

namespace Algo
open Cpp

variable {α β σ : Type}

theorem zipBody_ok {head : List α} {items : List (List α)} {i : Nat} (h1 : i < head.length) (h2 : i < items.length) :
    zipBody head items i = .ok (items.set i (items[i] ++ [head[i]])) := by
  have e1 : Stl.advance head 0 i = .ok i := by
    unfold Stl.advance
    rw [if_pos (by omega)]
    simp
  unfold zipBody
  rw [e1]
  simp [Stl.at', Stl.setAt, h1, h2]

/-- the loop for one container -/
theorem zip_loop (head : List α) (items : List (List α)) (m : Nat) (h1 : m ≤ head.length) (h2 : m ≤ items.length) :
    ∃ items', (List.range m).foldlM (zipBody head) items = .ok items' ∧ items'.length = items.length ∧
      ∀ i (hi : i < m), items'[i]? = some (items[i]'(by omega) ++ [head[i]'(by omega)]) := by
  obtain ⟨items', e, hl, hlow, _⟩ := foldlM_range_inv (zipBody head)
    (fun k its => its.length = items.length ∧
      (∀ i (hi : i < m), i < k → its[i]? = some (items[i]'(by omega) ++ [head[i]'(by omega)])) ∧
      ∀ i, k ≤ i → its[i]? = items[i]?) m items ⟨rfl, fun i _ h => by omega, fun i _ => rfl⟩ (by
      rintro k hk its ⟨hl, hlow, hhigh⟩
      have hk1 : k < head.length := by omega
      have hk2 : k < its.length := by omega
      refine ⟨_, zipBody_ok hk1 hk2, by simp [hl], fun i hi hik => ?_, fun i hi => ?_⟩
      · by_cases e : i = k
        · subst e
          have h0 := hhigh i (Nat.le_refl _)
          rw [List.getElem?_eq_getElem hk2, List.getElem?_eq_getElem (by omega)] at h0
          rw [List.getElem?_set_self hk2, Option.some.inj h0]
        · rw [List.getElem?_set_ne (by omega)]
          exact hlow i hi (by omega)
      · rw [List.getElem?_set_ne (by omega)]
        exact hhigh i (by omega))
  exact ⟨items', e, hl, fun i hi => hlow i hi hi⟩

/-- what is true after some of the containers: the items hold their elements -/
structure Inv (head : List α) (done : List (List α)) (z : Zip α) : Prop where
  room : z.min ≤ z.items.length
  le : ∀ c ∈ done, z.min ≤ c.length
  eq : ∃ c ∈ head :: done, z.min = c.length
  items : ∀ i, i < z.min → ∃ item, z.items[i]? = some item ∧ item.map some = done.map (fun c => c[i]?)

theorem zipGo_inv (head : List α) (cs : List (List α)) : ∀ (done : List (List α)) (z : Zip α), Inv head done z →
    ∃ z', zipGo z cs = .ok z' ∧ Inv head (done ++ cs) z' ∧ z'.items.length = z'.min := by
  induction cs with
  | nil =>
    intro done z h
    refine ⟨_, rfl, ?_, ?_⟩
    · rw [List.append_nil]
      refine ⟨?_, h.le, h.eq, fun i hi => ?_⟩
      · have := h.room; simp [resize]; omega
      · obtain ⟨item, h1, h2⟩ := h.items i hi
        refine ⟨item, ?_, h2⟩
        have hr := h.room
        dsimp only at hi
        rw [resize, List.getElem?_append_left (by simp; omega), List.getElem?_take, if_pos hi, h1]
    · have := h.room
      simp [resize]; omega
  | cons c cs ih =>
    intro done z h
    rw [zipGo]
    have hm : (if c.length < z.min then c.length else z.min) = min c.length z.min := by
      split <;> omega
    rw [hm]
    have hr := h.room
    obtain ⟨items', e, hl, hi⟩ := zip_loop c z.items (min c.length z.min) (by omega) (by omega)
    simp only [e, Out.ok_bind]
    have h' : Inv head (done ++ [c]) ⟨items', min c.length z.min⟩ := by
      refine ⟨by dsimp only; omega, fun d hd => ?_, ?_, fun i him => ?_⟩
      · dsimp only
        rw [List.mem_append, List.mem_singleton] at hd
        rcases hd with hd | rfl
        · have := h.le d hd; omega
        · omega
      · obtain ⟨d, hd, e⟩ := h.eq
        dsimp only
        by_cases hlt : c.length < z.min
        · exact ⟨c, by simp, by omega⟩
        · refine ⟨d, ?_, by omega⟩
          rw [List.mem_cons] at hd ⊢
          rcases hd with hd | hd
          · exact .inl hd
          · exact .inr (by simp [hd])
      · dsimp only at him
        obtain ⟨item, h1, h2⟩ := h.items i (by omega)
        have hz : z.items[i]'(by omega) = item := by
          rw [List.getElem?_eq_getElem (by omega)] at h1
          exact Option.some.inj h1
        have hc : i < c.length := by omega
        refine ⟨_, hi i him, ?_⟩
        rw [hz, List.map_append, List.map_append, h2]
        simp [hc]
    obtain ⟨z', e', hinv, hlen⟩ := ih _ _ h'
    exact ⟨z', e', by simpa using hinv, hlen⟩

theorem mapGo_pure (f : α → β) (cont : List α) : ∀ (ret : List β) (done : List α) (s : σ),
    mapGo (fun s v => .ok (f v, v, s)) cont ret done s = .ok (ret ++ cont.map f, done ++ cont, s) := by
  induction cont with
  | nil => intro ret done s; simp [mapGo]
  | cons v cont ih => intro ret done s; simp [mapGo, ih]

theorem filterGo_pure (p : α → Bool) (cont : List α) : ∀ (ret : List α) (done : List α) (s : σ),
    filterGo (fun s v => .ok (p v, v, s)) cont ret done s = .ok (ret ++ cont.filter p, done ++ cont, s) := by
  induction cont with
  | nil => intro ret done s; simp [filterGo]
  | cons v cont ih =>
    intro ret done s
    simp [filterGo, ih, List.filter_cons]
    split <;> simp

end Algo

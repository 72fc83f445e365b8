import Verif.Spec.MatrixDouble
import Verif.Proof.MatrixReduce
import Verif.Proof.StatsDouble

/-! # Lemmas about matrices of doubles -/

namespace Matrix
open Cpp Spec

/-! ### the shape of a reduced matrix, for every arithmetic -/

section shape
variable {α : Type}

theorem foldlM_ok_inv {σ τ : Type} {f : σ → τ → Out σ} (P : σ → Prop) : ∀ (l : List τ) (s s' : σ),
    (∀ s x s', x ∈ l → P s → f s x = .ok s' → P s') → P s → l.foldlM f s = .ok s' → P s' := by
  intro l
  induction l with
  | nil => intro s s' _ h e; cases e; exact h
  | cons x l ih =>
    intro s s' hs h e
    rw [List.foldlM_cons] at e
    obtain ⟨s1, e1, e2⟩ := Out.bind_eq_ok.1 e
    exact ih s1 s' (fun s y s' hy => hs s y s' (List.mem_cons_of_mem _ hy))
      (hs s x s1 List.mem_cons_self h e1) e2

/-- `B` is `A` except for the entries `(a, b)` with `D a b` -/
structure Agree (A B : Mat α) (D : Nat → Nat → Prop) : Prop where
  alive : B.alive = A.alive
  row : B.row = A.row
  col : B.col = A.col
  elem : ∀ a b, ¬ D a b → B.elem a b = A.elem a b

theorem Agree.refl (A : Mat α) (D : Nat → Nat → Prop) : Agree A A D := ⟨rfl, rfl, rfl, fun _ _ _ => rfl⟩

theorem Agree.trans {A B C : Mat α} {D : Nat → Nat → Prop} (h : Agree A B D) (h' : Agree B C D) : Agree A C D :=
  ⟨h'.alive.trans h.alive, h'.row.trans h.row, h'.col.trans h.col,
    fun a b d => (h'.elem a b d).trans (h.elem a b d)⟩

theorem Agree.mono {A B : Mat α} {D E : Nat → Nat → Prop} (h : Agree A B D) (hE : ∀ a b, D a b → E a b) :
    Agree A B E := ⟨h.alive, h.row, h.col, fun a b d => h.elem a b fun h' => d (hE a b h')⟩

theorem set_ok {A A' : Mat α} {i j : Nat} {v : α} (h : A.set i j v = .ok A') :
    Agree A A' (fun a b => a = i ∧ b = j) ∧ A'.elem i j = v := by
  unfold Mat.set at h
  split at h
  · cases h
    exact ⟨⟨rfl, rfl, rfl, fun a b d => if_neg d⟩, if_pos ⟨rfl, rfl⟩⟩
  · cases h

theorem mem_downTo {c r j : Nat} : j ∈ downTo c r ↔ r < j ∧ j < c := by
  unfold downTo
  simp only [List.mem_map, List.mem_range]
  constructor
  · rintro ⟨t, h, rfl⟩; omega
  · rintro ⟨h1, h2⟩; exact ⟨c - 1 - j, by omega, by omega⟩

theorem normalise_ok {ar : Arith α} {A A' : Mat α} {i r : Nat} (h : normalise ar A i r = .ok A') :
    Agree A A' (fun a b => a = i ∧ r ≤ b) ∧ A'.elem i r = ar.one := by
  unfold normalise at h
  obtain ⟨A1, e1, e2⟩ := Out.bind_eq_ok.1 h
  have h1 : Agree A A1 (fun a b => a = i ∧ r ≤ b) := by
    refine foldlM_ok_inv (fun B => Agree A B (fun a b => a = i ∧ r ≤ b)) _ _ _ ?_ (Agree.refl _ _) e1
    intro s x s' hx hs e
    obtain ⟨_, _, e⟩ := Out.bind_eq_ok.1 e
    obtain ⟨_, _, e⟩ := Out.bind_eq_ok.1 e
    obtain ⟨_, _, e⟩ := Out.bind_eq_ok.1 e
    have hx' := mem_downTo.1 hx
    exact hs.trans ((set_ok e).1.mono fun a b d => ⟨d.1, by omega⟩)
  exact ⟨h1.trans ((set_ok e2).1.mono fun a b d => ⟨d.1, by omega⟩), (set_ok e2).2⟩

theorem eliminate_ok {ar : Arith α} {A A' : Mat α} {i r j : Nat} (h : eliminate ar i r A j = .ok A') :
    Agree A A' (fun a b => a = j ∧ r ≤ b) ∧ A'.elem j r = ar.zero := by
  unfold eliminate at h
  obtain ⟨A1, e1, e2⟩ := Out.bind_eq_ok.1 h
  have h1 : Agree A A1 (fun a b => a = j ∧ r ≤ b) := by
    refine foldlM_ok_inv (fun B => Agree A B (fun a b => a = j ∧ r ≤ b)) _ _ _ ?_ (Agree.refl _ _) e1
    intro s x s' hx hs e
    obtain ⟨_, _, e⟩ := Out.bind_eq_ok.1 e
    obtain ⟨_, _, e⟩ := Out.bind_eq_ok.1 e
    obtain ⟨_, _, e⟩ := Out.bind_eq_ok.1 e
    obtain ⟨_, _, e⟩ := Out.bind_eq_ok.1 e
    obtain ⟨_, _, e⟩ := Out.bind_eq_ok.1 e
    have hx' := mem_downTo.1 hx
    exact hs.trans ((set_ok e).1.mono fun a b d => ⟨d.1, by omega⟩)
  exact ⟨h1.trans ((set_ok e2).1.mono fun a b d => ⟨d.1, by omega⟩), (set_ok e2).2⟩

theorem eliminateAll_ok {ar : Arith α} {i r : Nat} : ∀ (k s : Nat) (A A' : Mat α), i < s →
    (List.range' s k).foldlM (eliminate ar i r) A = .ok A' →
    Agree A A' (fun a b => s ≤ a ∧ r ≤ b) ∧ ∀ a, s ≤ a → a < s + k → A'.elem a r = ar.zero := by
  intro k
  induction k with
  | zero =>
    intro s A A' hs e
    cases e
    exact ⟨Agree.refl _ _, fun a h1 h2 => absurd h2 (by omega)⟩
  | succ k ih =>
    intro s A A' hs e
    rw [List.range'_succ, List.foldlM_cons] at e
    obtain ⟨A1, e1, e2⟩ := Out.bind_eq_ok.1 e
    obtain ⟨h1, h1'⟩ := eliminate_ok e1
    obtain ⟨h2, h2'⟩ := ih (s + 1) A1 A' (by omega) e2
    refine ⟨(h1.mono fun a b d => ⟨d.1 ▸ le_refl _, d.2⟩).trans (h2.mono fun a b d => ⟨by omega, d.2⟩), ?_⟩
    intro a ha ha'
    by_cases e : a = s
    · subst e
      rw [h2.elem a r (by omega), h1']
    · exact h2' a (by omega) (by omega)

variable [DecidableEq α]

theorem scanCol_ok {ar : Arith α} {A : Mat α} {r : Nat} : ∀ (k j : Nat) (o : Option Nat),
    scanCol ar A r k j = .ok o →
      (o = none → ∀ t, j ≤ t → t < j + k → A.elem t r = ar.zero) ∧
      (∀ t, o = some t → j ≤ t ∧ t < j + k ∧ A.elem t r ≠ ar.zero) := by
  intro k
  induction k with
  | zero =>
    intro j o h
    cases h
    exact ⟨fun _ t h1 h2 => by omega, fun t h => by cases h⟩
  | succ k ih =>
    intro j o h
    unfold scanCol at h
    obtain ⟨x, e, h⟩ := Out.bind_eq_ok.1 h
    have hx : A.elem j r = x := by
      unfold Mat.get at e
      split at e
      · cases e; rfl
      · cases e
    by_cases hz : x = ar.zero
    · rw [if_neg (by simpa using hz)] at h
      obtain ⟨h1, h2⟩ := ih _ _ h
      refine ⟨fun ho t ht htn => ?_, fun t ht => ?_⟩
      · by_cases e' : t = j
        · rw [e', hx, hz]
        · exact h1 ho t (by omega) (by omega)
      · have := h2 t ht
        exact ⟨by omega, by omega, this.2.2⟩
    · rw [if_pos hz] at h
      cases h
      refine ⟨?_, ?_⟩
      · intro h; cases h
      · intro t ht
        cases ht
        exact ⟨le_refl _, by omega, by rw [hx]; exact hz⟩

theorem seek_ok {ar : Arith α} {A : Mat α} {i : Nat} :
    ∀ (d r : Nat) (nz : Option (Option Nat)) (r' : Nat) (o : Option (Option Nat)), r + d = A.col →
      i ≤ A.row → seek ar A i r nz = .ok (r', o) →
      (∀ t, i ≤ t → t < A.row → ∀ c, c < r → A.elem t c = ar.zero) →
        (r ≤ r' ∧ r' < A.col ∧ (∃ t, o = some (some t) ∧ i ≤ t ∧ t < A.row ∧ A.elem t r' ≠ ar.zero) ∧
          (∀ t, i ≤ t → t < A.row → ∀ c, c < r' → A.elem t c = ar.zero)) ∨
         ((0 < d → o = some none) ∧ (d = 0 → o = nz) ∧
          (∀ t, i ≤ t → t < A.row → ∀ c, c < A.col → A.elem t c = ar.zero)) := by
  intro d
  induction d with
  | zero =>
    intro r nz r' o h hi e hz
    unfold seek at e
    rw [if_neg (by omega)] at e
    cases e
    exact .inr ⟨fun h => absurd h (by omega), fun _ => rfl, fun t h1 h2 c hc => hz t h1 h2 c (by omega)⟩
  | succ d ih =>
    intro r nz r' o h hi e hz
    unfold seek at e
    rw [if_pos (by omega)] at e
    obtain ⟨q, e1, e2⟩ := Out.bind_eq_ok.1 e
    obtain ⟨h1, h2⟩ := scanCol_ok _ _ _ e1
    cases q with
    | none =>
      dsimp only at e2
      have h' := ih (r + 1) (some none) r' o (by omega) hi e2 (by
        intro t ht htn c hc
        by_cases hcr : c = r
        · rw [hcr]; exact h1 rfl t ht (by omega)
        · exact hz t ht htn c (by omega))
      rcases h' with ⟨ha, hb, hc, hd⟩ | ⟨ha, hb, hc⟩
      · exact .inl ⟨by omega, hb, hc, hd⟩
      · refine .inr ⟨fun _ => ?_, fun h => absurd h (by omega), hc⟩
        by_cases hd : d = 0
        · exact hb hd
        · exact ha (by omega)
    | some t =>
      cases e2
      have := h2 t rfl
      exact .inl ⟨le_refl _, by omega, ⟨t, rfl, this.1, by omega, this.2.2⟩, hz⟩

/-- Rows `0..i-1` are finished, with leading columns `p`. -/
structure Shape (z o : α) (n m i r : Nat) (f : Nat → Nat → α) (p : Nat → Nat) : Prop where
  done : ∀ t, t < i → p t < m ∧ f t (p t) = o ∧ ∀ j, j < p t → f t j = z
  mono : ∀ t t', t < t' → t' < i → p t < p t'
  below : ∀ t, t < i → ∀ a, i ≤ a → a < n → f a (p t) = z
  le : ∀ t, t < i → p t ≤ r
  zero : ∀ a, i ≤ a → a < n → ∀ c, c < r → f a c = z

theorem reduceLoop_ok {ar : Arith α} {n m : Nat} : ∀ (k : Nat) (A R : Mat α) (i r : Nat) (p : Nat → Nat),
    A.row = n → A.col = m → i + k = n → r ≤ m → Shape ar.zero ar.one n m i r A.elem p →
    reduceLoop ar k A i r = .ok R →
    R.alive = A.alive ∧ R.row = n ∧ R.col = m ∧ EchelonOf ar.zero ar.one n m R.elem := by
  intro k
  induction k with
  | zero =>
    intro A R i r p hn hm hk hr hI e
    cases e
    exact ⟨rfl, hn, hm, n, p, le_refl _, fun t ht => hI.done t (by omega),
      fun t t' h h' => hI.mono t t' h (by omega), fun t h h' => absurd h (by omega)⟩
  | succ k ih =>
    intro A R i r p hn hm hk hr hI e
    unfold reduceLoop at e
    have hi : i < n := by omega
    obtain ⟨⟨r', o⟩, e1, e2⟩ := Out.bind_eq_ok.1 e
    have h := seek_ok (m - r) r none r' o (by omega) (by omega) e1 (by rw [hn]; exact hI.zero)
    rw [hn, hm] at h
    dsimp only at e2
    rcases h with ⟨hrr, hrm, ⟨t, rfl, hit, htn, hnz⟩, hz⟩ | ⟨ho, ho', hz⟩
    · dsimp only at e2
      generalize hS : swapRows A t i = S at e2
      have hSe : ∀ a b, S.elem a b = if a = t then A.elem i b else if a = i then A.elem t b else A.elem a b := by
        intro a b; rw [← hS]; simp only [swapRows]; split
        · rfl
        · split <;> rfl
      have hSa : S.alive = A.alive ∧ S.row = n ∧ S.col = m := by rw [← hS]; exact ⟨rfl, hn, hm⟩
      obtain ⟨A1, e3, e4⟩ := Out.bind_eq_ok.1 e2
      obtain ⟨A2, e5, e6⟩ := Out.bind_eq_ok.1 e4
      obtain ⟨h1, h1'⟩ := normalise_ok e3
      obtain ⟨h2, h2'⟩ := eliminateAll_ok _ _ _ _ (by omega) e5
      have hrow1 : A1.row = n := h1.row.trans hSa.2.1
      rw [hrow1] at h2'
      -- rows above and zeros to the left are kept
      have keepLt : ∀ a, a < i → ∀ b, A2.elem a b = A.elem a b := by
        intro a ha b
        rw [h2.elem a b (by omega), h1.elem a b (by omega), hSe, if_neg (by omega), if_neg (by omega)]
      have keepZero : ∀ c, c < r' → (∀ a, i ≤ a → a < n → A.elem a c = ar.zero) →
          ∀ a, i ≤ a → a < n → A2.elem a c = ar.zero := by
        intro c hc hcol a ha han
        rw [h2.elem a c (by omega), h1.elem a c (by omega), hSe]
        split
        · exact hcol i (le_refl _) hi
        · split
          · exact hcol t hit htn
          · exact hcol a ha han
      have hp : ∀ s, s < i → p s < r' := by
        intro t' ht'
        have h1 := hI.le t' ht'
        by_contra h2
        have h3 : p t' = r' := by omega
        apply hnz
        rw [← h3]
        exact hI.below t' ht' t hit htn
      have hlead : A2.elem i r' = ar.one := by rw [h2.elem i r' (by omega), h1']
      obtain ⟨ra, rb, rc, rd⟩ := ih A2 R (i + 1) r' (Function.update p i r') (h2.row.trans hrow1)
        (h2.col.trans (h1.col.trans hSa.2.2)) (by omega) hrm.le ⟨by
          intro s hs
          by_cases h : s = i
          · subst h
            rw [Function.update_self]
            exact ⟨hrm, hlead, fun j hj => keepZero j hj (fun a ha han => hz a ha han j hj) s (le_refl _) hi⟩
          · rw [Function.update_of_ne h]
            have := hI.done s (by omega)
            refine ⟨this.1, ?_, fun j hj => ?_⟩
            · rw [keepLt s (by omega)]; exact this.2.1
            · rw [keepLt s (by omega)]; exact this.2.2 j hj, by
          intro s s' h h'
          rw [Function.update_of_ne (show s ≠ i by omega)]
          by_cases h2 : s' = i
          · rw [h2, Function.update_self]; exact hp s (by omega)
          · rw [Function.update_of_ne h2]; exact hI.mono s s' h (by omega), by
          intro s hs a ha han
          by_cases h : s = i
          · rw [h, Function.update_self]; exact h2' a ha (by omega)
          · rw [Function.update_of_ne h]
            exact keepZero (p s) (hp s (by omega)) (fun a ha han => hI.below s (by omega) a ha han) a (by omega) han, by
          intro s hs
          by_cases h : s = i
          · rw [h, Function.update_self]
          · rw [Function.update_of_ne h]; exact (hp s (by omega)).le, by
          intro a ha han c hc
          exact keepZero c hc (fun a ha han => hz a ha han c hc) a (by omega) han⟩ e6
      exact ⟨ra.trans (h2.alive.trans (h1.alive.trans hSa.1)), rb, rc, rd⟩
    · by_cases hd : 0 < m - r
      · rw [ho hd] at e2
        cases e2
        exact ⟨rfl, hn, hm, i, p, by omega, hI.done, hI.mono, hz⟩
      · rw [ho' (by omega)] at e2
        cases e2

end shape

/-! ### `reduce` returns -/

section total
variable {α : Type}

/-- no operation fails, except perhaps division by zero -/
structure Total (ar : Arith α) : Prop where
  sub : ∀ x y, ∃ z, ar.sub x y = .ok z
  mul : ∀ x y, ∃ z, ar.mul x y = .ok z
  div : ∀ x y, y ≠ ar.zero → ∃ z, ar.div x y = .ok z

theorem get_some {A : Mat α} {n m i j : Nat} (ha : A.alive = true) (hr : A.row = n) (hc : A.col = m) (hi : i < n)
    (hj : j < m) : A.get i j = .ok (A.elem i j) := by
  unfold Mat.get; rw [if_pos ⟨ha, by omega, by omega⟩]

theorem set_some {A : Mat α} {n m i j : Nat} (ha : A.alive = true) (hr : A.row = n) (hc : A.col = m) (hi : i < n)
    (hj : j < m) (v : α) : ∃ A', A.set i j v = .ok A' := by
  unfold Mat.set; rw [if_pos ⟨ha, by omega, by omega⟩]; exact ⟨_, rfl⟩

theorem foldlM_some {σ τ : Type} {f : σ → τ → Out σ} (P : σ → Prop) : ∀ (l : List τ) (s : σ),
    (∀ s x, x ∈ l → P s → ∃ s', f s x = .ok s' ∧ P s') → P s → ∃ s', l.foldlM f s = .ok s' ∧ P s' := by
  intro l
  induction l with
  | nil => intro s _ h; exact ⟨s, rfl, h⟩
  | cons x l ih =>
    intro s hs h
    obtain ⟨s1, e1, h1⟩ := hs s x List.mem_cons_self h
    obtain ⟨s2, e2, h2⟩ := ih s1 (fun s y hy => hs s y (List.mem_cons_of_mem _ hy)) h1
    exact ⟨s2, by rw [List.foldlM_cons, e1, Out.ok_bind]; exact e2, h2⟩

theorem normalise_some {ar : Arith α} (ht : Total ar) {A : Mat α} {n m i r : Nat} (ha : A.alive = true)
    (hr : A.row = n) (hc : A.col = m) (hi : i < n) (hj : r < m) (hp : A.elem i r ≠ ar.zero) :
    ∃ A', normalise ar A i r = .ok A' := by
  unfold normalise
  obtain ⟨A1, e1, h1, h2⟩ := foldlM_some (fun B => Agree A B (fun a b => a = i ∧ r < b) ∧ B.elem i r = A.elem i r)
    (downTo A.col r) A (f := fun A j => do
      let x ← A.get i j
      let y ← A.get i r
      A.set i j (← ar.div x y)) (by
      intro B x hx ⟨h1, h2⟩
      have hx' := mem_downTo.1 hx
      have ba := h1.alive.trans ha
      have br := h1.row.trans hr
      have bc := h1.col.trans hc
      rw [get_some ba br bc hi (by omega), Out.ok_bind, get_some ba br bc hi hj, Out.ok_bind]
      obtain ⟨z, ez⟩ := ht.div (B.elem i x) (B.elem i r) (by rw [h2]; exact hp)
      rw [ez, Out.ok_bind]
      obtain ⟨B', eB⟩ := set_some ba br bc hi (show x < m by omega) z
      refine ⟨B', eB, h1.trans ((set_ok eB).1.mono fun a b d => ⟨d.1, by omega⟩), ?_⟩
      rw [(set_ok eB).1.elem i r (by omega), h2])
    ⟨Agree.refl _ _, rfl⟩
  rw [e1, Out.ok_bind]
  exact set_some (h1.alive.trans ha) (h1.row.trans hr) (h1.col.trans hc) hi hj _

theorem eliminate_some {ar : Arith α} (ht : Total ar) {A : Mat α} {n m i r j : Nat} (ha : A.alive = true)
    (hr : A.row = n) (hc : A.col = m) (hi : i < n) (hj : r < m) (hjn : j < n) :
    ∃ A', eliminate ar i r A j = .ok A' := by
  unfold eliminate
  obtain ⟨A1, e1, h1⟩ := foldlM_some (fun B => Agree A B (fun _ _ => True))
    (downTo A.col r) A (f := fun A k => do
      let x ← A.get i k
      let y ← A.get j r
      let p ← ar.mul x y
      let z ← A.get j k
      A.set j k (← ar.sub z p)) (by
      intro B x hx h1
      have hx' := mem_downTo.1 hx
      have ba := h1.alive.trans ha
      have br := h1.row.trans hr
      have bc := h1.col.trans hc
      rw [get_some ba br bc hi (by omega), Out.ok_bind, get_some ba br bc hjn hj, Out.ok_bind]
      obtain ⟨p, ep⟩ := ht.mul (B.elem i x) (B.elem j r)
      rw [ep, Out.ok_bind, get_some ba br bc hjn (by omega), Out.ok_bind]
      obtain ⟨z, ez⟩ := ht.sub (B.elem j x) p
      rw [ez, Out.ok_bind]
      obtain ⟨B', eB⟩ := set_some ba br bc hjn (show x < m by omega) z
      exact ⟨B', eB, h1.trans ((set_ok eB).1.mono fun _ _ _ => trivial)⟩)
    (Agree.refl _ _)
  rw [e1, Out.ok_bind]
  exact set_some (h1.alive.trans ha) (h1.row.trans hr) (h1.col.trans hc) hjn hj _

variable [DecidableEq α]

theorem scanCol_some {ar : Arith α} {A : Mat α} {n m r : Nat} (ha : A.alive = true)
    (hr : A.row = n) (hc : A.col = m) (hj : r < m) : ∀ (k j : Nat), j + k ≤ n → ∃ o, scanCol ar A r k j = .ok o := by
  intro k
  induction k with
  | zero => intro j _; exact ⟨none, rfl⟩
  | succ k ih =>
    intro j h
    unfold scanCol
    rw [get_some ha hr hc (by omega) hj, Out.ok_bind]
    split
    · exact ⟨_, rfl⟩
    · exact ih _ (by omega)

theorem seek_some {ar : Arith α} {A : Mat α} {n m i : Nat} (ha : A.alive = true)
    (hr : A.row = n) (hc : A.col = m) (hi : i ≤ n) : ∀ (d r : Nat) (nz : Option (Option Nat)), r + d = m →
    ∃ o, seek ar A i r nz = .ok o := by
  intro d
  induction d with
  | zero => intro r nz h; unfold seek; rw [if_neg (by omega)]; exact ⟨_, rfl⟩
  | succ d ih =>
    intro r nz h
    unfold seek
    rw [if_pos (by omega), hr]
    obtain ⟨o, e⟩ := scanCol_some (ar := ar) ha hr hc (show r < m by omega) (n - i) i (by omega)
    rw [e, Out.ok_bind]
    cases o with
    | none => exact ih _ _ (by omega)
    | some t => exact ⟨_, rfl⟩

theorem reduceLoop_some {ar : Arith α} (ht : Total ar) {n m : Nat} : ∀ (k : Nat) (A : Mat α) (i r : Nat),
    A.alive = true → A.row = n → A.col = m → i + k = n → r < m →
    (∀ a, i ≤ a → a < n → ∀ c, c < r → A.elem a c = ar.zero) → ∃ R, reduceLoop ar k A i r = .ok R := by
  intro k
  induction k with
  | zero => intro A i r _ _ _ _ _ _; exact ⟨A, rfl⟩
  | succ k ih =>
    intro A i r ha hn hm hk hr hzero
    unfold reduceLoop
    obtain ⟨⟨r', o⟩, e⟩ := seek_some (ar := ar) ha hn hm (show i ≤ n by omega) (m - r) r none (by omega)
    have h := seek_ok (m - r) r none r' o (by omega) (by omega) e (by rw [hn]; exact hzero)
    rw [e, Out.ok_bind]
    rw [hn, hm] at h
    rcases h with ⟨hrr, hrm, ⟨t, rfl, hit, htn, hnz⟩, hz⟩ | ⟨ho, _, hz⟩
    · dsimp only
      have hlead : (swapRows A t i).elem i r' ≠ ar.zero := by
        unfold swapRows
        dsimp only
        by_cases h : i = t
        · rw [if_pos h]; rw [h]; exact hnz
        · rw [if_neg h, if_pos rfl]; exact hnz
      obtain ⟨A1, e1⟩ := normalise_some (A := swapRows A t i) ht ha hn hm (show i < n by omega) hrm hlead
      obtain ⟨h1, _⟩ := normalise_ok e1
      have a1 : A1.alive = true := h1.alive.trans ha
      have n1 : A1.row = n := h1.row.trans hn
      have m1 : A1.col = m := h1.col.trans hm
      rw [e1, Out.ok_bind, n1]
      obtain ⟨A2, e2, _⟩ := foldlM_some (fun B => Agree A1 B (fun _ _ => True)) (List.range' (i + 1) (n - (i + 1))) A1
        (f := eliminate ar i r') (by
          intro B x hx hB
          have hx' := List.mem_range'_1.1 hx
          obtain ⟨B', eB⟩ := eliminate_some (A := B) (j := x) ht (hB.alive.trans a1) (hB.row.trans n1)
            (hB.col.trans m1) (show i < n by omega) hrm (by omega)
          exact ⟨B', eB, hB.trans ((eliminate_ok eB).1.mono fun _ _ _ => trivial)⟩) (Agree.refl _ _)
      obtain ⟨h2, _⟩ := eliminateAll_ok _ _ _ _ (by omega) e2
      rw [e2, Out.ok_bind]
      refine ih A2 (i + 1) r' (h2.alive.trans a1) (h2.row.trans n1) (h2.col.trans m1) (by omega) hrm ?_
      intro a hai han c hc
      rw [h2.elem a c (by omega), h1.elem a c (by omega)]
      simp only [swapRows]
      split
      · exact hz i (le_refl _) (by omega) c hc
      · split
        · exact hz t hit htn c hc
        · exact hz a (by omega) han c hc
    · rw [ho (by omega)]
      exact ⟨A, rfl⟩

end total

/-! ### conversion of the entries -/

section convert
variable {α β : Type}

/-- `φ` carries the results of the arithmetic `a` to those of `b` -/
structure Hom (φ : α → β) (a : Arith α) (b : Arith β) : Prop where
  zero : φ a.zero = b.zero
  one : φ a.one = b.one
  iff : ∀ x, φ x = b.zero ↔ x = a.zero
  add : ∀ x y z, a.add x y = .ok z → b.add (φ x) (φ y) = .ok (φ z)
  sub : ∀ x y z, a.sub x y = .ok z → b.sub (φ x) (φ y) = .ok (φ z)
  mul : ∀ x y z, a.mul x y = .ok z → b.mul (φ x) (φ y) = .ok (φ z)
  div : ∀ x y z, a.div x y = .ok z → b.div (φ x) (φ y) = .ok (φ z)

theorem get_convert {φ : α → β} {A : Mat α} {i j : Nat} {x : α} (h : A.get i j = .ok x) :
    (convert φ A).get i j = .ok (φ x) := by
  unfold Mat.get at h ⊢
  split at h
  · rename_i c; cases h; exact if_pos c
  · cases h

theorem set_convert {φ : α → β} {A A' : Mat α} {i j : Nat} {v : α} (h : A.set i j v = .ok A') :
    (convert φ A).set i j (φ v) = .ok (convert φ A') := by
  unfold Mat.set at h ⊢
  split at h
  · rename_i c
    cases h
    refine (if_pos c).trans ?_
    congr 2
    funext a b
    dsimp only
    split <;> rfl
  · cases h

theorem foldlM_convert {σ σ' τ : Type} {f : σ → τ → Out σ} {g : σ' → τ → Out σ'} {φ : σ → σ'}
    (h : ∀ s x s', f s x = .ok s' → g (φ s) x = .ok (φ s')) : ∀ (l : List τ) (s s' : σ),
    l.foldlM f s = .ok s' → l.foldlM g (φ s) = .ok (φ s') := by
  intro l
  induction l with
  | nil => intro s s' e; cases e; rfl
  | cons x l ih =>
    intro s s' e
    rw [List.foldlM_cons] at e ⊢
    obtain ⟨s1, e1, e2⟩ := Out.bind_eq_ok.1 e
    rw [h _ _ _ e1, Out.ok_bind]
    exact ih _ _ e2

theorem normalise_convert {φ : α → β} {a : Arith α} {b : Arith β} (hφ : Hom φ a b) {A A' : Mat α} {i r : Nat}
    (h : normalise a A i r = .ok A') : normalise b (convert φ A) i r = .ok (convert φ A') := by
  unfold normalise at h ⊢
  obtain ⟨A1, e1, e2⟩ := Out.bind_eq_ok.1 h
  have := foldlM_convert (φ := convert φ) (g := fun A j => do
    let x ← A.get i j
    let y ← A.get i r
    A.set i j (← b.div x y)) ?_ _ _ _ e1
  · rw [show (convert φ A).col = A.col from rfl, this, Out.ok_bind, ← hφ.one]
    exact set_convert e2
  · intro s x s' e
    obtain ⟨v, e3, e⟩ := Out.bind_eq_ok.1 e
    obtain ⟨w, e4, e⟩ := Out.bind_eq_ok.1 e
    obtain ⟨z, e5, e⟩ := Out.bind_eq_ok.1 e
    rw [get_convert e3, Out.ok_bind, get_convert e4, Out.ok_bind, hφ.div _ _ _ e5, Out.ok_bind]
    exact set_convert e

theorem eliminate_convert {φ : α → β} {a : Arith α} {b : Arith β} (hφ : Hom φ a b) {A A' : Mat α} {i r j : Nat}
    (h : eliminate a i r A j = .ok A') : eliminate b i r (convert φ A) j = .ok (convert φ A') := by
  unfold eliminate at h ⊢
  obtain ⟨A1, e1, e2⟩ := Out.bind_eq_ok.1 h
  have := foldlM_convert (φ := convert φ) (g := fun A k => do
    let x ← A.get i k
    let y ← A.get j r
    let p ← b.mul x y
    let z ← A.get j k
    A.set j k (← b.sub z p)) ?_ _ _ _ e1
  · rw [show (convert φ A).col = A.col from rfl, this, Out.ok_bind, ← hφ.zero]
    exact set_convert e2
  · intro s x s' e
    obtain ⟨v, e3, e⟩ := Out.bind_eq_ok.1 e
    obtain ⟨w, e4, e⟩ := Out.bind_eq_ok.1 e
    obtain ⟨p, e5, e⟩ := Out.bind_eq_ok.1 e
    obtain ⟨y, e6, e⟩ := Out.bind_eq_ok.1 e
    obtain ⟨z, e7, e⟩ := Out.bind_eq_ok.1 e
    rw [get_convert e3, Out.ok_bind, get_convert e4, Out.ok_bind, hφ.mul _ _ _ e5, Out.ok_bind,
      get_convert e6, Out.ok_bind, hφ.sub _ _ _ e7, Out.ok_bind]
    exact set_convert e

variable [DecidableEq α] [DecidableEq β]

theorem scanCol_convert {φ : α → β} {a : Arith α} {b : Arith β} (hφ : Hom φ a b) {A : Mat α} {r : Nat} :
    ∀ (k j : Nat) (o : Option Nat), scanCol a A r k j = .ok o → scanCol b (convert φ A) r k j = .ok o := by
  intro k
  induction k with
  | zero => intro j o h; cases h; rfl
  | succ k ih =>
    intro j o h
    unfold scanCol at h ⊢
    obtain ⟨x, e, h⟩ := Out.bind_eq_ok.1 h
    rw [get_convert e, Out.ok_bind]
    by_cases hz : x = a.zero
    · rw [if_neg (by simpa using hz)] at h
      rw [if_neg (by simpa using (hφ.iff x).2 hz)]
      exact ih _ _ h
    · rw [if_pos hz] at h
      rw [if_pos fun c => hz ((hφ.iff x).1 c)]
      exact h

theorem seek_convert {φ : α → β} {a : Arith α} {b : Arith β} (hφ : Hom φ a b) {A : Mat α} {i : Nat} :
    ∀ (d r : Nat) (nz : Option (Option Nat)) (o : Nat × Option (Option Nat)), A.col ≤ r + d →
      seek a A i r nz = .ok o → seek b (convert φ A) i r nz = .ok o := by
  intro d
  induction d with
  | zero =>
    intro r nz o h e
    unfold seek at e ⊢
    rw [if_neg (by omega)] at e
    rw [if_neg (show ¬ r < (convert φ A).col from by show ¬ r < A.col; omega)]
    exact e
  | succ d ih =>
    intro r nz o h e
    unfold seek at e ⊢
    by_cases hr : r < A.col
    · rw [if_pos hr] at e
      rw [if_pos (show r < (convert φ A).col from hr)]
      obtain ⟨q, e1, e2⟩ := Out.bind_eq_ok.1 e
      rw [show (convert φ A).row = A.row from rfl, scanCol_convert hφ _ _ _ e1, Out.ok_bind]
      cases q with
      | none => exact ih _ _ _ (by omega) e2
      | some t => exact e2
    · rw [if_neg hr] at e
      rw [if_neg (show ¬ r < (convert φ A).col from hr)]
      exact e

theorem reduceLoop_convert {φ : α → β} {a : Arith α} {b : Arith β} (hφ : Hom φ a b) :
    ∀ (k : Nat) (A R : Mat α) (i r : Nat), reduceLoop a k A i r = .ok R →
      reduceLoop b k (convert φ A) i r = .ok (convert φ R) := by
  intro k
  induction k with
  | zero => intro A R i r h; cases h; rfl
  | succ k ih =>
    intro A R i r h
    unfold reduceLoop at h ⊢
    obtain ⟨⟨r', o⟩, e1, h⟩ := Out.bind_eq_ok.1 h
    rw [seek_convert hφ A.col r none _ (by omega) e1, Out.ok_bind]
    match o, h with
    | none, h => cases h
    | some none, h => cases h; rfl
    | some (some t), h =>
      dsimp only at h ⊢
      obtain ⟨A1, e2, h⟩ := Out.bind_eq_ok.1 h
      obtain ⟨A2, e3, h⟩ := Out.bind_eq_ok.1 h
      have hs : swapRows (convert φ A) t i = convert φ (swapRows A t i) := by
        unfold swapRows convert
        congr 1
        funext x y
        dsimp only
        split
        · rfl
        · split <;> rfl
      rw [hs, normalise_convert hφ e2, Out.ok_bind, show (convert φ A1).row = A1.row from rfl,
        foldlM_convert (φ := convert φ) (g := eliminate b i r') (fun _ _ _ e => eliminate_convert hφ e) _ _ _ e3,
        Out.ok_bind]
      exact ih _ _ _ _ h

end convert

theorem ifDouble_ok {q z : ℚ} (h : ifDouble q = .ok z) : z = q ∧ Dbl.round q = .fin q := by
  unfold ifDouble at h
  split at h
  · rename_i c; cases h; exact ⟨rfl, c⟩
  · cases h

theorem hom_exact : Hom id representable (Arith.exact ℚ) where
  zero := rfl
  one := rfl
  iff _ := Iff.rfl
  add x y z h := by rw [(ifDouble_ok h).1]; rfl
  sub x y z h := by rw [(ifDouble_ok h).1]; rfl
  mul x y z h := by rw [(ifDouble_ok h).1]; rfl
  div x y z h := by
    simp only [representable] at h
    simp only [Arith.exact, id]
    split at h
    · cases h
    · rename_i c; rw [(ifDouble_ok h).1, if_neg c]

theorem hom_dbl : Hom Dbl.fin representable Arith.dbl where
  zero := rfl
  one := rfl
  iff x := by simp [Arith.dbl, representable]
  add x y z h := by
    obtain ⟨rfl, h'⟩ := ifDouble_ok h
    simp only [Arith.dbl, Stats.add_dbl, h']
  sub x y z h := by
    obtain ⟨rfl, h'⟩ := ifDouble_ok h
    simp only [Arith.dbl, Stats.sub_dbl, h']
  mul x y z h := by
    obtain ⟨rfl, h'⟩ := ifDouble_ok h
    simp only [Arith.dbl, Stats.mul_dbl, h']
  div x y z h := by
    simp only [representable] at h
    split at h
    · cases h
    · rename_i c
      obtain ⟨rfl, h'⟩ := ifDouble_ok h
      simp only [Arith.dbl, Stats.div_dbl c, h']

theorem total_dbl : Total Arith.dbl :=
  ⟨fun _ _ => ⟨_, rfl⟩, fun _ _ => ⟨_, rfl⟩, fun _ _ _ => ⟨_, rfl⟩⟩

/-! ### products of doubles -/

/-- the loop Matrix.h:75-76 for one entry -/
def dotDbl (l : Nat) (f g : Nat → Nat → Dbl) (i j : Nat) : Dbl :=
  (List.range l).foldl (fun s k => s + f i k * g k j) (.fin 0)

theorem dotDbl_succ (l : Nat) (f g : Nat → Nat → Dbl) (i j : Nat) :
    dotDbl (l + 1) f g i j = dotDbl l f g i j + f i l * g l j := by
  unfold dotDbl
  rw [List.range_succ, List.foldl_append]
  rfl

theorem product_dbl {A B : Mat Dbl} {n l m : Nat} {f g : Nat → Nat → Dbl}
    (hA : Holds A n l f) (hB : Holds B l m g) :
    ∃ R, product Arith.dbl A B = .ok R ∧ Holds R n m (dotDbl l f g) := by
  unfold product
  rw [hA.row, hB.col, hA.col]
  have key := foldlM_range_inv (fun ret i => (List.range m).foldlM (fun ret j =>
      (List.range l).foldlM (timesStep Arith.dbl A B i j) ret) ret)
    (fun i ret => Holds ret n m (fun a b => if a < i then dotDbl l f g a b else .fin 0)) n (new Arith.dbl n m)
    ⟨rfl, rfl, rfl, fun _ _ _ _ => by simp [new, Arith.dbl]⟩ ?_
  · obtain ⟨R, e, h⟩ := key
    exact ⟨R, e, h.congr fun i hi j _ => by simp [hi]⟩
  intro i hi ret hret
  have key := foldlM_range_inv (fun ret j => (List.range l).foldlM (timesStep Arith.dbl A B i j) ret)
    (fun j ret => Holds ret n m (fun a b => if a < i ∨ (a = i ∧ b < j) then dotDbl l f g a b else .fin 0)) m ret
    (hret.congr fun a _ b _ => by simp) ?_
  · obtain ⟨R, e, h⟩ := key
    refine ⟨R, e, h.congr fun a _ b hb => ?_⟩
    by_cases h1 : a < i
    · simp [h1, Nat.lt_succ_of_lt h1]
    · by_cases h2 : a = i
      · simp [h2, hb]
      · rw [if_neg (by omega), if_neg (by omega)]
  intro j hj ret hret
  have key := foldlM_range_inv (timesStep Arith.dbl A B i j)
    (fun k ret => Holds ret n m (fun a b => if a = i ∧ b = j then dotDbl k f g i j else
      if a < i ∨ (a = i ∧ b < j) then dotDbl l f g a b else .fin 0)) l ret
    (hret.congr fun a _ b _ => by
      by_cases hab : a = i ∧ b = j
      · rw [if_pos hab, if_neg (by omega)]; simp [dotDbl]
      · rw [if_neg hab]) ?_
  · obtain ⟨R, e, h⟩ := key
    refine ⟨R, e, h.congr fun a _ b _ => ?_⟩
    by_cases hab : a = i ∧ b = j
    · rw [if_pos hab, if_pos (by omega), hab.1, hab.2]
    · rw [if_neg hab]
      by_cases hc : a < i ∨ (a = i ∧ b < j)
      · rw [if_pos hc, if_pos (by omega)]
      · rw [if_neg hc, if_neg (by omega)]
  intro k hk ret hret
  unfold timesStep
  rw [hget hA hi hk, Out.ok_bind, hget hB hk hj, Out.ok_bind, hget hret hi hj, if_pos ⟨rfl, rfl⟩]
  simp only [Arith.dbl, Out.ok_bind]
  obtain ⟨A'', e', hA''⟩ := hset hret hi hj (dotDbl k f g i j + f i k * g k j)
  refine ⟨A'', e', hA''.congr fun a _ b _ => ?_⟩
  by_cases hab : a = i ∧ b = j
  · rw [if_pos hab, if_pos hab, dotDbl_succ]
  · rw [if_neg hab, if_neg hab, if_neg hab]

theorem times_dbl {A B : Mat Dbl} {n l m : Nat} {f g : Nat → Nat → Dbl}
    (hA : Holds A n l f) (hB : Holds B l m g) :
    ∃ R, times Arith.dbl A B = .ok R ∧ Holds R n m (dotDbl l f g) := by
  obtain ⟨P, e, h⟩ := product_dbl hA hB
  unfold times
  rw [if_neg (by rw [hA.col, hB.row]; simp), e, Out.ok_bind]
  exact copy_holds h

/-- the error of rounding any number -/
theorem fl_err (x : ℚ) : |fl x - x| ≤ Stats.u * |x| + 1 / 2 ^ 1075 := by
  have key : ∀ y : ℚ, 0 ≤ y → |flPos y - y| ≤ Stats.u * y + 1 / 2 ^ 1075 := by
    intro y hy
    have hu := Stats.u_pos
    by_cases h : 2 ^ (-1022 : Int) ≤ y
    · have := flPos_rel h
      rw [show (2 : ℚ) ^ (-53 : Int) = Stats.u by unfold Stats.u; rw [zpow_neg, one_div, zpow_ofNat]] at this
      have h0 : (0 : ℚ) ≤ 1 / 2 ^ 1075 := by positivity
      linarith
    · have hm : 0 ≤ Stats.u * y := mul_nonneg hu.le hy
      rcases eq_or_lt_of_le hy with e | hpos
      · rw [← e, flPos_zero]
        simp
      have hb : lastBit y = -1074 := by
        rcases eq_or_lt_of_le (lastBit_ge y) with he | he
        · exact he.symm
        · exfalso
          apply h
          refine le_trans ?_ (lastBit_le hpos he)
          exact zpow_le_zpow_right₀ (by norm_num) (by omega)
      have hc := roundTiesEven_close (y / 2 ^ lastBit y)
      rw [hb] at hc
      unfold flPos
      rw [hb]
      have hp : (0 : ℚ) < 2 ^ (-1074 : Int) := by positivity
      have e : (roundTiesEven (y / 2 ^ (-1074 : Int)) : ℚ) * 2 ^ (-1074 : Int) - y
          = -(y / 2 ^ (-1074 : Int) - roundTiesEven (y / 2 ^ (-1074 : Int))) * 2 ^ (-1074 : Int) := by
        field_simp; ring
      rw [e, abs_mul, abs_neg, abs_of_pos hp]
      have h1 := mul_le_mul_of_nonneg_right hc hp.le
      have e2 : (1 / 2 : ℚ) * 2 ^ (-1074 : Int) = 1 / 2 ^ 1075 := by
        rw [zpow_neg, show (1074 : Int) = ((1074 : Nat) : Int) from rfl, zpow_natCast, pow_succ (2 : ℚ) 1074]
        field_simp
      linarith
  unfold fl
  split
  · rename_i h
    have := key (-x) (by linarith)
    rw [abs_of_neg h]
    rw [show -flPos (-x) - x = -(flPos (-x) - -x) by ring, abs_neg]
    exact this
  · rename_i h
    rw [abs_of_nonneg (not_lt.1 h)]
    exact key x (not_lt.1 h)

theorem sum_map_range (l : Nat) (f : Nat → ℚ) : ((List.range l).map f).sum = ∑ k ∈ Finset.range l, f k := by
  induction l with
  | zero => simp
  | succ l ih => rw [List.range_succ, Finset.sum_range_succ]; simp [ih]

theorem dotDbl_eq {l : Nat} {a b : Nat → Nat → ℚ} {i j : Nat}
    (hp : ∀ k, k < l → |a i k * b k j| ≤ 2 ^ 1000) :
    dotDbl l (fun i k => Dbl.fin (a i k)) (fun k j => Dbl.fin (b k j)) i j =
      (((List.range l).map fun k => fl (a i k * b k j)).map Dbl.fin).foldl (fun x y => x + y) (.fin 0) := by
  induction l with
  | zero => rfl
  | succ l ih =>
    rw [dotDbl_succ, ih fun k hk => hp k (by omega), List.range_succ, List.map_append, List.map_append,
      List.foldl_append]
    simp only [List.map_cons, List.map_nil, List.foldl_cons, List.foldl_nil]
    rw [Stats.mul_dbl, Rand.round_fin]
    refine (hp l (by omega)).trans (le_trans ?_ Stats.maxDouble_ge')
    exact le_mul_of_one_le_left (by positivity) (by norm_num)

theorem dotDbl_err {l : Nat} {a b : Nat → Nat → ℚ} {i j : Nat} (hl : l ≤ 2 ^ 31)
    (hb : ∑ k ∈ Finset.range l, |a i k * b k j| ≤ 2 ^ 999) :
    ∃ q, dotDbl l (fun i k => Dbl.fin (a i k)) (fun k j => Dbl.fin (b k j)) i j = .fin q ∧
      |q - ∑ k ∈ Finset.range l, a i k * b k j| ≤
        (l + 1) / 2 ^ 52 * ∑ k ∈ Finset.range l, |a i k * b k j| + l / 2 ^ 1074 := by
  set S := ∑ k ∈ Finset.range l, |a i k * b k j| with hS
  have hterm : ∀ k, k < l → |a i k * b k j| ≤ S := fun k hk =>
    Finset.single_le_sum (f := fun k => |a i k * b k j|) (fun _ _ => abs_nonneg _) (Finset.mem_range.2 hk)
  have hS0 : 0 ≤ S := Finset.sum_nonneg fun _ _ => abs_nonneg _
  have hpow : (2 : ℚ) ^ 1000 = 2 * 2 ^ 999 := by rw [pow_succ]; ring
  have h999 : (0 : ℚ) ≤ 2 ^ 999 := by positivity
  rw [dotDbl_eq fun k hk => (hterm k hk).trans (hb.trans (by rw [hpow]; exact le_mul_of_one_le_left h999 (by norm_num)))]
  set η : ℚ := 1 / 2 ^ 1075 with hη
  have hη0 : 0 ≤ η := by rw [hη]; positivity
  have hu0 := Stats.u_pos
  have hlq : (l : ℚ) ≤ 2 ^ 31 := by exact_mod_cast hl
  have hl0 : (0 : ℚ) ≤ l := Nat.cast_nonneg _
  -- the rounded products
  have h1 : ∀ k, |fl (a i k * b k j) - a i k * b k j| ≤ Stats.u * |a i k * b k j| + η := fun k => fl_err _
  have hsum1 : |∑ k ∈ Finset.range l, fl (a i k * b k j) - ∑ k ∈ Finset.range l, a i k * b k j| ≤
      Stats.u * S + l * η := by
    rw [← Finset.sum_sub_distrib]
    refine (Finset.abs_sum_le_sum_abs _ _).trans ((Finset.sum_le_sum fun k _ => h1 k).trans (le_of_eq ?_))
    rw [Finset.sum_add_distrib, ← Finset.mul_sum, Finset.sum_const, Finset.card_range, nsmul_eq_mul]
  have hsum2 : ∑ k ∈ Finset.range l, |fl (a i k * b k j)| ≤ S + (Stats.u * S + l * η) := by
    have : ∀ k, |fl (a i k * b k j)| ≤ |a i k * b k j| + (Stats.u * |a i k * b k j| + η) := by
      intro k
      have := abs_add_le (fl (a i k * b k j) - a i k * b k j) (a i k * b k j)
      rw [sub_add_cancel] at this
      have := h1 k
      linarith
    refine (Finset.sum_le_sum fun k _ => this k).trans (le_of_eq ?_)
    rw [Finset.sum_add_distrib, Finset.sum_add_distrib, ← Finset.mul_sum, Finset.sum_const, Finset.card_range,
      nsmul_eq_mul]
  have hη1 : η ≤ 1 / 2 ^ 31 := by
    rw [hη]
    exact one_div_le_one_div_of_le (by positivity) (pow_le_pow_right₀ (by norm_num) (by norm_num))
  have hlη : l * η ≤ 1 := by
    calc (l : ℚ) * η ≤ 2 ^ 31 * (1 / 2 ^ 31) := mul_le_mul hlq hη1 hη0 (by positivity)
      _ = 1 := by norm_num
  have huS : Stats.u * S ≤ 1 / 4 * S := mul_le_mul_of_nonneg_right Stats.u_le hS0
  have h2999 : (4 : ℚ) ≤ 2 ^ 999 := le_trans (by norm_num) (pow_le_pow_right₀ (a := (2 : ℚ)) (by norm_num) (show 2 ≤ 999 by norm_num))
  obtain ⟨q, hq, _, herr⟩ := Stats.sum_err ((List.range l).map fun k => fl (a i k * b k j))
    (by intro x hx; obtain ⟨k, _, rfl⟩ := List.mem_map.1 hx; exact fl_idem _)
    (by simpa using hl)
    (by
      rw [List.map_map, sum_map_range]
      refine hsum2.trans ?_
      rw [hpow]
      clear hpow hterm hS
      generalize (2 : ℚ) ^ 999 = B at *
      linarith)
  refine ⟨q, hq, ?_⟩
  rw [List.map_map, List.length_map, List.length_range, sum_map_range, sum_map_range] at herr
  have herr2 : |q - ∑ k ∈ Finset.range l, fl (a i k * b k j)| ≤ l * (2 * Stats.u) * (S + (Stats.u * S + l * η)) :=
    herr.trans (mul_le_mul_of_nonneg_left hsum2 (mul_nonneg hl0 (mul_nonneg (by norm_num) hu0.le)))
  have htri := abs_add_le (q - ∑ k ∈ Finset.range l, fl (a i k * b k j))
    (∑ k ∈ Finset.range l, fl (a i k * b k j) - ∑ k ∈ Finset.range l, a i k * b k j)
  rw [sub_add_sub_cancel] at htri
  have hlu : (l : ℚ) * (2 * Stats.u) ≤ 1 / 2 := by
    calc (l : ℚ) * (2 * Stats.u) ≤ 2 ^ 31 * (2 * Stats.u) := by
          apply mul_le_mul_of_nonneg_right hlq; linarith
      _ ≤ 1 / 2 := by unfold Stats.u; norm_num
  have e1 : (l : ℚ) / 2 ^ 1074 = 2 * (l * η) := by
    rw [hη, pow_succ (2 : ℚ) 1074]; field_simp
  have e2 : ((l : ℚ) + 1) / 2 ^ 52 * S = (l + 1) * (2 * Stats.u) * S := by
    unfold Stats.u; ring
  rw [e1, e2]
  have hA : l * (2 * Stats.u) * (Stats.u * S) ≤ 1 / 2 * (Stats.u * S) :=
    mul_le_mul_of_nonneg_right hlu (mul_nonneg hu0.le hS0)
  have hB : l * (2 * Stats.u) * (l * η) ≤ 1 / 2 * (l * η) :=
    mul_le_mul_of_nonneg_right hlu (mul_nonneg hl0 hη0)
  have hlη0 : 0 ≤ (l : ℚ) * η := mul_nonneg hl0 hη0
  have huS0 : 0 ≤ Stats.u * S := mul_nonneg hu0.le hS0
  calc _ ≤ _ := htri
    _ ≤ l * (2 * Stats.u) * (S + (Stats.u * S + l * η)) + (Stats.u * S + l * η) := add_le_add herr2 hsum1
    _ = l * (2 * Stats.u) * S + l * (2 * Stats.u) * (Stats.u * S) + l * (2 * Stats.u) * (l * η) + Stats.u * S + l * η := by ring
    _ ≤ l * (2 * Stats.u) * S + 2 * (Stats.u * S) + 2 * (l * η) := by linarith
    _ = _ := by ring

theorem sum_map_range_int (l : Nat) (f : Nat → Int) : ((List.range l).map f).sum = ∑ k ∈ Finset.range l, f k := by
  induction l with
  | zero => simp
  | succ l ih => rw [List.range_succ, Finset.sum_range_succ]; simp [ih]

theorem dotDbl_int {l : Nat} {a b : Nat → Nat → Int} {i j : Nat}
    (hb : ∑ k ∈ Finset.range l, |a i k * b k j| ≤ 2 ^ 53) :
    dotDbl l (fun i k => Dbl.fin (a i k)) (fun k j => Dbl.fin (b k j)) i j =
      .fin ((∑ k ∈ Finset.range l, a i k * b k j : Int) : ℚ) := by
  have hterm : ∀ k, k < l → |a i k * b k j| ≤ 2 ^ 53 := fun k hk =>
    (Finset.single_le_sum (f := fun k => |a i k * b k j|) (fun _ _ => abs_nonneg _) (Finset.mem_range.2 hk)).trans hb
  have := dotDbl_eq (l := l) (a := fun i k => (a i k : ℚ)) (b := fun k j => (b k j : ℚ)) (i := i) (j := j) (by
    intro k hk
    have h1 : |(a i k : ℚ) * b k j| ≤ 2 ^ 53 := by exact_mod_cast hterm k hk
    exact h1.trans (pow_le_pow_right₀ (by norm_num) (by norm_num)))
  refine this.trans ?_
  have h2 : (List.range l).map (fun k => fl ((a i k : ℚ) * b k j)) =
      ((List.range l).map fun k => a i k * b k j).map fun x : Int => (x : ℚ) := by
    rw [List.map_map]
    refine List.map_congr_left fun k hk => ?_
    have := Stats.fl_intZ (hterm k (List.mem_range.1 hk))
    simpa using this
  rw [h2, List.map_map]
  have := Stats.sum_exact ((List.range l).map fun k => a i k * b k j) (by
    rw [List.map_map, sum_map_range_int]; exact hb)
  rw [sum_map_range_int] at this
  exact this

end Matrix

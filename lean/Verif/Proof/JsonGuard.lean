import Verif.Spec.JsonGuard
import Verif.Proof.JsonTotal
import Verif.Proof.JsonExp

/-! # Helper lemmas for JSON: a text followed by a space and two quotes -/

namespace Json
open Cpp Spec

theorem nub_bind {α β : Type} {x : Out α} {f : α → Out β} (h : x ≠ .ub) (hf : ∀ a, x = .ok a → f a ≠ .ub) :
    (x >>= f) ≠ .ub := by
  cases x with
  | ok a => simpa using hf a rfl
  | exit => simp
  | ub => exact absurd rfl h
  | diverge => simp

theorem strAt_lt {t : Str} {i : Nat} (g : Str) (h : i < t.length) : strAt (t ++ g) i = strAt t i := by
  rw [strAt_ok h, strAt_ok (by rw [List.length_append]; omega)]
  simp [List.getD, List.getElem?_append_left h]

theorem strAt_mem {t : Str} {i : Nat} (h : i < t.length) {c : Byte} (e : strAt t i = .ok c) : c ∈ t := by
  rw [strAt_ok h] at e
  injection e with e
  rw [← e]
  simp only [List.getD, List.getElem?_eq_getElem h, Option.getD_some]
  exact List.getElem_mem h

theorem guard_at (t : Str) : strAt (t ++ guard) t.length = .ok 32 ∧ strAt (t ++ guard) (t.length + 1 : Nat) = .ok 34 ∧
    strAt (t ++ guard) (t.length + 2 : Nat) = .ok 34 ∧ strAt (t ++ guard) (t.length + 3 : Nat) = .ok 0 := by
  have h : At (t ++ guard) t.length guard := ⟨by simp, by simp⟩
  have h1 := At.cons (c := 32) (t := [34, 34]) h
  have h2 := At.cons h1.2
  have h3 := At.cons h2.2
  exact ⟨h1.1, h2.1, h3.1, h3.2.nil⟩

/-- the characters of a guarded text -/
theorem guard_cases {t : Str} {i : Nat} {c : Byte} (h : strAt (t ++ guard) i = .ok c) :
    (i < t.length ∧ strAt t i = .ok c ∧ c ∈ t) ∨ (i = t.length ∧ c = 32) ∨ (i = t.length + 1 ∧ c = 34) ∨
      (i = t.length + 2 ∧ c = 34) ∨ (i = t.length + 3 ∧ c = 0) := by
  have hl := strAt_le h
  have : guard.length = 3 := rfl
  rw [List.length_append] at hl
  obtain ⟨g1, g2, g3, g4⟩ := guard_at t
  by_cases h1 : i < t.length
  · rw [strAt_lt _ h1] at h
    exact .inl ⟨h1, h, strAt_mem h1 h⟩
  · obtain rfl | rfl | rfl | rfl : i = t.length ∨ i = t.length + 1 ∨ i = t.length + 2 ∨ i = t.length + 3 := by omega
    · rw [g1] at h; cases h; simp
    · rw [g2] at h; cases h; simp
    · rw [g3] at h; cases h; simp
    · rw [g4] at h; cases h; simp

theorem strAt_nub {s : Str} {i : Nat} (h : i ≤ s.length) : strAt s i ≠ .ub := by
  unfold strAt
  split
  · simp
  · split
    · simp
    · omega

theorem guard_nub {t : Str} {i : Nat} (h : i ≤ t.length + 3) : strAt (t ++ guard) i ≠ .ub :=
  strAt_nub (by rw [List.length_append]; exact h)

theorem isspace_nub {c : Byte} (h : c.toNat < 128) : isspace c ≠ .ub := by
  unfold isspace
  rw [if_neg (by omega)]
  simp

theorem notEnd_nub {c : Byte} (h : c.toNat < 128) : notEnd c ≠ .ub := by
  unfold notEnd
  exact nub_bind (isspace_nub h) (by simp)


theorem skipGo_sp {str : Str} : ∀ {f off o : Nat}, skipGo str f off = .ok o →
    (∃ c, strAt str o = .ok c ∧ isspace c = .ok false) ∧ ∀ i, off ≤ i → i < o → ∃ c, strAt str i = .ok c ∧ isspace c = .ok true := by
  intro f
  induction f with
  | zero => intro off o h; cases h
  | succ f ih =>
    intro off o h
    unfold skipGo at h
    obtain ⟨c, hc, h⟩ := Out.bind_eq_ok.1 h
    obtain ⟨b, hb, h⟩ := Out.bind_eq_ok.1 h
    split at h
    · rename_i hb'
      subst hb'
      obtain ⟨h1, h2⟩ := ih h
      refine ⟨h1, fun i hi hi' => ?_⟩
      by_cases e : i = off
      · subst e; exact ⟨c, hc, hb⟩
      · exact h2 i (by omega) hi'
    · rename_i hb'
      cases h
      refine ⟨⟨c, hc, ?_⟩, fun i hi hi' => by omega⟩
      cases b
      · exact hb
      · exact absurd rfl hb'

/-- where `skip` ends in a guarded text -/
theorem skip_guard {t : Str} {off o : Nat} (h : skip (t ++ guard) off = .ok o) : off ≤ o ∧ o ≤ t.length + 3 ∧
    (off ≤ t.length + 1 → o ≤ t.length + 1) := by
  have h0 := skip_le h
  obtain ⟨⟨c, hc, -⟩, h2⟩ := skipGo_sp h
  have h1 := strAt_le hc
  rw [List.length_append] at h1
  refine ⟨h0, h1, fun ho => ?_⟩
  by_contra hn
  obtain ⟨c', hc', hs⟩ := h2 (t.length + 1) ho (by omega)
  rw [(guard_at t).2.1] at hc'
  cases hc'
  revert hs; decide

/-- characters that are not in the guard -/
theorem guard_lt {t : Str} {i : Nat} {c : Byte} (h : strAt (t ++ guard) i = .ok c) (h1 : c ≠ 32) (h2 : c ≠ 34) (h3 : c ≠ 0) :
    i < t.length ∧ strAt t i = .ok c ∧ c ∈ t := by
  rcases guard_cases h with h | ⟨-, e⟩ | ⟨-, e⟩ | ⟨-, e⟩ | ⟨-, e⟩
  · exact h
  · exact absurd e h1
  · exact absurd e h2
  · exact absurd e h2
  · exact absurd e h3

theorem hexGo_nub {t : Str} : ∀ {k off : Nat}, off ≤ t.length + 3 → hexGo (t ++ guard) k off ≠ .ub := by
  intro k
  induction k with
  | zero => intro off _; simp [hexGo]
  | succ k ih =>
    intro off h
    unfold hexGo
    refine nub_bind (guard_nub h) fun c hc => ?_
    split
    · rename_i hx
      have h3 : c ≠ 32 ∧ c ≠ 34 ∧ c ≠ 0 := by
        refine ⟨?_, ?_, ?_⟩ <;> rintro rfl <;> revert hx <;> decide
      have := (guard_lt hc h3.1 h3.2.1 h3.2.2).1
      exact nub_bind (ih (by omega)) (by simp)
    · simp

theorem hexGo_end {t : Str} : ∀ {k off : Nat} {s : Str}, hexGo (t ++ guard) k off = .ok s → off ≤ t.length →
    off + k ≤ t.length := by
  intro k
  induction k with
  | zero => intro off s _ h; omega
  | succ k ih =>
    intro off s h ho
    unfold hexGo at h
    obtain ⟨c, hc, h⟩ := Out.bind_eq_ok.1 h
    split at h
    · rename_i hx
      have h3 : c ≠ 32 ∧ c ≠ 34 ∧ c ≠ 0 := by
        refine ⟨?_, ?_, ?_⟩ <;> rintro rfl <;> revert hx <;> decide
      have := (guard_lt hc h3.1 h3.2.1 h3.2.2).1
      obtain ⟨s', h', -⟩ := Out.bind_eq_ok.1 h
      have := ih h' (by omega)
      omega
    · cases h

theorem stringGo_nub {t : Str} : ∀ {f off : Nat} {val : Str}, off ≤ t.length + 2 → stringGo (t ++ guard) f off val ≠ .ub := by
  intro f
  induction f with
  | zero => intro off val _; simp [stringGo]
  | succ f ih =>
    intro off val h
    unfold stringGo
    refine nub_bind (guard_nub (by omega)) fun c hc => ?_
    split
    · simp
    · rename_i hq
      split
      · rename_i hb
        subst hb
        have hlt := (guard_lt hc (by decide) (by decide) (by decide)).1
        refine nub_bind (guard_nub (by omega)) fun e he => ?_
        split
        · rename_i hu
          subst hu
          have hlt := (guard_lt he (by decide) (by decide) (by decide)).1
          exact nub_bind (hexGo_nub (by omega)) fun s hs => ih (by have := hexGo_end hs (by omega); omega)
        · exact ih (by omega)
      · refine ih ?_
        rcases guard_cases hc with ⟨h, -⟩ | ⟨h, -⟩ | ⟨-, rfl⟩ | ⟨-, rfl⟩ | ⟨h', -⟩
        · omega
        · omega
        · exact absurd rfl hq
        · exact absurd rfl hq
        · omega

theorem stringGo_end {str : Str} : ∀ {f off : Nat} {val s : Str} {o : Nat}, stringGo str f off val = .ok (s, o) →
    ∃ p, o = p + 1 ∧ off ≤ p ∧ strAt str p = .ok 34 := by
  intro f
  induction f with
  | zero => intro off val s o h; cases h
  | succ f ih =>
    intro off val s o h
    unfold stringGo at h
    obtain ⟨c, hc, h⟩ := Out.bind_eq_ok.1 h
    split at h
    · rename_i hq
      cases h
      exact ⟨off, rfl, le_rfl, by rw [hc, hq]; rfl⟩
    · split at h
      · obtain ⟨e, -, h⟩ := Out.bind_eq_ok.1 h
        split at h
        · obtain ⟨_, -, h⟩ := Out.bind_eq_ok.1 h
          obtain ⟨p, h1, h2, h3⟩ := ih h; exact ⟨p, h1, by omega, h3⟩
        · obtain ⟨p, h1, h2, h3⟩ := ih h; exact ⟨p, h1, by omega, h3⟩
      · obtain ⟨p, h1, h2, h3⟩ := ih h; exact ⟨p, h1, by omega, h3⟩

theorem numGo_nub {t : Str} : ∀ {f off : Nat} {val : Str} {d : Bool}, off ≤ t.length → numGo (t ++ guard) f off val d ≠ .ub := by
  intro f
  induction f with
  | zero => intro off val d _; simp [numGo]
  | succ f ih =>
    intro off val d h
    unfold numGo
    refine nub_bind (guard_nub (by omega)) fun c hc => ?_
    have key : c ≠ 32 → off + 1 ≤ t.length := by
      intro h'
      rcases guard_cases hc with ⟨h, -⟩ | ⟨-, e⟩ | ⟨h', -⟩ | ⟨h', -⟩ | ⟨h', -⟩ <;> first | omega | exact absurd e h'
    split
    · rename_i hd
      refine ih (key ?_)
      rintro rfl; revert hd; decide
    · split
      · rename_i hd
        refine ih (key ?_)
        rintro rfl; revert hd; decide
      · simp

theorem numChar_iff {c : Byte} : NumChar c ↔ (c = byte '-' ∨ isDigit c = true) ∨ c = byte '.' := by
  unfold NumChar
  rw [digit_iff]
  tauto

/-- where a number ends -/
theorem numGo_end {str : Str} : ∀ {f off : Nat} {val : Str} {d : Bool} {r : Str × Bool × Byte × Nat},
    numGo str f off val d = .ok r → ∃ p, r.2.2.2 = p + 1 ∧ off ≤ p ∧ strAt str p = .ok r.2.2.1 ∧ ¬ NumChar r.2.2.1 ∧
      ∀ i, off ≤ i → i < p → ∃ c, strAt str i = .ok c ∧ NumChar c := by
  intro f
  induction f with
  | zero => intro off val d r h; cases h
  | succ f ih =>
    intro off val d r h
    unfold numGo at h
    obtain ⟨c, hc, h⟩ := Out.bind_eq_ok.1 h
    have step : ∀ {p}, NumChar c → (∀ i, off + 1 ≤ i → i < p → ∃ c, strAt str i = .ok c ∧ NumChar c) →
        ∀ i, off ≤ i → i < p → ∃ c, strAt str i = .ok c ∧ NumChar c := by
      intro p hn hh i h1 h2
      by_cases e : i = off
      · subst e; exact ⟨c, hc, hn⟩
      · exact hh i (by omega) h2
    split at h
    · rename_i hd
      obtain ⟨p, h1, h2, h3, h4, h5⟩ := ih h
      exact ⟨p, h1, by omega, h3, h4, step (numChar_iff.2 (.inl hd)) h5⟩
    · rename_i hd
      split at h
      · rename_i hd'
        obtain ⟨p, h1, h2, h3, h4, h5⟩ := ih h
        exact ⟨p, h1, by omega, h3, h4, step (numChar_iff.2 (.inr hd')) h5⟩
      · rename_i hd'
        cases h
        exact ⟨off, rfl, le_rfl, hc, fun hn => (numChar_iff.1 hn).elim hd hd', fun i _ _ => by omega⟩

theorem nat_lt {d : Str} (hd : ∀ c ∈ d, 48 ≤ c ∧ c ≤ 57) : nat d < 10 ^ d.length := by
  unfold nat
  have h := Nat.ofDigits_lt_base_pow_length (b := 10) (l := d.reverse.map fun c => c.toNat - 48) (by norm_num) (by
    intro x hx
    rw [List.mem_map] at hx
    obtain ⟨c, hc, rfl⟩ := hx
    have h := (hd c (by simpa using hc)).2
    have : c.toNat ≤ 57 := UInt8.le_iff_toNat_le.1 h
    omega)
  simpa using h


theorem castDouble_nub {s : Str} (h : s ≠ []) : castDouble s ≠ .ub := by
  unfold castDouble
  cases s with
  | nil => exact absurd rfl h
  | cons c s => simp

theorem castInt_nub {s : Str} (h : s ≠ []) : castInt s ≠ .ub := by
  unfold castInt
  cases s with
  | nil => exact absurd rfl h
  | cons c s => simp


theorem parseString_safe {t : Str} {off : Nat} (h : off ≤ t.length + 1) :
    parseString (t ++ guard) off ≠ .ub ∧ ∀ v o, parseString (t ++ guard) off = .ok (v, o) → o ≤ t.length + 3 := by
  unfold parseString
  refine ⟨nub_bind (stringGo_nub (by omega)) (by simp), fun v o h => ?_⟩
  obtain ⟨r, hr, h⟩ := Out.bind_eq_ok.1 h
  cases h
  obtain ⟨p, h1, h2, h3⟩ := stringGo_end (s := r.1) (o := r.2) hr
  rcases guard_cases h3 with h | h | h | h | ⟨-, h⟩
  · omega
  · omega
  · omega
  · omega
  · exact absurd h (by decide)

theorem take_len {s w : Str} {off : Nat} (h : (s.drop off).take w.length = w) (hw : w ≠ []) : off + w.length ≤ s.length := by
  have := congrArg List.length h
  rw [List.length_take, List.length_drop] at this
  have : 0 < w.length := List.length_pos_iff.2 hw
  omega

theorem guard_length (t : Str) : (t ++ guard).length = t.length + 3 := by rw [List.length_append]; rfl


theorem strAt_end {t : Str} {i : Nat} {c : Byte} (h : strAt t i = .ok c) : i < t.length ∨ (i = t.length ∧ c = 0) := by
  unfold strAt at h
  split at h
  · left; omega
  · split at h
    · rename_i hi; cases h; exact .inr ⟨by omega, rfl⟩
    · cases h

theorem skipGo_keep {t : Str} : ∀ {f f' off o : Nat}, skipGo t f off = .ok o → o < t.length → f ≤ f' →
    skipGo (t ++ guard) f' off = .ok o := by
  intro f
  induction f with
  | zero => intro f' off o h; cases h
  | succ f ih =>
    intro f' off o h ho hf
    obtain ⟨f', rfl⟩ : ∃ g, f' = g + 1 := ⟨f' - 1, by omega⟩
    have hle := skipGo_le h
    unfold skipGo at h ⊢
    rw [strAt_lt _ (by omega)]
    obtain ⟨c, hc, h⟩ := Out.bind_eq_ok.1 h
    obtain ⟨b, hb, h⟩ := Out.bind_eq_ok.1 h
    rw [hc]
    simp only [Out.ok_bind]
    rw [hb]
    simp only [Out.ok_bind]
    split at h
    · rename_i hb'
      rw [if_pos hb']
      exact ih h ho (by omega)
    · rename_i hb'
      rw [if_neg hb']
      exact h

theorem skip_keep {t : Str} {off o : Nat} (h : skip t off = .ok o) (ho : o < t.length) : skip (t ++ guard) off = .ok o :=
  skipGo_keep h ho (by rw [guard_length]; omega)

theorem hexGo_keep {t : Str} : ∀ {k off : Nat} {s : Str}, hexGo t k off = .ok s → hexGo (t ++ guard) k off = .ok s := by
  intro k
  induction k with
  | zero => intro off s h; exact h
  | succ k ih =>
    intro off s h
    unfold hexGo at h ⊢
    obtain ⟨c, hc, h⟩ := Out.bind_eq_ok.1 h
    split at h
    · rename_i hx
      rcases strAt_end hc with hl | ⟨-, rfl⟩
      · rw [strAt_lt _ hl, hc]
        simp only [Out.ok_bind, hx, if_true]
        obtain ⟨s', h', h⟩ := Out.bind_eq_ok.1 h
        rw [ih h']
        exact h
      · exact absurd hx (by decide)
    · cases h

theorem stringGo_keep {t : Str} : ∀ {f f' off : Nat} {val s : Str} {o : Nat}, stringGo t f off val = .ok (s, o) → f ≤ f' →
    stringGo (t ++ guard) f' off val = .ok (s, o) := by
  intro f
  induction f with
  | zero => intro f' off val s o h; cases h
  | succ f ih =>
    intro f' off val s o h hf
    obtain ⟨f', rfl⟩ : ∃ g, f' = g + 1 := ⟨f' - 1, by omega⟩
    obtain ⟨p, hp, hp', hq⟩ := stringGo_end h
    have hpl : p < t.length := by
      rcases strAt_end hq with h | ⟨-, h⟩
      · exact h
      · exact absurd h (by decide)
    unfold stringGo at h ⊢
    rw [strAt_lt _ (by omega)]
    obtain ⟨c, hc, h⟩ := Out.bind_eq_ok.1 h
    rw [hc]
    simp only [Out.ok_bind]
    split at h
    · rename_i h1
      rw [if_pos h1]
      exact h
    · rename_i h1
      rw [if_neg h1]
      split at h
      · rename_i h2
        rw [if_pos h2]
        obtain ⟨e, he, h⟩ := Out.bind_eq_ok.1 h
        have he' : strAt (t ++ guard) (off + 1 : Nat) = .ok e := by
          rcases strAt_end he with hl | ⟨hl, -⟩
          · rw [strAt_lt _ hl, he]
          · exfalso
            split at h
            · obtain ⟨_, -, h⟩ := Out.bind_eq_ok.1 h
              have := stringGo_le h; omega
            · have := stringGo_le h; omega
        rw [he']
        simp only [Out.ok_bind]
        split at h
        · rename_i h3
          rw [if_pos h3]
          obtain ⟨x, hx, h⟩ := Out.bind_eq_ok.1 h
          rw [hexGo_keep hx]
          simp only [Out.ok_bind]
          exact ih h (by omega)
        · rename_i h3
          rw [if_neg h3]
          exact ih h (by omega)
      · rename_i h2
        rw [if_neg h2]
        exact ih h (by omega)

theorem parseString_keep {t : Str} {off : Nat} {v : Value} {o : Nat} (h : parseString t off = .ok (v, o)) :
    parseString (t ++ guard) off = .ok (v, o) := by
  unfold parseString at h ⊢
  obtain ⟨r, hr, h⟩ := Out.bind_eq_ok.1 h
  have := stringGo_keep (s := r.1) (o := r.2) (f' := (t ++ guard).length + 2) hr (by rw [guard_length]; omega)
  rw [this]
  exact h

theorem numGo_keep {t : Str} : ∀ {f f' off : Nat} {val : Str} {d : Bool} {v : Str} {b : Bool} {c : Byte} {o : Nat},
    numGo t f off val d = .ok (v, b, c, o) → f ≤ f' →
    (o ≤ t.length ∧ numGo (t ++ guard) f' off val d = .ok (v, b, c, o)) ∨
      (o = t.length + 1 ∧ c = 0 ∧ numGo (t ++ guard) f' off val d = .ok (v, b, 32, o)) := by
  intro f
  induction f with
  | zero => intro f' off val d v b c o h; cases h
  | succ f ih =>
    intro f' off val d v b c o h hf
    obtain ⟨f', rfl⟩ : ∃ g, f' = g + 1 := ⟨f' - 1, by omega⟩
    unfold numGo at h ⊢
    obtain ⟨c', hc, h⟩ := Out.bind_eq_ok.1 h
    rcases strAt_end hc with hl | ⟨hl, rfl⟩
    · rw [strAt_lt _ hl, hc]
      simp only [Out.ok_bind]
      split at h
      · rename_i h1
        rw [if_pos h1]
        exact ih h (by omega)
      · rename_i h1
        rw [if_neg h1]
        split at h
        · rename_i h2
          rw [if_pos h2]
          exact ih h (by omega)
        · rename_i h2
          rw [if_neg h2]
          cases h
          exact .inl ⟨by omega, rfl⟩
    · rw [if_neg (by decide), if_neg (by decide)] at h
      cases h
      subst hl
      refine .inr ⟨rfl, rfl, ?_⟩
      rw [(guard_at t).1]
      simp only [Out.ok_bind]
      rw [if_neg (by decide), if_neg (by decide)]

theorem expGo_keep {t : Str} : ∀ {f f' off : Nat} {e : Str} {x : Str} {c : Byte} {o : Nat},
    expGo t f off e = .ok (x, c, o) → f ≤ f' →
    (o < t.length ∧ expGo (t ++ guard) f' off e = .ok (x, c, o)) ∨
      (o = t.length ∧ c = 0 ∧ expGo (t ++ guard) f' off e = .ok (x, 32, o)) := by
  intro f
  induction f with
  | zero => intro f' off e x c o h; cases h
  | succ f ih =>
    intro f' off e x c o h hf
    obtain ⟨f', rfl⟩ : ∃ g, f' = g + 1 := ⟨f' - 1, by omega⟩
    unfold expGo at h ⊢
    obtain ⟨c', hc, h⟩ := Out.bind_eq_ok.1 h
    rcases strAt_end hc with hl | ⟨hl, rfl⟩
    · rw [strAt_lt _ hl, hc]
      simp only [Out.ok_bind]
      split at h
      · rename_i h1
        rw [if_pos h1]
        exact ih h (by omega)
      · rename_i h1
        rw [if_neg h1]
        obtain ⟨b, hb, h⟩ := Out.bind_eq_ok.1 h
        rw [hb]
        simp only [Out.ok_bind]
        split at h
        · cases h
        · rename_i h2
          rw [if_neg h2]
          cases h
          exact .inl ⟨hl, rfl⟩
    · rw [if_neg (by decide), show notEnd 0 = .ok false by decide] at h
      simp at h
      obtain ⟨rfl, rfl, rfl⟩ := h
      refine .inr ⟨hl, rfl, ?_⟩
      rw [hl, (guard_at t).1]
      simp only [Out.ok_bind]
      rw [if_neg (by decide), show notEnd 32 = .ok false by decide]
      simp

/-- the rest of `parse_number` after the mantissa -/
theorem parseNumber_keep {t : Str} {off : Nat} {v : Value} {o : Nat} (h : parseNumber t off = .ok (v, o)) :
    ∃ o', parseNumber (t ++ guard) off = .ok (v, o') ∧ (o < t.length → o' = o) := by
  have hlen := guard_length t
  unfold parseNumber at h ⊢
  obtain ⟨⟨val, d, c, o1⟩, h1, h⟩ := Out.bind_eq_ok.1 h
  rcases numGo_keep h1 (f' := (t ++ guard).length + 2) (by omega) with ⟨hl, e1⟩ | ⟨hl, rfl, e1⟩
  · rw [e1]
    simp only [Out.ok_bind] at h ⊢
    obtain ⟨⟨es, ex, c2, o2⟩, h2, h⟩ := Out.bind_eq_ok.1 h
    split at h2
    · rename_i hE
      rw [if_pos hE, if_neg (by omega)]
      split at h2
      · cases h2
      · obtain ⟨s, hs, h2⟩ := Out.bind_eq_ok.1 h2
        obtain ⟨⟨x, c3, o3⟩, h3, h2⟩ := Out.bind_eq_ok.1 h2
        rw [strAt_lt _ (by omega), hs]
        simp only [Out.ok_bind]
        dsimp only at h2
        obtain ⟨q, hq, h2⟩ := Out.bind_eq_ok.1 h2
        obtain ⟨i, hi, h2⟩ := Out.bind_eq_ok.1 h2
        cases h2
        rcases expGo_keep h3 (f' := (t ++ guard).length + 2) (by omega) with ⟨hl3, e3⟩ | ⟨hl3, rfl, e3⟩
        · rw [e3]
          simp only [Out.ok_bind, hq, hi]
          exact ⟨o, h, fun _ => rfl⟩
        · rw [e3]
          simp only [Out.ok_bind, hq, hi]
          dsimp only at h
          split at h
          · rename_i hd
            rw [if_pos hd]
            obtain ⟨y, hy, h⟩ := Out.bind_eq_ok.1 h
            cases h
            rw [hy]
            exact ⟨_, rfl, fun h => absurd h (by simp; omega)⟩
          · rename_i hd
            rw [if_neg hd]
            obtain ⟨y, hy, h⟩ := Out.bind_eq_ok.1 h
            cases h
            rw [hy]
            exact ⟨_, rfl, fun h => absurd h (by simp; omega)⟩
    · rename_i hE
      rw [if_neg hE]
      obtain ⟨b, hb, h2⟩ := Out.bind_eq_ok.1 h2
      split at h2
      · cases h2
      · rename_i hbb
        cases h2
        rw [hb]
        simp only [Out.ok_bind]
        rw [if_neg hbb]
        simp only [Out.ok_bind]
        exact ⟨o, h, fun _ => rfl⟩
  · rw [e1]
    simp only [Out.ok_bind] at h ⊢
    rw [if_neg (by decide), show notEnd 0 = .ok false by decide] at h
    rw [if_neg (by decide), show notEnd 32 = .ok false by decide]
    simp only [Out.ok_bind] at h ⊢
    rw [if_neg (by decide)] at h ⊢
    simp only [Out.ok_bind] at h ⊢
    split at h
    · rename_i hd
      rw [if_pos hd]
      obtain ⟨y, hy, h⟩ := Out.bind_eq_ok.1 h
      cases h
      rw [hy]
      exact ⟨_, rfl, fun h => absurd h (by simp; omega)⟩
    · rename_i hd
      rw [if_neg hd]
      obtain ⟨y, hy, h⟩ := Out.bind_eq_ok.1 h
      cases h
      rw [hy]
      exact ⟨_, rfl, fun h => absurd h (by simp; omega)⟩

theorem take_keep {s w : Str} (g : Str) {off : Nat} (h : (s.drop off).take w.length = w) :
    ((s ++ g).drop off).take w.length = w := by
  cases w with
  | nil => simp
  | cons a w =>
    have := take_len h (by simp)
    rw [List.drop_append_of_le_length (by omega), List.take_append_of_le_length, h]
    rw [List.length_drop]; omega

theorem skip_char {t : Str} {off o : Nat} {c : Byte} (h : skip t off = .ok o) (hc : strAt t o = .ok c) (h0 : c ≠ 0) :
    skip (t ++ guard) off = .ok o ∧ strAt (t ++ guard) o = .ok c ∧ o < t.length := by
  rcases strAt_end hc with hl | ⟨-, e⟩
  · exact ⟨skip_keep h hl, by rw [strAt_lt _ hl, hc], hl⟩
  · exact absurd e h0

/-- what is read without guard is read with it -/
theorem parse_keep (t : Str) : ∀ f : Nat,
    (∀ off v o f', parseNext t f off = .ok (v, o) → f ≤ f' →
      ∃ o', parseNext (t ++ guard) f' off = .ok (v, o') ∧ (o < t.length → o' = o)) ∧
    (∀ off l o f', arrLoop t f off = .ok (l, o) → f ≤ f' → arrLoop (t ++ guard) f' off = .ok (l, o)) ∧
    (∀ off m m' o f', objLoop t f off m = .ok (m', o) → f ≤ f' → objLoop (t ++ guard) f' off m = .ok (m', o)) := by
  intro f
  induction f with
  | zero =>
    refine ⟨fun off v o f' h => ?_, fun off v o f' h => ?_, fun off m m' o f' h => ?_⟩ <;> cases h
  | succ f ih =>
    obtain ⟨ih1, ih2, ih3⟩ := ih
    refine ⟨fun off v o f' h hf => ?_, fun off l o f' h hf => ?_, fun off m m' o f' h hf => ?_⟩ <;>
      obtain ⟨f', rfl⟩ : ∃ g, f' = g + 1 := ⟨f' - 1, by omega⟩
    · unfold parseNext at h ⊢
      obtain ⟨o1, h1, h⟩ := Out.bind_eq_ok.1 h
      obtain ⟨c, hc, h⟩ := Out.bind_eq_ok.1 h
      have hc0 : c ≠ 0 := by
        rintro rfl
        rw [if_neg (by decide), if_neg (by decide), if_neg (by decide), if_neg (by decide), if_neg (by decide),
          if_neg (by decide)] at h
        cases h
      obtain ⟨k1, k2, k3⟩ := skip_char h1 hc hc0
      rw [k1]
      simp only [Out.ok_bind]
      rw [k2]
      simp only [Out.ok_bind]
      split at h
      · rename_i hb
        rw [if_pos hb]
        obtain ⟨o2, h2, h⟩ := Out.bind_eq_ok.1 h
        obtain ⟨c2, hc2, h⟩ := Out.bind_eq_ok.1 h
        split at h
        · rename_i hb2
          obtain ⟨j1, j2, j3⟩ := skip_char h2 hc2 (by rw [hb2]; decide)
          rw [j1]
          simp only [Out.ok_bind]
          rw [j2]
          simp only [Out.ok_bind]
          rw [if_pos hb2]
          exact ⟨o, h, fun _ => rfl⟩
        · rename_i hb2
          obtain ⟨r, hr, h⟩ := Out.bind_eq_ok.1 h
          have hc20 : c2 ≠ 0 := by
            rintro rfl
            cases f with
            | zero => cases hr
            | succ f =>
              unfold arrLoop at hr
              obtain ⟨r1, hr1, -⟩ := Out.bind_eq_ok.1 hr
              cases f with
              | zero => cases hr1
              | succ f =>
                unfold parseNext at hr1
                obtain ⟨o3, h3, hr1⟩ := Out.bind_eq_ok.1 hr1
                obtain ⟨c3, hc3, hr1⟩ := Out.bind_eq_ok.1 hr1
                have : skip t o2 = .ok o2 := by
                  unfold skip skipGo
                  rw [hc2]
                  rfl
                rw [this] at h3
                cases h3
                rw [hc2] at hc3
                cases hc3
                rw [if_neg (by decide), if_neg (by decide), if_neg (by decide), if_neg (by decide), if_neg (by decide),
                  if_neg (by decide)] at hr1
                cases hr1
          obtain ⟨j1, j2, j3⟩ := skip_char h2 hc2 hc20
          rw [j1]
          simp only [Out.ok_bind]
          rw [j2]
          simp only [Out.ok_bind]
          rw [if_neg hb2, ih2 _ r.1 r.2 f' hr (by omega)]
          exact ⟨o, h, fun _ => rfl⟩
      · rename_i hb
        rw [if_neg hb]
        split at h
        · rename_i hb
          rw [if_pos hb]
          obtain ⟨o2, h2, h⟩ := Out.bind_eq_ok.1 h
          obtain ⟨c2, hc2, h⟩ := Out.bind_eq_ok.1 h
          split at h
          · rename_i hb2
            obtain ⟨j1, j2, j3⟩ := skip_char h2 hc2 (by rw [hb2]; decide)
            rw [j1]
            simp only [Out.ok_bind]
            rw [j2]
            simp only [Out.ok_bind]
            rw [if_pos hb2]
            exact ⟨o, h, fun _ => rfl⟩
          · rename_i hb2
            obtain ⟨r, hr, h⟩ := Out.bind_eq_ok.1 h
            have hc20 : c2 ≠ 0 := by
              rintro rfl
              cases f with
              | zero => cases hr
              | succ f =>
                unfold objLoop at hr
                obtain ⟨r1, hr1, -⟩ := Out.bind_eq_ok.1 hr
                cases f with
                | zero => cases hr1
                | succ f =>
                  unfold parseNext at hr1
                  obtain ⟨o3, h3, hr1⟩ := Out.bind_eq_ok.1 hr1
                  obtain ⟨c3, hc3, hr1⟩ := Out.bind_eq_ok.1 hr1
                  have : skip t o2 = .ok o2 := by
                    unfold skip skipGo
                    rw [hc2]
                    rfl
                  rw [this] at h3
                  cases h3
                  rw [hc2] at hc3
                  cases hc3
                  rw [if_neg (by decide), if_neg (by decide), if_neg (by decide), if_neg (by decide), if_neg (by decide),
                    if_neg (by decide)] at hr1
                  cases hr1
            obtain ⟨j1, j2, j3⟩ := skip_char h2 hc2 hc20
            rw [j1]
            simp only [Out.ok_bind]
            rw [j2]
            simp only [Out.ok_bind]
            rw [if_neg hb2, ih3 _ _ r.1 r.2 f' hr (by omega)]
            exact ⟨o, h, fun _ => rfl⟩
        · rename_i hb
          rw [if_neg hb]
          split at h
          · rename_i hb
            rw [if_pos hb]
            exact ⟨o, parseString_keep h, fun _ => rfl⟩
          · rename_i hb
            rw [if_neg hb]
            split at h
            · rename_i hb
              rw [if_pos hb]
              refine ⟨o, ?_, fun _ => rfl⟩
              unfold parseBool at h ⊢
              split at h
              · rename_i hw
                have k : ((t ++ guard).drop o1).take 4 = bytes ['t', 'r', 'u', 'e'] := take_keep (w := bytes ['t', 'r', 'u', 'e']) guard hw
                rw [if_pos k]
                exact h
              · split at h
                · rename_i hw
                  have k : ((t ++ guard).drop o1).take 5 = bytes ['f', 'a', 'l', 's', 'e'] :=
                    take_keep (w := bytes ['f', 'a', 'l', 's', 'e']) guard hw
                  rw [if_neg ?_, if_pos k]
                  · exact h
                  · intro k'
                    have e1 := congrArg List.head? k
                    have e2 := congrArg List.head? k'
                    rw [List.head?_take] at e1 e2
                    rw [if_neg (by decide)] at e1
                    rw [if_neg (by decide)] at e2
                    rw [e1] at e2
                    exact absurd e2 (by decide)
                · cases h
            · rename_i hb
              rw [if_neg hb]
              split at h
              · rename_i hb
                rw [if_pos hb]
                refine ⟨o, ?_, fun _ => rfl⟩
                unfold parseNull at h ⊢
                split at h
                · rename_i hw
                  have k : ((t ++ guard).drop o1).take 4 = bytes ['n', 'u', 'l', 'l'] := take_keep (w := bytes ['n', 'u', 'l', 'l']) guard hw
                  rw [if_pos k]
                  exact h
                · cases h
              · rename_i hb
                rw [if_neg hb]
                split at h
                · rename_i hb
                  rw [if_pos hb]
                  exact parseNumber_keep h
                · cases h
    · unfold arrLoop at h ⊢
      obtain ⟨r, h1, h⟩ := Out.bind_eq_ok.1 h
      obtain ⟨o2, h2, h⟩ := Out.bind_eq_ok.1 h
      obtain ⟨c, hc, h⟩ := Out.bind_eq_ok.1 h
      have hc0 : c ≠ 0 := by
        rintro rfl
        rw [if_neg (by decide), if_neg (by decide)] at h
        cases h
      obtain ⟨k1, k2, k3⟩ := skip_char h2 hc hc0
      have l2 := skip_le h2
      obtain ⟨o', p1, p2⟩ := ih1 _ r.1 r.2 f' h1 (by omega)
      rw [p2 (by omega)] at p1
      rw [p1]
      simp only [Out.ok_bind]
      rw [k1]
      simp only [Out.ok_bind]
      rw [k2]
      simp only [Out.ok_bind]
      split at h
      · rename_i hb
        rw [if_pos hb]
        obtain ⟨r', hr', h⟩ := Out.bind_eq_ok.1 h
        rw [ih2 _ r'.1 r'.2 f' hr' (by omega)]
        exact h
      · rename_i hb
        rw [if_neg hb]
        exact h
    · unfold objLoop at h ⊢
      obtain ⟨r, h1, h⟩ := Out.bind_eq_ok.1 h
      obtain ⟨o2, h2, h⟩ := Out.bind_eq_ok.1 h
      obtain ⟨c, hc, h⟩ := Out.bind_eq_ok.1 h
      split at h
      · cases h
      · rename_i hb
        have hb' : c = byte ':' := by simpa using hb
        obtain ⟨k1, k2, k3⟩ := skip_char h2 hc (by rw [hb']; decide)
        have l2 := skip_le h2
        obtain ⟨o', p1, p2⟩ := ih1 _ r.1 r.2 f' h1 (by omega)
        rw [p2 (by omega)] at p1
        rw [p1]
        simp only [Out.ok_bind]
        rw [k1]
        simp only [Out.ok_bind]
        rw [k2]
        simp only [Out.ok_bind]
        rw [if_neg hb]
        obtain ⟨o3, h3, h⟩ := Out.bind_eq_ok.1 h
        obtain ⟨r4, h4, h⟩ := Out.bind_eq_ok.1 h
        obtain ⟨o5, h5, h⟩ := Out.bind_eq_ok.1 h
        obtain ⟨c6, hc6, h⟩ := Out.bind_eq_ok.1 h
        have hc60 : c6 ≠ 0 := by
          rintro rfl
          rw [if_neg (by decide), if_neg (by decide)] at h
          cases h
        obtain ⟨j1, j2, j3⟩ := skip_char h5 hc6 hc60
        have l5 := skip_le h5
        have l4 := ((parse_prog t f).1 _ r4.1 r4.2 h4).1
        rw [skip_keep h3 (by omega)]
        simp only [Out.ok_bind]
        obtain ⟨o', q1, q2⟩ := ih1 _ r4.1 r4.2 f' h4 (by omega)
        rw [q2 (by omega)] at q1
        rw [q1]
        simp only [Out.ok_bind]
        rw [j1]
        simp only [Out.ok_bind]
        rw [j2]
        simp only [Out.ok_bind]
        split at h
        · rename_i hb
          rw [if_pos hb]
          exact ih3 _ _ _ _ f' h (by omega)
        · rename_i hb
          rw [if_neg hb]
          exact h

theorem load_keep {t : Str} {v : Value} (h : loadJSON t = .ok v) : loadJSON (t ++ guard) = .ok v := by
  unfold loadJSON at h ⊢
  obtain ⟨r, hr, h⟩ := Out.bind_eq_ok.1 h
  obtain ⟨o', e, -⟩ := (parse_keep t _).1 0 r.1 r.2 (2 * (t ++ guard).length + 3) hr (by rw [guard_length]; omega)
  rw [e]
  exact h

end Json

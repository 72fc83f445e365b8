import Verif.Spec.JsonPlain
import Verif.Proof.JsonGuard
import Mathlib.Data.List.TakeWhile

/-! # Helper lemmas for JSON: a text with arbitrary bytes in strings followed by a space and two quotes -/

namespace Json
open Cpp Spec

/-- outside strings, as far as the text goes -/
def Sync (t : Str) (off : Nat) : Prop := off ≤ t.length → place (t.take off) = .outside

/-- in a string, as far as the text goes -/
def InStr (t : Str) (off : Nat) : Prop := off ≤ t.length → place (t.take off) = .inside

theorem sync_zero (t : Str) : Sync t 0 := fun _ => rfl

theorem sync_far {t : Str} {off : Nat} (h : t.length < off) : Sync t off := fun h' => by omega

theorem place_snoc (a : Str) (c : Byte) : place (a ++ [c]) = (place a).next c := by simp [place]

theorem place_succ {t : Str} {i : Nat} {c : Byte} (h : i < t.length) (hc : strAt (t ++ guard) i = .ok c) :
    place (t.take (i + 1)) = (place (t.take i)).next c := by
  rw [strAt_lt _ h, strAt_ok h] at hc
  injection hc with hc
  simp only [List.getD, List.getElem?_eq_getElem h, Option.getD_some] at hc
  rw [List.take_add_one, List.getElem?_eq_getElem h, hc]
  exact place_snoc _ _

theorem sync_step {t : Str} {i : Nat} {c : Byte} (h : Sync t i) (hc : strAt (t ++ guard) i = .ok c) (hq : c ≠ 34) :
    Sync t (i + 1) := by
  intro hl
  rw [place_succ (by omega) hc, h (by omega)]
  show (if c = byte '"' then Place.inside else .outside) = _
  rw [if_neg (show ¬ c = byte '"' from hq)]

theorem plain_ascii {t : Str} (hp : Plain t) {i : Nat} {c : Byte} (h : Sync t i) (hc : strAt (t ++ guard) i = .ok c) :
    c.toNat < 128 := by
  rcases guard_cases hc with ⟨hl, he, -⟩ | ⟨-, rfl⟩ | ⟨-, rfl⟩ | ⟨-, rfl⟩ | ⟨-, rfl⟩
  · rw [strAt_ok hl] at he
    injection he with he
    simp only [List.getD, List.getElem?_eq_getElem hl, Option.getD_some] at he
    refine hp (t.take i) c (t.drop (i + 1)) ?_ (h (by omega))
    rw [← he, ← List.drop_eq_getElem_cons hl, List.take_append_drop]
  all_goals decide

theorem skipGo_plain {t : Str} (hp : Plain t) : ∀ {f off : Nat}, off ≤ t.length + 3 → Sync t off →
    skipGo (t ++ guard) f off ≠ .ub ∧ ∀ o, skipGo (t ++ guard) f off = .ok o → Sync t o := by
  intro f
  induction f with
  | zero => intro off _ _; simp [skipGo]
  | succ f ih =>
    intro off h hs
    unfold skipGo
    have h0 := guard_nub h
    cases hc : strAt (t ++ guard) off with
    | ub => exact absurd hc h0
    | exit => simp
    | diverge => simp
    | ok c =>
      have h1 := isspace_nub (plain_ascii hp hs hc)
      simp only [Out.ok_bind]
      cases hb : isspace c with
      | ub => exact absurd hb h1
      | exit => simp
      | diverge => simp
      | ok b =>
        simp only [Out.ok_bind]
        cases b with
        | false =>
          refine ⟨by simp, fun o ho => ?_⟩
          simp at ho
          subst ho
          exact hs
        | true =>
          simp only [if_true]
          refine ih ?_ (sync_step hs hc ?_)
          · rcases guard_cases hc with ⟨h, -⟩ | ⟨h, -⟩ | ⟨-, rfl⟩ | ⟨-, rfl⟩ | ⟨-, rfl⟩
            · omega
            · omega
            all_goals exact absurd hb (by decide)
          · rintro rfl
            exact absurd hb (by decide)

theorem skip_plain {t : Str} (hp : Plain t) {off : Nat} (h : off ≤ t.length + 3) (hs : Sync t off) :
    skip (t ++ guard) off ≠ .ub ∧ ∀ o, skip (t ++ guard) off = .ok o → Sync t o := skipGo_plain hp h hs

theorem inStr_step {t : Str} {i : Nat} {c : Byte} (h : InStr t i) (hc : strAt (t ++ guard) i = .ok c) (hq : c ≠ 34)
    (hb : c ≠ 92) : InStr t (i + 1) := by
  intro hl
  rw [place_succ (by omega) hc, h (by omega)]
  show (if c = byte '"' then Place.outside else if c = byte '\\' then .escaped else .inside) = _
  rw [if_neg (show ¬ c = byte '"' from hq), if_neg (show ¬ c = byte '\\' from hb)]

theorem inStr_esc {t : Str} {i : Nat} {c : Byte} (h : InStr t i) (hb : strAt (t ++ guard) i = .ok 92)
    (hc : strAt (t ++ guard) (i + 1 : Nat) = .ok c) : InStr t (i + 2) := by
  intro hl
  rw [place_succ (by omega) hc, place_succ (by omega) hb, h (by omega)]
  rfl

theorem inStr_end {t : Str} {i : Nat} (h : InStr t i) (hc : strAt (t ++ guard) i = .ok 34) : Sync t (i + 1) := by
  intro hl
  rw [place_succ (by omega) hc, h (by omega)]
  rfl

theorem inStr_begin {t : Str} {i : Nat} (h : Sync t i) (hc : strAt (t ++ guard) i = .ok 34) : InStr t (i + 1) := by
  intro hl
  rw [place_succ (by omega) hc, h (by omega)]
  rfl

theorem hexGo_inStr {t : Str} : ∀ {k off : Nat} {s : Str}, hexGo (t ++ guard) k off = .ok s → InStr t off →
    InStr t (off + k) := by
  intro k
  induction k with
  | zero => intro off s _ h; exact h
  | succ k ih =>
    intro off s h ho
    unfold hexGo at h
    obtain ⟨c, hc, h⟩ := Out.bind_eq_ok.1 h
    split at h
    · rename_i hx
      obtain ⟨s', h', -⟩ := Out.bind_eq_ok.1 h
      have := ih h' (inStr_step ho hc (by rintro rfl; revert hx; decide) (by rintro rfl; revert hx; decide))
      rwa [show off + 1 + k = off + (k + 1) by omega] at this
    · cases h

theorem stringGo_sync {t : Str} : ∀ {f off : Nat} {val s : Str} {o : Nat}, stringGo (t ++ guard) f off val = .ok (s, o) →
    InStr t off → Sync t o := by
  intro f
  induction f with
  | zero => intro off val s o h; cases h
  | succ f ih =>
    intro off val s o h hi
    unfold stringGo at h
    obtain ⟨c, hc, h⟩ := Out.bind_eq_ok.1 h
    split at h
    · rename_i hq
      subst hq
      cases h
      exact inStr_end hi hc
    · rename_i hq
      split at h
      · rename_i hb
        subst hb
        obtain ⟨e, he, h⟩ := Out.bind_eq_ok.1 h
        have h2 := inStr_esc hi hc he
        split at h
        · obtain ⟨_, hx, h⟩ := Out.bind_eq_ok.1 h
          have h6 := hexGo_inStr hx h2
          exact ih h h6
        · exact ih h h2
      · rename_i hb
        exact ih h (inStr_step hi hc hq hb)

theorem parseString_plain {t : Str} {off : Nat} (h : off ≤ t.length + 1) (hs : Sync t off)
    (hc : strAt (t ++ guard) off = .ok 34) : parseString (t ++ guard) off ≠ .ub ∧
      ∀ v o, parseString (t ++ guard) off = .ok (v, o) → o ≤ t.length + 3 ∧ Sync t o := by
  have := parseString_safe h
  refine ⟨this.1, fun v o h' => ⟨this.2 v o h', ?_⟩⟩
  unfold parseString at h'
  obtain ⟨r, hr, h'⟩ := Out.bind_eq_ok.1 h'
  cases h'
  exact stringGo_sync (s := r.1) (o := r.2) hr (inStr_begin hs hc)

theorem sync_run {t : Str} {off p : Nat} (hs : Sync t off) (h : ∀ i, off ≤ i → i < p → ∃ c, strAt (t ++ guard) i = .ok c ∧ c ≠ 34) :
    ∀ q, off ≤ q → q ≤ p → Sync t q := by
  intro q hq
  induction q, hq using Nat.le_induction with
  | base => exact fun _ => hs
  | succ q hq ih =>
    intro hp
    obtain ⟨c, hc, hn⟩ := h q hq (by omega)
    exact sync_step (ih (by omega)) hc hn

theorem notEnd_dec {c : Byte} (h : c.toNat < 128) : notEnd c = .ok (decide (¬ EndChar c)) := by
  unfold notEnd isspace EndChar
  rw [if_neg (by omega)]
  simp only [Out.ok_bind]
  congr 1
  by_cases h1 : c = 32 ∨ (9 ≤ c ∧ c ≤ 13)
  · rcases h1 with h1 | h1 <;> simp [h1]
  · have h1' := not_or.1 h1
    simp only [decide_false, Bool.not_false, Bool.true_and, h1'.1, h1'.2, false_or, not_or]
    by_cases e1 : c = byte ',' <;> by_cases e2 : c = byte ']' <;> by_cases e3 : c = byte '}' <;> by_cases e4 : c = 0 <;>
      simp [e1, e2, e3, e4]

/-- the loop over the exponent -/
theorem expGo_plain {t : Str} (hp : Plain t) (d : Str) : ∀ {f off : Nat} {e r : Str}, At t off (d ++ r) → Sync t off →
    (∀ c ∈ d, 48 ≤ c ∧ c ≤ 57) → (∀ c ∈ r.head?, ¬ (48 ≤ c ∧ c ≤ 57)) → expGo (t ++ guard) f off e ≠ .ub ∧
      ∀ x, expGo (t ++ guard) f off e = .ok x → x.1 = e ++ d ∧ x.2.2 = off + d.length ∧ x.2.2 ≤ t.length ∧
        (∀ q, off ≤ q → q ≤ off + d.length → Sync t q) ∧ ∀ c ∈ r.head?, EndChar c := by
  induction d with
  | nil =>
    intro f off e r h hs _ hr
    cases f with
    | zero => simp [expGo]
    | succ f =>
      unfold expGo
      have hle := h.1
      have hc : ∃ c, strAt (t ++ guard) off = .ok c ∧ isDigit c = false ∧ (∀ c' ∈ r.head?, c' = c) := by
        cases r with
        | nil =>
          have : off = t.length := by have := h.len; simpa using this
          subst this
          exact ⟨32, (guard_at t).1, by decide, by simp⟩
        | cons c r =>
          have hl := h.len
          rw [List.nil_append, List.length_cons] at hl
          refine ⟨c, ?_, ?_, by simp⟩
          · rw [strAt_lt _ (by omega)]; exact (At.cons (t := r) h).1
          · by_contra hd
            exact hr c rfl ((digit_iff c).1 (by simpa using hd))
      obtain ⟨c, hc, hd, hz⟩ := hc
      rw [hc]
      simp only [Out.ok_bind, hd]
      rw [notEnd_dec (plain_ascii hp hs hc)]
      simp only [Out.ok_bind]
      by_cases he : EndChar c
      · simp only [he, not_true, decide_false, Bool.false_eq_true, if_false]
        refine ⟨by simp, fun x hx => ?_⟩
        simp at hx
        subst hx
        refine ⟨by simp, rfl, hle, fun q h1 h2 => ?_, fun c' hc' => hz c' hc' ▸ he⟩
        obtain rfl : q = off := by simp at h2; omega
        exact hs
      · simp [he]
  | cons c d ih =>
    intro f off e r h hs hd hr
    cases f with
    | zero => simp [expGo]
    | succ f =>
      unfold expGo
      have hl := h.len
      rw [List.cons_append, List.length_cons] at hl
      have h' := At.cons (t := d ++ r) h
      have hc : strAt (t ++ guard) off = .ok c := by rw [strAt_lt _ (by omega), h'.1]
      rw [hc]
      simp only [Out.ok_bind, (digit_iff c).2 (hd c (by simp)), if_true]
      have hs' : Sync t (off + 1) := sync_step hs hc (by rintro rfl; exact absurd (hd 34 (by simp)) (by decide))
      obtain ⟨h1, h2⟩ := ih (f := f) (e := e ++ [c]) h'.2 hs' (fun x hx => hd x (by simp [hx])) hr
      refine ⟨h1, fun x hx => ?_⟩
      obtain ⟨k1, k2, k3, k4, k5⟩ := h2 x hx
      refine ⟨by rw [k1]; simp, by rw [k2, List.length_cons]; omega, k3, fun q g1 g2 => ?_, k5⟩
      by_cases e : q = off
      · rw [e]; exact hs
      · rw [List.length_cons] at g2
        exact k4 q (by omega) (by omega)

/-- an exponent of type `int` is converted -/
theorem castDouble_sound {s : Byte} {d : Str} (hd : ∀ c ∈ d, 48 ≤ c ∧ c ≤ 57) (h : IntExponent s d) :
    ∃ q, castDouble ((if s = byte '-' then [s] else []) ++ d) = .ok q ∧ IsInt q.num := by
  by_cases hn : d = []
  · subst hn
    rcases h with ⟨rfl, -⟩ | ⟨h, -⟩
    · refine ⟨-decimal [], rfl, ?_⟩
      have : decimal [] = 0 := by simp [decimal, natVal]
      rw [this]
      decide
    · exact absurd rfl h
  · have hcast := castDouble_int (sign := decide (s = byte '-')) (d := d) ⟨hn, hd⟩
    have e : (if s = byte '-' then [s] else []) ++ d = (if decide (s = byte '-') = true then [byte '-'] else []) ++ d := by
      by_cases hs : s = byte '-' <;> simp [hs]
    rw [e, hcast]
    refine ⟨_, rfl, ?_⟩
    rw [Rat.num_intCast]
    unfold IsInt INT_MIN INT_MAX
    rcases h with ⟨hs, h⟩ | ⟨-, h⟩
    · simp only [hs, decide_true, if_true]; omega
    · split <;> omega

theorem parseNumber_plain {t : Str} (hp : Plain t) (hx : SoundExponents t) {off : Nat} {c : Byte} (hs : Sync t off)
    (hc : strAt (t ++ guard) off = .ok c) (hd : isDigit c = true ∨ c = byte '-') :
    parseNumber (t ++ guard) off ≠ .ub ∧
      ∀ v o, parseNumber (t ++ guard) off = .ok (v, o) → o ≤ t.length + 3 ∧ Sync t o := by
  have hc3 : c ≠ 32 ∧ c ≠ 34 ∧ c ≠ 0 := by refine ⟨?_, ?_, ?_⟩ <;> rintro rfl <;> revert hd <;> decide
  have hlt := (guard_lt hc hc3.1 hc3.2.1 hc3.2.2).1
  have hnum : ∀ r, numGo (t ++ guard) ((t ++ guard).length + 2) off [] false = .ok r →
      ∃ p, r.2.2.2 = p + 1 ∧ off < p ∧ p ≤ t.length ∧ r.1 ≠ [] ∧ strAt (t ++ guard) p = .ok r.2.2.1 ∧
        (∃ x, strAt (t ++ guard) (p - 1 : Nat) = .ok x ∧ NumChar x) ∧ ∀ q, off ≤ q → q ≤ p → Sync t q := by
    intro r hr
    obtain ⟨p, h1, h2, h3, h4, h5⟩ := numGo_end hr
    have hf := numGo_first hc hd hr
    refine ⟨p, h1, by omega, ?_, hf.2, h3, h5 (p - 1) (by omega) (by omega), sync_run hs fun i g1 g2 => ?_⟩
    · by_contra hn
      obtain ⟨c', hc', hn'⟩ := h5 t.length (by omega) (by omega)
      rw [(guard_at t).1] at hc'
      cases hc'
      revert hn'; decide
    · obtain ⟨c', hc', hn'⟩ := h5 i g1 g2
      exact ⟨c', hc', by rintro rfl; revert hn'; decide⟩
  have hexp : ∀ p c', off < p → p ≤ t.length → strAt (t ++ guard) p = .ok c' → (c' = byte 'E' ∨ c' = byte 'e') →
      (∃ x, strAt (t ++ guard) (p - 1 : Nat) = .ok x ∧ NumChar x) → Sync t (p - 1) → p < t.length ∧
      (p + 1 = t.length ∨ ∃ s d r, At t (p + 1) (s :: (d ++ r)) ∧ s ≠ 34 ∧ (∀ c ∈ d, 48 ≤ c ∧ c ≤ 57) ∧
        (∀ c ∈ r.head?, ¬ (48 ≤ c ∧ c ≤ 57)) ∧ (IntExponent s d ∨ ∃ c ∈ r.head?, ¬ EndChar c)) := by
    intro p c' hpo hp' hc' he ⟨x, hxx, hn⟩ hsy
    have h3 : c' ≠ 32 ∧ c' ≠ 34 ∧ c' ≠ 0 := by refine ⟨?_, ?_, ?_⟩ <;> rintro rfl <;> revert he <;> decide
    obtain ⟨hpl, hpe, -⟩ := guard_lt hc' h3.1 h3.2.1 h3.2.2
    refine ⟨hpl, ?_⟩
    rw [strAt_lt _ (by omega)] at hxx
    rw [strAt_ok hpl] at hpe
    rw [strAt_ok (by omega)] at hxx
    injection hpe with hpe
    injection hxx with hxx
    simp only [List.getD, List.getElem?_eq_getElem hpl, Option.getD_some] at hpe
    simp only [List.getD, List.getElem?_eq_getElem (show p - 1 < t.length by omega), Option.getD_some] at hxx
    have e1 : t.drop p = c' :: t.drop (p + 1) := by rw [List.drop_eq_getElem_cons hpl, hpe]
    have e2 : t.drop (p - 1) = x :: c' :: t.drop (p + 1) := by
      rw [List.drop_eq_getElem_cons (show p - 1 < t.length by omega), hxx, show p - 1 + 1 = p by omega, e1]
    rcases hx (t.take (p - 1)) x c' (t.drop (p + 1)) (by rw [← e2, List.take_append_drop]) (hsy (by omega)) hn he.symm
      with h1 | ⟨s, d, r, h1, h2⟩
    · have := congrArg List.length h1
      rw [List.length_drop, List.length_nil] at this
      exact .inl (by omega)
    · exact .inr ⟨s, d, r, ⟨by omega, h1⟩, h2⟩
  -- the exponent
  have hpart : ∀ p c', off < p → p ≤ t.length → strAt (t ++ guard) p = .ok c' → (c' = byte 'E' ∨ c' = byte 'e') →
      (∃ x, strAt (t ++ guard) (p - 1 : Nat) = .ok x ∧ NumChar x) → (∀ q, off ≤ q → q ≤ p → Sync t q) →
      ∀ s, strAt (t ++ guard) (p + 1 : Nat) = .ok s →
      expGo (t ++ guard) ((t ++ guard).length + 2) (p + 1 + 1) (if s = byte '-' then [s] else []) ≠ .ub ∧
      ∀ y, expGo (t ++ guard) ((t ++ guard).length + 2) (p + 1 + 1) (if s = byte '-' then [s] else []) = .ok y →
        (∃ q, castDouble y.1 = .ok q ∧ IsInt q.num) ∧ y.2.2 ≤ t.length ∧ p + 2 ≤ y.2.2 ∧
          Sync t y.2.2 ∧ Sync t (y.2.2 - 1) := by
    intro p c' h2 h3 h5 he h6 h7 s hs1
    obtain ⟨hpl, h⟩ := hexp p c' h2 h3 h5 he h6 (h7 _ (by omega) (by omega))
    have hsp : Sync t (p + 1) := sync_step (h7 p (by omega) le_rfl) h5 (by rcases he with rfl | rfl <;> decide)
    rcases h with h | ⟨s', d, r, e1, e2, e3, e4, e5⟩
    · rw [h, (guard_at t).1] at hs1
      cases hs1
      rw [h]
      unfold expGo
      rw [(guard_at t).2.1]
      simp only [Out.ok_bind]
      rw [if_neg (by decide)]
      have : notEnd 34 = .ok true := by decide
      rw [this]
      simp
    · have hl := e1.len
      simp only [List.length_cons, List.length_append] at hl
      have hs2 : strAt (t ++ guard) (p + 1 : Nat) = .ok s' := by rw [strAt_lt _ (by omega), e1.cons.1]
      rw [hs2] at hs1
      injection hs1 with hs1
      subst hs1
      have key := expGo_plain hp d (f := (t ++ guard).length + 2) (e := if s' = byte '-' then [s'] else []) e1.cons.2
        (sync_step hsp hs2 e2) e3 e4
      refine ⟨key.1, fun y hy => ?_⟩
      obtain ⟨k1, k2, k3, k4, k5⟩ := key.2 y hy
      rcases e5 with e5 | ⟨c1, hc1, hc2⟩
      · obtain ⟨q, hq, hi⟩ := castDouble_sound e3 e5
        refine ⟨⟨q, by rw [k1, hq], hi⟩, k3, by omega, k4 _ (by omega) (by omega), ?_⟩
        by_cases hd0 : d.length = 0
        · rw [k2, hd0]; exact hsp
        · exact k4 _ (by omega) (by omega)
      · exact absurd (k5 c1 hc1) hc2
  unfold parseNumber
  constructor
  · refine nub_bind (numGo_nub (by omega)) fun r hr => ?_
    obtain ⟨p, h1, h2, h3, h4, h5, h6, h7⟩ := hnum r hr
    refine nub_bind ?_ fun r' hr' => ?_
    · split
      · rename_i he
        split
        · simp
        · rw [h1]
          refine nub_bind (guard_nub (by omega)) fun s hs1 => ?_
          obtain ⟨k1, k2⟩ := hpart p _ h2 h3 h5 he h6 h7 s hs1
          refine nub_bind k1 fun y hy => ?_
          obtain ⟨⟨q, hq, hi⟩, -⟩ := k2 y hy
          dsimp only
          rw [hq]
          simp only [Out.ok_bind]
          rw [int_ok hi]
          simp
      · refine nub_bind (notEnd_nub (plain_ascii hp (h7 p (by omega) le_rfl) h5)) fun b _ => ?_
        split <;> simp
    · dsimp only
      split
      · exact nub_bind (castDouble_nub h4) (by simp)
      · exact nub_bind (castInt_nub h4) (by simp)
  · intro v o h
    obtain ⟨⟨a, b, c1, o1⟩, hr, h⟩ := Out.bind_eq_ok.1 h
    obtain ⟨⟨a', b', c', o2⟩, hr', h⟩ := Out.bind_eq_ok.1 h
    obtain ⟨p, h1, h2, h3, h4, h5, h6, h7⟩ := hnum _ hr
    have h8 : o2 ≤ t.length + 1 ∧ (c' = 0 → Sync t o2) ∧ Sync t (o2 - 1) := by
      dsimp only at hr' h1 h5
      split at hr'
      · rename_i he
        split at hr'
        · cases hr'
        · obtain ⟨s, hs1, hr'⟩ := Out.bind_eq_ok.1 hr'
          obtain ⟨⟨e1, e2, e3⟩, he1, hr'⟩ := Out.bind_eq_ok.1 hr'
          obtain ⟨q, -, hr'⟩ := Out.bind_eq_ok.1 hr'
          obtain ⟨i, -, hr'⟩ := Out.bind_eq_ok.1 hr'
          cases hr'
          rw [h1] at he1 hs1
          obtain ⟨-, k1, k2, k3, k4⟩ := (hpart p _ h2 h3 h5 he h6 h7 s hs1).2 _ he1
          exact ⟨show e3 ≤ t.length + 1 by dsimp only at k1; omega, fun _ => k3, k4⟩
      · obtain ⟨b, -, hr'⟩ := Out.bind_eq_ok.1 hr'
        split at hr'
        · cases hr'
        · cases hr'
          refine ⟨by omega, fun h0 => ?_, ?_⟩
          · rw [h1]
            exact sync_step (h7 p (by omega) le_rfl) h5 (by rw [h0]; decide)
          · rw [h1]
            exact h7 p (by omega) le_rfl
    dsimp only at h
    have fin : (if c' ≠ 0 then o2 - 1 else o2) ≤ t.length + 3 ∧ Sync t (if c' ≠ 0 then o2 - 1 else o2) := by
      by_cases h0 : c' = 0
      · rw [if_neg (by simpa using h0)]
        exact ⟨by omega, h8.2.1 h0⟩
      · rw [if_pos h0]
        exact ⟨by omega, h8.2.2⟩
    split at h
    · obtain ⟨q, -, h⟩ := Out.bind_eq_ok.1 h
      cases h
      exact fin
    · obtain ⟨i, hi, h⟩ := Out.bind_eq_ok.1 h
      cases h
      exact fin

/-- a word without quotes is passed outside strings -/
theorem sync_word {t w : Str} {off : Nat} (hs : Sync t off) (h : ((t ++ guard).drop off).take w.length = w)
    (hq : (34 : Byte) ∉ w) (hw : w ≠ []) : Sync t (off + w.length) := by
  have hl := take_len h hw
  refine sync_run (p := off + w.length) hs (fun i h1 h2 => ?_) _ (by omega) le_rfl
  have hi : i < (t ++ guard).length := by omega
  refine ⟨(t ++ guard).getD i 0, by rw [strAt_ok hi], fun hc => hq ?_⟩
  rw [← h]
  have : ((t ++ guard).drop off).take w.length = ((t ++ guard).drop off).take w.length := rfl
  rw [List.mem_iff_getElem?]
  refine ⟨i - off, ?_⟩
  rw [List.getElem?_take_of_lt (by omega), List.getElem?_drop, show off + (i - off) = i by omega]
  rw [List.getD_eq_getElem?_getD, List.getElem?_eq_getElem hi, Option.getD_some] at hc
  rw [List.getElem?_eq_getElem hi, hc]

/-- a guarded text is read without undefined behaviour -/
theorem parse_plain {t : Str} (hp : Plain t) (hx : SoundExponents t) : ∀ f : Nat,
    (∀ off, off ≤ t.length + 1 → Sync t off → parseNext (t ++ guard) f off ≠ .ub ∧
      ∀ v o, parseNext (t ++ guard) f off = .ok (v, o) → o ≤ t.length + 3 ∧ Sync t o) ∧
    (∀ off, off ≤ t.length + 1 → Sync t off → arrLoop (t ++ guard) f off ≠ .ub ∧
      ∀ v o, arrLoop (t ++ guard) f off = .ok (v, o) → o ≤ t.length + 3 ∧ Sync t o) ∧
    (∀ off m, off ≤ t.length + 1 → Sync t off → objLoop (t ++ guard) f off m ≠ .ub ∧
      ∀ v o, objLoop (t ++ guard) f off m = .ok (v, o) → o ≤ t.length + 3 ∧ Sync t o) := by
  have hskip : ∀ {off}, off ≤ t.length + 3 → Sync t off → skip (t ++ guard) off ≠ .ub := fun h hs => (skip_plain hp h hs).1
  have hsk : ∀ {off o}, off ≤ t.length + 3 → Sync t off → skip (t ++ guard) off = .ok o → Sync t o :=
    fun h hs => (skip_plain hp h hs).2 _
  intro f
  induction f with
  | zero =>
    refine ⟨fun off h _ => ?_, fun off h _ => ?_, fun off m h _ => ?_⟩
    · simp [parseNext]
    · simp [arrLoop]
    · simp [objLoop]
  | succ f ih =>
    obtain ⟨ih1, ih2, ih3⟩ := ih
    refine ⟨fun off ho hs => ⟨?_, fun v o h => ?_⟩, fun off ho hs => ⟨?_, fun l o h => ?_⟩,
      fun off m ho hs => ⟨?_, fun m' o h => ?_⟩⟩
    · unfold parseNext
      refine nub_bind (hskip (by omega) hs) fun o1 h1 => ?_
      have l1 := (skip_guard h1).2.2 ho
      have s1 := hsk (by omega) hs h1
      refine nub_bind (guard_nub (by omega)) fun c hc => ?_
      split
      · rename_i hb
        subst hb
        have hlt := (guard_lt hc (by decide) (by decide) (by decide)).1
        have s1' := sync_step s1 hc (by decide)
        refine nub_bind (hskip (by omega) s1') fun o2 h2 => ?_
        have l2 := (skip_guard h2).2.2 (by omega)
        refine nub_bind (guard_nub (by omega)) fun c2 hc2 => ?_
        split
        · simp
        · exact nub_bind (ih2 _ (by omega) (hsk (by omega) s1' h2)).1 (by simp)
      · split
        · rename_i hb
          subst hb
          have hlt := (guard_lt hc (by decide) (by decide) (by decide)).1
          have s1' := sync_step s1 hc (by decide)
          refine nub_bind (hskip (by omega) s1') fun o2 h2 => ?_
          have l2 := (skip_guard h2).2.2 (by omega)
          refine nub_bind (guard_nub (by omega)) fun c2 hc2 => ?_
          split
          · simp
          · exact nub_bind (ih3 _ _ (by omega) (hsk (by omega) s1' h2)).1 (by simp)
        · split
          · rename_i hq
            subst hq
            exact (parseString_plain (by omega) s1 hc).1
          · split
            · unfold parseBool
              split
              · simp
              · split <;> simp
            · split
              · unfold parseNull
                split <;> simp
              · split
                · rename_i hd
                  exact (parseNumber_plain hp hx s1 hc hd).1
                · simp
    · unfold parseNext at h
      obtain ⟨o1, h1, h⟩ := Out.bind_eq_ok.1 h
      obtain ⟨c, hc, h⟩ := Out.bind_eq_ok.1 h
      have l1 := (skip_guard h1).2.2 ho
      have s1 := hsk (by omega) hs h1
      have gl := guard_length t
      split at h
      · rename_i hb
        subst hb
        have hlt := (guard_lt hc (by decide) (by decide) (by decide)).1
        have s1' := sync_step s1 hc (by decide)
        obtain ⟨o2, h2, h⟩ := Out.bind_eq_ok.1 h
        obtain ⟨c2, hc2, h⟩ := Out.bind_eq_ok.1 h
        have l2 := (skip_guard h2).2.2 (by omega)
        have s2 := hsk (by omega) s1' h2
        split at h
        · rename_i hb
          cases h
          exact ⟨by omega, sync_step s2 hc2 (by rw [hb]; decide)⟩
        · obtain ⟨r, hr, h⟩ := Out.bind_eq_ok.1 h
          cases h
          exact (ih2 _ (by omega) s2).2 r.1 r.2 hr
      · split at h
        · rename_i hb
          subst hb
          have hlt := (guard_lt hc (by decide) (by decide) (by decide)).1
          have s1' := sync_step s1 hc (by decide)
          obtain ⟨o2, h2, h⟩ := Out.bind_eq_ok.1 h
          obtain ⟨c2, hc2, h⟩ := Out.bind_eq_ok.1 h
          have l2 := (skip_guard h2).2.2 (by omega)
          have s2 := hsk (by omega) s1' h2
          split at h
          · rename_i hb
            cases h
            exact ⟨by omega, sync_step s2 hc2 (by rw [hb]; decide)⟩
          · obtain ⟨r, hr, h⟩ := Out.bind_eq_ok.1 h
            cases h
            exact (ih3 _ _ (by omega) s2).2 r.1 r.2 hr
        · split at h
          · rename_i hq
            subst hq
            exact (parseString_plain (by omega) s1 hc).2 _ _ h
          · split at h
            · unfold parseBool at h
              split at h
              · rename_i hb
                cases h
                have := take_len (w := bytes ['t', 'r', 'u', 'e']) hb (by decide)
                rw [gl] at this
                exact ⟨this, sync_word (w := bytes ['t', 'r', 'u', 'e']) s1 hb (by decide) (by decide)⟩
              · split at h
                · rename_i hb
                  cases h
                  have := take_len (w := bytes ['f', 'a', 'l', 's', 'e']) hb (by decide)
                  rw [gl] at this
                  exact ⟨this, sync_word (w := bytes ['f', 'a', 'l', 's', 'e']) s1 hb (by decide) (by decide)⟩
                · cases h
            · split at h
              · unfold parseNull at h
                split at h
                · rename_i hb
                  cases h
                  have := take_len (w := bytes ['n', 'u', 'l', 'l']) hb (by decide)
                  rw [gl] at this
                  exact ⟨this, sync_word (w := bytes ['n', 'u', 'l', 'l']) s1 hb (by decide) (by decide)⟩
                · cases h
              · split at h
                · rename_i hd
                  exact (parseNumber_plain hp hx s1 hc hd).2 _ _ h
                · cases h
    · unfold arrLoop
      refine nub_bind (ih1 _ ho hs).1 fun r hr => ?_
      obtain ⟨l1, s1⟩ := (ih1 _ ho hs).2 r.1 r.2 hr
      refine nub_bind (hskip l1 s1) fun o2 h2 => ?_
      have l2 := (skip_guard h2).2.1
      have s2 := hsk l1 s1 h2
      refine nub_bind (guard_nub l2) fun c hc => ?_
      split
      · rename_i hb
        subst hb
        have hlt := (guard_lt hc (by decide) (by decide) (by decide)).1
        exact nub_bind (ih2 _ (by omega) (sync_step s2 hc (by decide))).1 (by simp)
      · split <;> simp
    · unfold arrLoop at h
      obtain ⟨r, h1, h⟩ := Out.bind_eq_ok.1 h
      obtain ⟨l1, s1⟩ := (ih1 _ ho hs).2 r.1 r.2 h1
      obtain ⟨o2, h2, h⟩ := Out.bind_eq_ok.1 h
      have s2 := hsk l1 s1 h2
      obtain ⟨c, hc, h⟩ := Out.bind_eq_ok.1 h
      split at h
      · rename_i hb
        subst hb
        have hlt := (guard_lt hc (by decide) (by decide) (by decide)).1
        obtain ⟨r', hr', h⟩ := Out.bind_eq_ok.1 h
        cases h
        exact (ih2 _ (by omega) (sync_step s2 hc (by decide))).2 r'.1 r'.2 hr'
      · split at h
        · rename_i hb
          subst hb
          have hlt := (guard_lt hc (by decide) (by decide) (by decide)).1
          cases h
          exact ⟨by omega, sync_step s2 hc (by decide)⟩
        · cases h
    · unfold objLoop
      refine nub_bind (ih1 _ ho hs).1 fun r hr => ?_
      obtain ⟨l1, s1⟩ := (ih1 _ ho hs).2 r.1 r.2 hr
      refine nub_bind (hskip l1 s1) fun o2 h2 => ?_
      have l2 := (skip_guard h2).2.1
      have s2 := hsk l1 s1 h2
      refine nub_bind (guard_nub l2) fun c hc => ?_
      split
      · simp
      · rename_i hb
        have hb : c = byte ':' := by simpa using hb
        subst hb
        have hlt := (guard_lt hc (by decide) (by decide) (by decide)).1
        have s2' := sync_step s2 hc (by decide)
        refine nub_bind (hskip (by omega) s2') fun o3 h3 => ?_
        have l3 := (skip_guard h3).2.2 (by omega)
        have s3 := hsk (by omega) s2' h3
        refine nub_bind (ih1 _ l3 s3).1 fun r4 h4 => ?_
        obtain ⟨l4, s4⟩ := (ih1 _ l3 s3).2 r4.1 r4.2 h4
        refine nub_bind (hskip l4 s4) fun o5 h5 => ?_
        have l5 := (skip_guard h5).2.1
        refine nub_bind (guard_nub l5) fun c6 hc6 => ?_
        split
        · rename_i hb
          subst hb
          have hlt := (guard_lt hc6 (by decide) (by decide) (by decide)).1
          exact (ih3 _ _ (by omega) (sync_step (hsk l4 s4 h5) hc6 (by decide))).1
        · split <;> simp
    · unfold objLoop at h
      obtain ⟨r, h1, h⟩ := Out.bind_eq_ok.1 h
      obtain ⟨l1, s1⟩ := (ih1 _ ho hs).2 r.1 r.2 h1
      obtain ⟨o2, h2, h⟩ := Out.bind_eq_ok.1 h
      have s2 := hsk l1 s1 h2
      obtain ⟨c, hc, h⟩ := Out.bind_eq_ok.1 h
      split at h
      · cases h
      · rename_i hb
        have hb : c = byte ':' := by simpa using hb
        subst hb
        have hlt := (guard_lt hc (by decide) (by decide) (by decide)).1
        have s2' := sync_step s2 hc (by decide)
        obtain ⟨o3, h3, h⟩ := Out.bind_eq_ok.1 h
        have l3 := (skip_guard h3).2.2 (by omega)
        have s3 := hsk (by omega) s2' h3
        obtain ⟨r4, h4, h⟩ := Out.bind_eq_ok.1 h
        obtain ⟨l4, s4⟩ := (ih1 _ l3 s3).2 r4.1 r4.2 h4
        obtain ⟨o5, h5, h⟩ := Out.bind_eq_ok.1 h
        have s5 := hsk l4 s4 h5
        obtain ⟨c6, hc6, h⟩ := Out.bind_eq_ok.1 h
        split at h
        · rename_i hb
          subst hb
          have hlt := (guard_lt hc6 (by decide) (by decide) (by decide)).1
          exact (ih3 _ _ (by omega) (sync_step s5 hc6 (by decide))).2 _ _ h
        · split at h
          · rename_i hb
            subst hb
            have hlt := (guard_lt hc6 (by decide) (by decide) (by decide)).1
            cases h
            exact ⟨by omega, sync_step s5 hc6 (by decide)⟩
          · cases h

theorem load_guarded {t : Str} (hp : Plain t) (hx : SoundExponents t) : loadJSON (t ++ guard) ≠ .ub := by
  unfold loadJSON
  exact nub_bind ((parse_plain hp hx _).1 0 (by omega) (sync_zero t)).1 (by simp)

/-- an exponent which is no `int` is undefined behaviour -/
theorem castDouble_bad {s : Byte} {d : Str} (hd : ∀ c ∈ d, 48 ≤ c ∧ c ≤ 57) (h : ¬ IntExponent s d) :
    (castDouble ((if s = byte '-' then [s] else []) ++ d) >>= fun q => Cpp.int q.num) = .ub := by
  unfold IntExponent at h
  by_cases hn : d = []
  · subst hn
    have hs : s ≠ byte '-' := by
      rintro rfl
      exact h (.inl ⟨rfl, by decide⟩)
    rw [if_neg hs]
    rfl
  · have hcast := castDouble_int (sign := decide (s = byte '-')) (d := d) ⟨hn, hd⟩
    have e : (if s = byte '-' then [s] else []) ++ d = (if decide (s = byte '-') = true then [byte '-'] else []) ++ d := by
      by_cases hs : s = byte '-' <;> simp [hs]
    rw [e, hcast]
    simp only [Out.ok_bind]
    rw [Rat.num_intCast]
    unfold Cpp.int
    refine if_neg fun hi => h ?_
    unfold IsInt INT_MIN INT_MAX at hi
    by_cases hs : s = byte '-'
    · simp only [hs, decide_true, if_true] at hi
      exact .inl ⟨hs, by omega⟩
    · simp only [hs, decide_false, Bool.false_eq_true, if_false] at hi
      exact .inr ⟨hn, by omega⟩

theorem load_exp_ub {v d r : Str} {e s : Byte} (hv : Digits v) (he : e = byte 'e' ∨ e = byte 'E')
    (hd : ∀ c ∈ d, 48 ≤ c ∧ c ≤ 57) (hr : Delim r) (h : ¬ IntExponent s d) :
    loadJSON (v ++ e :: s :: (d ++ r)) = .ub := by
  obtain ⟨c, v', rfl⟩ : ∃ c v', v = c :: v' := by
    cases v with
    | nil => exact absurd rfl hv.1
    | cons c v' => exact ⟨c, v', rfl⟩
  obtain ⟨str, hstr⟩ : ∃ str, str = c :: v' ++ e :: s :: (d ++ r) := ⟨_, rfl⟩
  have ha : At str 0 (c :: v' ++ e :: s :: (d ++ r)) := by rw [hstr]; exact At.zero _
  rw [← hstr]
  have hl := ha.len
  simp at hl
  have hc := hv.2 c (by simp)
  unfold loadJSON
  unfold parseNext
  have hdig : isDigit c = true := (digit_iff c).2 hc
  rw [skip_nil ha (nonSp_start (.inr (.inr (.inr (.inr (.inr (.inr (.inl hdig))))))))]
  simp only [Out.ok_bind]
  rw [(At.cons (t := v' ++ e :: s :: (d ++ r)) ha).1]
  simp only [Out.ok_bind]
  have hne : ∀ x : Byte, isDigit x = false → c ≠ x := by rintro x hx rfl; rw [hdig] at hx; cases hx
  rw [if_neg (hne (byte '[') (by decide)), if_neg (hne (byte '{') (by decide)), if_neg (hne (byte '"') (by decide)),
    if_neg (not_or.2 ⟨hne (byte 't') (by decide), hne (byte 'f') (by decide)⟩), if_neg (hne (byte 'n') (by decide)),
    if_pos (.inl hdig)]
  unfold parseNumber
  rw [numGo_ok (c :: v') ha (fun x hx => .inr (.inr (hv.2 x hx)))
    (by intro x hx; simp at hx; subst hx; rcases he with rfl | rfl <;> decide) (by simp; omega)]
  simp only [Out.ok_bind, List.nil_append, Bool.false_or, List.head?_cons, Option.getD_some]
  rw [if_pos he.symm, if_neg (by simp; omega)]
  have ha2 := ha.append.cons.2
  rw [ha2.cons.1]
  simp only [Out.ok_bind]
  rw [expGo_ok d ha2.cons.2 hd hr (by omega)]
  simp only [Out.ok_bind]
  have hb := castDouble_bad hd h
  cases hq : castDouble ((if s = byte '-' then [s] else []) ++ d) with
  | ub => rfl
  | exit => rw [hq] at hb; cases hb
  | diverge => rw [hq] at hb; cases hb
  | ok q =>
    rw [hq] at hb
    simp only [Out.ok_bind] at hb ⊢
    rw [hb]
    rfl

/-! ## deciding the conditions for a given text -/

theorem plain_of {t : Str} (h : ∀ i : Fin t.length, place (t.take i) = .outside → t[i].toNat < 128) : Plain t := by
  rintro a c b rfl ha
  have := h ⟨a.length, by simp⟩ (by simpa using ha)
  simpa using this

/-- the condition on what follows `e` or `E` -/
def expOk : Str → Bool
  | [] => true
  | s :: b =>
    let d := b.takeWhile fun c => decide (48 ≤ c ∧ c ≤ 57)
    decide (s ≠ 34) && (decide ((s = byte '-' ∧ nat d ≤ 2147483648) ∨ (d ≠ [] ∧ nat d ≤ 2147483647)) ||
      match b.dropWhile fun c => decide (48 ≤ c ∧ c ≤ 57) with
      | [] => false
      | c :: _ => decide (¬ EndChar c))

theorem sound_of {t : Str} (h : ∀ i : Fin t.length, place (t.take i) = .outside → NumChar t[i] →
    (∃ e ∈ t[i.val + 1]?, e = byte 'e' ∨ e = byte 'E') → expOk (t.drop (i + 2)) = true) : SoundExponents t := by
  rintro a x e b rfl ha hx he
  have h1 : (a ++ x :: e :: b).drop (a.length + 2) = b := by simp
  have := h ⟨a.length, by simp⟩ (by simpa using ha) (by simpa using hx) ⟨e, by simp, he⟩
  dsimp only at this
  rw [h1] at this
  cases b with
  | nil => exact .inl rfl
  | cons s b =>
    right
    unfold expOk at this
    simp only [Bool.and_eq_true, Bool.or_eq_true, decide_eq_true_eq] at this
    refine ⟨s, b.takeWhile fun c => decide (48 ≤ c ∧ c ≤ 57), b.dropWhile fun c => decide (48 ≤ c ∧ c ≤ 57),
      by rw [List.takeWhile_append_dropWhile], this.1, fun c hc => by simpa using List.mem_takeWhile_imp hc, fun c hc => ?_, ?_⟩
    · have := List.head?_dropWhile_not (p := fun c : Byte => decide (48 ≤ c ∧ c ≤ 57)) b
      rw [hc] at this
      simpa using this
    · refine this.2.imp id fun h => ?_
      cases hd : b.dropWhile fun c => decide (48 ≤ c ∧ c ≤ 57) with
      | nil => rw [hd] at h; cases h
      | cons c r => rw [hd] at h; exact ⟨c, rfl, by simpa using h⟩

end Json

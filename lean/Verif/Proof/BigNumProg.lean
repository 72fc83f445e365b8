import Verif.Proof.BigNumText
import Verif.Spec.BigNumProg
import Mathlib.Data.List.Induction

/-! # Helper lemmas for programs with big numbers -/

namespace BigNum
open Cpp Spec

theorem num_pos {c : Byte} {s : Str} (h : IsDigit c) (h0 : c ≠ 48) : 0 < num (c :: s) := by
  have h1 : 48 ≤ c.toNat := UInt8.le_iff_toNat_le.1 h.1
  have h2 : c.toNat ≠ 48 := fun e => h0 (UInt8.toNat_inj.1 e)
  unfold num
  have : 0 < (c.toNat - 48) * 10 ^ s.length := Nat.mul_pos (by omega) (by positivity)
  omega

/-- the text of the number a digit string without leading zero denotes is the string -/
theorem dec_num (s : Str) : (∀ c ∈ s, IsDigit c) → (∀ c ∈ s.head?, c ≠ 48) → decimalDigits (num s) = s := by
  induction s using List.reverseRecOn with
  | nil => intro _ _; exact decimalDigits_zero
  | append_singleton s c ih =>
    intro h hd
    have hc := h c (by simp)
    have h1 : 48 ≤ c.toNat := UInt8.le_iff_toNat_le.1 hc.1
    have h2 : c.toNat ≤ 57 := UInt8.le_iff_toNat_le.1 hc.2
    have e : num (s ++ [c]) = num s * 10 + (c.toNat - 48) := by rw [num_append]; simp [num]
    have ih' := ih (fun x hx => h x (by simp [hx])) (by
      intro x hx
      apply hd
      cases s with
      | nil => simp at hx
      | cons a s => simpa using hx)
    have hne : num (s ++ [c]) ≠ 0 := by
      cases s with
      | nil =>
        have := num_pos (s := []) hc (hd c (by simp))
        simpa using this.ne'
      | cons a s =>
        have := num_pos (s := s ++ [c]) (h a (by simp)) (hd a (by simp))
        exact this.ne'
    rw [decimalDigits_pos hne, e, show (num s * 10 + (c.toNat - 48)) / 10 = num s by omega,
      show (num s * 10 + (c.toNat - 48)) % 10 = c.toNat - 48 by omega, ih', show 48 + (c.toNat - 48) = c.toNat by omega]
    simp

theorem text_dec {N : Nat} {b : Big} (h : Valid N b) : text (digit b) b.len = decimalDigits (mag b).toNat := by
  have e : mag b = num (text (digit b) b.len) := horner_text fun k hk => (h.digits k hk).2
  rw [e, Int.toNat_natCast]
  refine (dec_num _ ?_ ?_).symm
  · have key : ∀ n, n ≤ b.len → ∀ c ∈ text (digit b) n, IsDigit c := by
      intro n
      induction n with
      | zero => intro _ c hc; simp [text] at hc
      | succ n ih =>
        intro hn c hc
        simp only [text, List.mem_cons] at hc
        rcases hc with rfl | hc
        · have := (h.digits n (by omega)).2
          exact isDigit_ofNat (by omega)
        · exact ih (by omega) c hc
    exact key _ le_rfl
  · intro c hc
    cases hl : b.len with
    | zero => rw [hl] at hc; simp [text] at hc
    | succ n =>
      rw [hl] at hc
      simp only [text, List.head?_cons, Option.mem_def, Option.some.injEq] at hc
      subst hc
      have h1 := h.top (by omega)
      rw [hl, Nat.add_sub_cancel] at h1
      have h2 := (h.digits n (by omega)).2
      intro e
      have := congrArg UInt8.toNat e
      rw [digit_toNat (by omega)] at this
      have h48 : (48 : UInt8).toNat = 48 := rfl
      omega

theorem len_places {N : Nat} {b : Big} (h : Valid N b) : b.len = places (val b) := by
  have := congrArg List.length (text_dec h)
  rw [text_length] at this
  rw [this]
  unfold places
  congr 2
  rw [val_eq]
  have := mag_nonneg h
  rcases h.sign with s | s <;> rw [s] <;> omega

/-- a variable holds a non-negative integer and nothing else -/
structure Holds (N : Nat) (b : Big) (x : Int) : Prop where
  clean : Clean N b
  sign : b.sign = 1
  val : val b = x

theorem Holds.mag {N : Nat} {b : Big} {x : Int} (h : Holds N b x) : mag b = x := by
  rw [← h.val, val_eq, h.sign, one_mul]

theorem Holds.nonneg {N : Nat} {b : Big} {x : Int} (h : Holds N b x) : 0 ≤ x := h.mag ▸ mag_nonneg h.clean.toValid

theorem Holds.len {N : Nat} {b : Big} {x : Int} (h : Holds N b x) : b.len = places x := h.val ▸ len_places h.clean.toValid

theorem Holds.zero (N : Nat) : Holds N (zero N) 0 := ⟨zero_clean N, rfl, rfl⟩

theorem Holds.toString {N : Nat} {b : Big} {x : Int} (h : Holds N b x) (h0 : x ≠ 0) : toString b = .ok (decimal x) := by
  have hv := h.clean
  have : BigNum.toString b = .ok ((if b.sign < 0 then [byte '-'] else []) ++ text (digit b) b.len) := by
    unfold BigNum.toString
    rw [toStringLoop_eq b b.len fun k hk => ⟨valid_get hv.toValid hk, (hv.digits k hk).2⟩, Out.ok_bind]
  rw [this, text_dec hv.toValid, h.mag, h.sign, if_neg (by decide), decimal, if_neg h0, if_neg (by have := h.nonneg; omega),
    List.nil_append, show x.toNat = x.natAbs by have := h.nonneg; omega]

theorem Holds.assign {N : Nat} {d s : Big} {x y : Int} (hd : Holds N d x) (hs : Holds N s y) (h : places x ≤ places y) :
    Holds N (assign d s) y := by
  obtain ⟨h1, h2, h3, -⟩ := assign_clean hd.clean hs.clean (by rw [hd.len, hs.len]; exact h)
  exact ⟨h1, h3.trans hs.sign, by rw [val_eq, h2, h3, hs.sign, hs.mag, one_mul]⟩

theorem holds_ofInt {N : Nat} {k : Int} (h0 : 0 ≤ k) (h : places k ≤ N) : ∃ b, ofInt N k = .ok b ∧ Holds N b k := by
  unfold ofInt
  rw [if_neg (by unfold INT64_MIN; omega)]
  obtain ⟨r, c, e, hb, hs, ht⟩ := ofIntLoop_spec k.natAbs _ _
    (build_zero N (if k < 0 then -1 else 1)) (by simpa [zero, places] using h)
  have ht' : text c r.len = decimalDigits k.natAbs := by rw [ht]; simp [zero, text]
  have hs' : r.sign = 1 := by rw [hs]; exact if_neg (by omega)
  obtain ⟨hc, hm⟩ := build_clean hb (.inl hs') _ ht'
  exact ⟨r, e, hc, hs', by rw [val_eq, hm, hs']; omega⟩

theorem holds_plusRaw {N fuel : Nat} {a b : Big} {x y : Int} (ha : Holds N a x) (hb : Holds N b y) (h1 : places x < N)
    (h2 : places y < N) : ∃ r, plusRaw N fuel a b = .ok r ∧ Holds N r (x + y) := by
  obtain ⟨r, e, hc, hm, hs⟩ := add_spec ha.clean hb.clean (by rw [ha.len, hb.len]; omega)
  refine ⟨r, ?_, hc, hs.trans ha.sign, ?_⟩
  · unfold plusRaw
    rw [if_pos (by rw [ha.sign, hb.sign]), e]
  · rw [val_eq, hm, hs, ha.sign, ha.mag, hb.mag, one_mul]

theorem holds_minusRaw {N fuel : Nat} {a b : Big} {x y : Int} (ha : Holds N a x) (hb : Holds N b y) (h : 0 ≤ x - y) :
    ∃ r, minusRaw N (fuel + 2) a b = .ok r ∧ Holds N r (x - y) := by
  obtain ⟨r, e, hc, hv, hs⟩ := sub_mixed (fuel := fuel + 1) ha.clean hb.clean ha.sign (by rw [ha.mag, hb.mag]; omega)
  refine ⟨r, ?_, hc, hs, by rw [hv, ha.mag, hb.mag]⟩
  unfold minusRaw
  rw [if_pos (by rw [ha.sign, hb.sign]), if_neg (by rw [ha.sign]; decide), e]

theorem holds_mul {N : Nat} {a b : Big} {x y : Int} (ha : Holds N a x) (hb : Holds N b y) (h : places x + places y ≤ N)
    (hN : N ≤ 20000000) : ∃ r, mul N a b = .ok r ∧ Holds N r (x * y) := by
  obtain ⟨r, e, hc, hm, hs, hz⟩ := mul_spec ha.clean.toValid hb.clean.toValid hN (by rw [ha.len, hb.len]; exact h)
  have hs' : r.sign = 1 := by
    rcases hs with h | h
    · exact h.trans ha.sign
    · exact h.2
  exact ⟨r, e, hc, hs', by rw [val_eq, hm, hs', ha.mag, hb.mag, one_mul]⟩

theorem places_zero : places 0 = 0 := by unfold places; rw [show (0 : Int).natAbs = 0 from rfl, decimalDigits_zero]; rfl

theorem places_one : places 1 = 1 := by decide +kernel

theorem put_holds {N : Nat} {st : Vars} {σ : Nat → Int} (h : ∀ x, Holds N (st x) (σ x)) {x : Nat} {v : Out Big} {k : Int}
    (hv : ∃ b, v = .ok b ∧ Holds N b k) :
    ∃ st', st.put x v = .ok st' ∧ ∀ y, Holds N (st' y) (Function.update σ x k y) := by
  obtain ⟨b, rfl, hb⟩ := hv
  refine ⟨Function.update st x b, rfl, fun y => ?_⟩
  by_cases e : y = x
  · subst e; simpa using hb
  · simpa [Function.update_of_ne e] using h y

theorem exec_holds {N fuel : Nat} {st : Vars} {σ : Nat → Int} (h : ∀ x, Holds N (st x) (σ x)) (s : Stmt)
    (h0 : 0 ≤ result σ s) (hr : Room N σ s) (hg : Grows σ s) :
    ∃ st', exec N (fuel + 2) st s = .ok st' ∧ ∀ y, Holds N (st' y) (eval σ s y) := by
  cases s with
  | decl x k => exact put_holds h (holds_ofInt hr.1 hr.2)
  | assign x y => exact put_holds h ⟨_, if_neg (fun e => hr e.1), (h x).assign (h y) hg⟩
  | plus x y z =>
    obtain ⟨r, e, hp⟩ := holds_plusRaw (fuel := fuel + 2) (h y) (h z) hr.1 hr.2
    refine put_holds h ⟨assign (st x) (assign (zero N) r), ?_, (h x).assign ((Holds.zero N).assign hp ?_) hg⟩
    · unfold plus; rw [e]; rfl
    · rw [places_zero]; exact Nat.zero_le _
  | minus x y z =>
    obtain ⟨r, e, hp⟩ := holds_minusRaw (fuel := fuel) (h y) (h z) h0
    refine put_holds h ⟨assign (st x) (assign (zero N) r), ?_, (h x).assign ((Holds.zero N).assign hp ?_) hg⟩
    · unfold minus; rw [e]; rfl
    · rw [places_zero]; exact Nat.zero_le _
  | times x y z =>
    obtain ⟨r, e, hp⟩ := holds_mul (h y) (h z) hr.1 hr.2
    refine put_holds h ⟨assign (st x) r, ?_, (h x).assign hp hg⟩
    unfold times; rw [e]; rfl
  | plusEq x y =>
    obtain ⟨r, e, hp⟩ := holds_plusRaw (fuel := fuel + 2) (h x) (h y) hr.1 hr.2
    refine put_holds h ⟨assign (st x) r, ?_, (h x).assign hp hg⟩
    unfold plusAssign; rw [e]; rfl
  | minusEq x y =>
    obtain ⟨r, e, hp⟩ := holds_minusRaw (fuel := fuel) (h x) (h y) h0
    refine put_holds h ⟨assign (st x) r, ?_, (h x).assign hp hg⟩
    unfold minusAssign; rw [e]; rfl
  | plusEqInt x k =>
    obtain ⟨b, eb, hb⟩ := holds_ofInt hr.1 hr.2.2.le
    obtain ⟨r, e, hp⟩ := holds_plusRaw (fuel := fuel + 2) (h x) hb hr.2.1 hr.2.2
    refine put_holds h ⟨assign (st x) r, ?_, (h x).assign hp hg⟩
    unfold plusAssignInt plusAssign; rw [eb, Out.ok_bind, e]; rfl
  | minusEqInt x k =>
    obtain ⟨b, eb, hb⟩ := holds_ofInt hr.1 hr.2.2.le
    obtain ⟨r, e, hp⟩ := holds_minusRaw (fuel := fuel) (h x) hb h0
    refine put_holds h ⟨assign (st x) r, ?_, (h x).assign hp hg⟩
    unfold minusAssignInt minusAssign; rw [eb, Out.ok_bind, e]; rfl
  | timesEqInt x k =>
    obtain ⟨b, eb, hb⟩ := holds_ofInt (N := N) hr.1 (by have := hr.2.1; omega)
    obtain ⟨r, e, hp⟩ := holds_mul (h x) hb hr.2.1 hr.2.2
    refine put_holds h ⟨assign (st x) r, ?_, (h x).assign hp hg⟩
    unfold timesAssignInt; rw [eb, Out.ok_bind, e]; rfl
  | inc x =>
    obtain ⟨b, eb, hb⟩ := holds_ofInt (N := N) (k := 1) (by norm_num) (by rw [places_one]; exact hr.2.le)
    obtain ⟨r, e, hp⟩ := holds_plusRaw (fuel := fuel + 2) (h x) hb hr.1 (by rw [places_one]; exact hr.2)
    refine put_holds h ⟨assign (st x) r, ?_, (h x).assign hp hg⟩
    unfold inc plusAssignInt plusAssign; rw [eb, Out.ok_bind, e]; rfl
  | dec x =>
    obtain ⟨b, eb, hb⟩ := holds_ofInt (N := N) (k := 1) (by norm_num) (by rw [places_one]; exact hr.2.le)
    obtain ⟨r, e, hp⟩ := holds_minusRaw (fuel := fuel) (h x) hb h0
    refine put_holds h ⟨assign (st x) r, ?_, (h x).assign hp hg⟩
    unfold dec minusAssignInt minusAssign; rw [eb, Out.ok_bind, e]; rfl

theorem execs_holds {N fuel : Nat} (p : List Stmt) : ∀ {st : Vars} {σ : Nat → Int}, (∀ x, Holds N (st x) (σ x)) → Fits N σ p →
    Growing σ p → ∃ st', execs N (fuel + 2) st p = .ok st' ∧ ∀ y, Holds N (st' y) (evals σ p y) := by
  induction p with
  | nil => intro st σ h _ _; exact ⟨st, rfl, h⟩
  | cons s p ih =>
    intro st σ h hf hg
    obtain ⟨st1, e1, h1⟩ := exec_holds (fuel := fuel) h s hf.1.1 hf.1.2 hg.1
    obtain ⟨st2, e2, h2⟩ := ih h1 hf.2 hg.2
    exact ⟨st2, by unfold execs; rw [e1]; exact e2, h2⟩

end BigNum

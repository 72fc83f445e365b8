import Verif.Spec.BigNumSignedProg
import Verif.Proof.BigNumSigned
import Verif.Proof.BigNumLoop
import Verif.Props.BigNum

/-! # Helper lemmas for programs with signed big numbers -/

namespace BigNum
open Cpp Spec

/-- a variable holds an integer and nothing else -/
structure Keeps (N : Nat) (b : Big) (x : Int) : Prop where
  fresh : Fresh N b
  val : val b = x

theorem Keeps.len {N : Nat} {b : Big} {x : Int} (h : Keeps N b x) : b.len = places x := h.val ▸ len_places h.fresh.1.toValid

theorem Keeps.zero (N : Nat) : Keeps N (zero N) 0 := ⟨⟨zero_clean N, fun _ => rfl⟩, rfl⟩

theorem keeps_assign {N : Nat} {d s : Big} {x y : Int} (hd : Keeps N d x) (hs : Keeps N s y) (h : places x ≤ places y) :
    Keeps N (assign d s) y := by
  obtain ⟨h1, h2, h3, h4⟩ := assign_clean hd.fresh.1 hs.fresh.1 (by rw [hd.len, hs.len]; exact h)
  refine ⟨⟨h1, fun g => ?_⟩, by rw [val_eq, h2, h3, ← val_eq, hs.val]⟩
  rw [h3]
  exact hs.fresh.2 (h4 ▸ g)

theorem keeps_ofInt {N : Nat} {k : Int} (h0 : k ≠ INT64_MIN) (h : places k ≤ N) : ∃ b, ofInt N k = .ok b ∧ Keeps N b k := by
  obtain ⟨b, e, hc, hp, hv, -⟩ := C19_ofInt_partial N k h0 h
  exact ⟨b, e, ⟨hc, hp⟩, hv⟩

/-- A number that does not denote 0 or has the positive sign is fresh if it is clean. -/
theorem fresh_of {N : Nat} {b : Big} (h : Clean N b) (g : val b ≠ 0 ∨ b.sign = 1) : Fresh N b := by
  refine ⟨h, fun l => ?_⟩
  rcases g with g | g
  · exact absurd (by rw [val_eq, mag_zero l]; ring) g
  · exact g

theorem keeps_plusRaw {N fuel : Nat} {a b : Big} {x y : Int} (ha : Keeps N a x) (hb : Keeps N b y) (h1 : places x < N)
    (h2 : places y < N) (hd : OkPlus x y) : ∃ r, plusRaw N (fuel + 1) a b = .ok r ∧ Keeps N r (x + y) := by
  have sa := fresh_sign ha.fresh
  have sb := fresh_sign hb.fresh
  have ea := ha.val
  have eb := hb.val
  have va := val_eq a
  have vb := val_eq b
  unfold plusRaw
  by_cases hs : a.sign = b.sign
  · rw [if_pos hs]
    obtain ⟨r, e, hc, hm, hsr⟩ := add_spec ha.fresh.1 hb.fresh.1 (by rw [ha.len, hb.len]; omega)
    have hv : val r = x + y := by
      rw [val_eq, hm, hsr, ← ha.val, ← hb.val, val_eq a, val_eq b, hs]; ring
    refine ⟨r, e, fresh_of hc ?_, hv⟩
    rcases ha.fresh.1.sign with s | s
    · exact .inr (hsr.trans s)
    · have := sa.1 s
      have := sb.1 (by omega)
      exact .inl (by omega)
  · rw [if_neg hs]
    rcases ha.fresh.1.sign with s | s
    · have t : b.sign = -1 := by rcases hb.fresh.1.sign with t | t <;> omega
      rw [if_neg (by omega)]
      rw [s] at va
      rw [t] at vb
      have := sb.1 t
      obtain ⟨r, e, hc, hv, hsr⟩ := sub_mixed (fuel := fuel) ha.fresh.1 hb.fresh.1 s (by
        rcases hd with g | g <;> omega)
      exact ⟨r, e, fresh_of hc (.inr hsr), by omega⟩
    · have t : b.sign = 1 := by rcases hb.fresh.1.sign with t | t <;> omega
      rw [if_pos (by omega)]
      rw [s] at va
      rw [t] at vb
      have := sa.1 s
      have nb : ¬ BigNum.Spec.val b < 0 := fun g => by have := sb.2 g; omega
      obtain ⟨r, e, hc, hv, hsr⟩ := sub_mixed (fuel := fuel) hb.fresh.1 ha.fresh.1 t (by
        rcases hd with g | g <;> omega)
      exact ⟨r, e, fresh_of hc (.inr hsr), by omega⟩

theorem keeps_minusRaw {N fuel : Nat} {a b : Big} {x y : Int} (ha : Keeps N a x) (hb : Keeps N b y) (h1 : places x < N)
    (h2 : places y < N) (hd : OkMinus x y) : ∃ r, minusRaw N (fuel + 2) a b = .ok r ∧ Keeps N r (x - y) := by
  have sa := fresh_sign ha.fresh
  have sb := fresh_sign hb.fresh
  have ea := ha.val
  have eb := hb.val
  have va := val_eq a
  have vb := val_eq b
  unfold minusRaw
  by_cases hs : a.sign = b.sign
  · rw [if_pos hs]
    rcases ha.fresh.1.sign with s | s
    · have t : b.sign = 1 := by omega
      rw [if_neg (by omega)]
      rw [s] at va
      rw [t] at vb
      obtain ⟨r, e, hc, hv, hz⟩ := sub_pos (fuel := fuel) ha.fresh.1 hb.fresh.1 s t
      exact ⟨r, e, ⟨hc, hz⟩, by omega⟩
    · have t : b.sign = -1 := by omega
      rw [if_pos (by omega)]
      rw [s] at va
      rw [t] at vb
      have := sa.1 s
      have := sb.1 t
      have hm : mag a = mag b := by
        rcases hd with g | g
        · omega
        · omega
      have hc := (cmpAbs_spec hb.fresh.1.toValid ha.fresh.1.toValid).2.1 hm.symm
      obtain ⟨r, e, hc, hv', hs'⟩ := sub_direct (fuel := fuel + 1) hb.fresh.1 ha.fresh.1 hc (by omega) hm.le
      refine ⟨r, e, fresh_of hc (.inr hs'), ?_⟩
      rw [val_eq, hs', hv']; omega
  · rw [if_neg hs]
    obtain ⟨r, e, hc, hm, hsr⟩ := add_spec ha.fresh.1 hb.fresh.1 (by rw [ha.len, hb.len]; omega)
    have t : b.sign = -a.sign := by
      rcases ha.fresh.1.sign with s | s <;> rcases hb.fresh.1.sign with t | t <;> omega
    have hv : val r = x - y := by
      rw [val_eq, hm, hsr, ← ha.val, ← hb.val, val_eq a, val_eq b, t]; ring
    refine ⟨r, e, fresh_of hc ?_, hv⟩
    rcases ha.fresh.1.sign with s | s
    · exact .inr (hsr.trans s)
    · have := sa.1 s
      have nb : ¬ BigNum.Spec.val b < 0 := fun g => by have := sb.2 g; omega
      exact .inl (by omega)

theorem keeps_mul {N : Nat} {a b : Big} {x y : Int} (ha : Keeps N a x) (hb : Keeps N b y) (h : places x + places y ≤ N)
    (hN : N ≤ 20000000) (hd : OkTimes x y) : ∃ r, mul N a b = .ok r ∧ Keeps N r (x * y) := by
  have ea := ha.val
  have eb := hb.val
  have sb := fresh_sign hb.fresh
  obtain ⟨r, e, hc, hm, hs, hz⟩ := mul_spec ha.fresh.1.toValid hb.fresh.1.toValid hN (by rw [ha.len, hb.len]; exact h)
  refine ⟨r, e, ⟨hc, hz⟩, ?_⟩
  have key : val r = a.sign * (mag a * mag b) := by
    rw [val_eq]
    rcases hs with h | ⟨h, h'⟩
    · rw [h, hm]
    · rw [h', ← hm, h]; ring
  rw [key]
  rcases hd with g | g
  · have t : b.sign = 1 := by
      rcases hb.fresh.1.sign with t | t
      · exact t
      · have := sb.1 t; omega
    rw [← ea, ← eb, val_eq a, val_eq b, t]; ring
  · rw [g] at ea
    rw [← mul_assoc, ← val_eq a, ea, g]; ring

theorem put_keeps {N : Nat} {st : Vars} {σ : Nat → Int} (h : ∀ x, Keeps N (st x) (σ x)) {x : Nat} {v : Out Big} {k : Int}
    (hv : ∃ b, v = .ok b ∧ Keeps N b k) :
    ∃ st', st.put x v = .ok st' ∧ ∀ y, Keeps N (st' y) (Function.update σ x k y) := by
  obtain ⟨b, rfl, hb⟩ := hv
  refine ⟨Function.update st x b, rfl, fun y => ?_⟩
  by_cases e : y = x
  · subst e; simpa using hb
  · simpa [Function.update_of_ne e] using h y

theorem exec_keeps {N fuel : Nat} {st : Vars} {σ : Nat → Int} (h : ∀ x, Keeps N (st x) (σ x)) (s : Stmt)
    (hr : RoomS N σ s) (hd : Sane σ s) (hg : Grows σ s) :
    ∃ st', exec N (fuel + 2) st s = .ok st' ∧ ∀ y, Keeps N (st' y) (eval σ s y) := by
  have one : (1 : Int) ≠ INT64_MIN := by decide
  cases s with
  | decl x k => exact put_keeps h (keeps_ofInt hr.1 hr.2)
  | assign x y => exact put_keeps h ⟨_, if_neg (fun e => hr e.1), keeps_assign (h x) (h y) hg⟩
  | plus x y z =>
    obtain ⟨r, e, hp⟩ := keeps_plusRaw (fuel := fuel + 1) (h y) (h z) hr.1 hr.2 hd
    refine put_keeps h ⟨assign (st x) (assign (zero N) r), ?_, keeps_assign (h x) (keeps_assign (Keeps.zero N) hp ?_) hg⟩
    · unfold plus; rw [e]; rfl
    · rw [places_zero]; exact Nat.zero_le _
  | minus x y z =>
    obtain ⟨r, e, hp⟩ := keeps_minusRaw (fuel := fuel) (h y) (h z) hr.1 hr.2 hd
    refine put_keeps h ⟨assign (st x) (assign (zero N) r), ?_, keeps_assign (h x) (keeps_assign (Keeps.zero N) hp ?_) hg⟩
    · unfold minus; rw [e]; rfl
    · rw [places_zero]; exact Nat.zero_le _
  | times x y z =>
    obtain ⟨r, e, hp⟩ := keeps_mul (h y) (h z) hr.1 hr.2 hd
    refine put_keeps h ⟨assign (st x) r, ?_, keeps_assign (h x) hp hg⟩
    unfold times; rw [e]; rfl
  | plusEq x y =>
    obtain ⟨r, e, hp⟩ := keeps_plusRaw (fuel := fuel + 1) (h x) (h y) hr.1 hr.2 hd
    refine put_keeps h ⟨assign (st x) r, ?_, keeps_assign (h x) hp hg⟩
    unfold plusAssign; rw [e]; rfl
  | minusEq x y =>
    obtain ⟨r, e, hp⟩ := keeps_minusRaw (fuel := fuel) (h x) (h y) hr.1 hr.2 hd
    refine put_keeps h ⟨assign (st x) r, ?_, keeps_assign (h x) hp hg⟩
    unfold minusAssign; rw [e]; rfl
  | plusEqInt x k =>
    obtain ⟨b, eb, hb⟩ := keeps_ofInt hr.1 hr.2.2.le
    obtain ⟨r, e, hp⟩ := keeps_plusRaw (fuel := fuel + 1) (h x) hb hr.2.1 hr.2.2 hd
    refine put_keeps h ⟨assign (st x) r, ?_, keeps_assign (h x) hp hg⟩
    unfold plusAssignInt plusAssign; rw [eb, Out.ok_bind, e]; rfl
  | minusEqInt x k =>
    obtain ⟨b, eb, hb⟩ := keeps_ofInt hr.1 hr.2.2.le
    obtain ⟨r, e, hp⟩ := keeps_minusRaw (fuel := fuel) (h x) hb hr.2.1 hr.2.2 hd
    refine put_keeps h ⟨assign (st x) r, ?_, keeps_assign (h x) hp hg⟩
    unfold minusAssignInt minusAssign; rw [eb, Out.ok_bind, e]; rfl
  | timesEqInt x k =>
    obtain ⟨b, eb, hb⟩ := keeps_ofInt (N := N) hr.1 (by have := hr.2.1; omega)
    obtain ⟨r, e, hp⟩ := keeps_mul (h x) hb hr.2.1 hr.2.2 hd
    refine put_keeps h ⟨assign (st x) r, ?_, keeps_assign (h x) hp hg⟩
    unfold timesAssignInt; rw [eb, Out.ok_bind, e]; rfl
  | inc x =>
    obtain ⟨b, eb, hb⟩ := keeps_ofInt (N := N) (k := 1) one (by rw [places_one]; exact hr.2.le)
    obtain ⟨r, e, hp⟩ := keeps_plusRaw (fuel := fuel + 1) (h x) hb hr.1 (by rw [places_one]; exact hr.2) hd
    refine put_keeps h ⟨assign (st x) r, ?_, keeps_assign (h x) hp hg⟩
    unfold inc plusAssignInt plusAssign; rw [eb, Out.ok_bind, e]; rfl
  | dec x =>
    obtain ⟨b, eb, hb⟩ := keeps_ofInt (N := N) (k := 1) one (by rw [places_one]; exact hr.2.le)
    obtain ⟨r, e, hp⟩ := keeps_minusRaw (fuel := fuel) (h x) hb hr.1 (by rw [places_one]; exact hr.2) hd
    refine put_keeps h ⟨assign (st x) r, ?_, keeps_assign (h x) hp hg⟩
    unfold dec minusAssignInt minusAssign; rw [eb, Out.ok_bind, e]; rfl

theorem test_keeps {N : Nat} {a b : Big} {x y : Int} (ha : Keeps N a x) (hb : Keeps N b y) (R : Rel) [Decidable (holds x y R)] :
    test a b R = .ok (decide (holds x y R)) := by
  obtain ⟨c, e, h1, h2⟩ := cmp_spec ha.fresh.1.toValid hb.fresh.1.toValid ha.fresh.2 hb.fresh.2
  rw [ha.val, hb.val] at h1 h2
  cases R <;> (unfold test lt le gt ge eq ne; dsimp only; rw [e, Out.ok_bind]; refine congrArg _ ?_
               rw [decide_eq_decide]; unfold holds; omega)

theorem runs_keeps {N fuel : Nat} {σ σ' : Nat → Int} {p : Prog} (h : Runs (SaneIn N) σ p σ') :
    ∀ {st : Vars}, (∀ x, Keeps N (st x) (σ x)) → ∃ n st', runP N (fuel + 2) n st p = .ok st' ∧ ∀ x, Keeps N (st' x) (σ' x) := by
  induction h with
  | stmt h =>
    intro st hs
    obtain ⟨st', e, h'⟩ := exec_keeps (fuel := fuel) hs _ h.1 h.2.1 h.2.2
    exact ⟨1, st', e, h'⟩
  | seq _ _ ih ih' =>
    intro st hs
    obtain ⟨n1, s1, e1, h1⟩ := ih hs
    obtain ⟨n2, s2, e2, h2⟩ := ih' h1
    refine ⟨max n1 n2 + 1, s2, ?_, h2⟩
    rw [runP, runP_mono e1 (by omega), Out.ok_bind]
    exact runP_mono e2 (by omega)
  | @yes σ τ R x y p q c _ ih =>
    intro st hs
    classical
    obtain ⟨n1, s1, e1, h1⟩ := ih hs
    refine ⟨n1 + 1, s1, ?_, h1⟩
    rw [runP, test_keeps (hs x) (hs y) R, Out.ok_bind, decide_eq_true c]
    exact e1
  | @no σ τ R x y p q c _ ih =>
    intro st hs
    classical
    obtain ⟨n1, s1, e1, h1⟩ := ih hs
    refine ⟨n1 + 1, s1, ?_, h1⟩
    rw [runP, test_keeps (hs x) (hs y) R, Out.ok_bind, decide_eq_false c]
    exact e1
  | @again σ τ υ R x y p c _ _ ih ih' =>
    intro st hs
    classical
    obtain ⟨n1, s1, e1, h1⟩ := ih hs
    obtain ⟨n2, s2, e2, h2⟩ := ih' h1
    refine ⟨max n1 n2 + 1, s2, ?_, h2⟩
    rw [runP, test_keeps (hs x) (hs y) R, Out.ok_bind, decide_eq_true c, if_pos rfl, runP_mono e1 (by omega), Out.ok_bind]
    exact runP_mono e2 (by omega)
  | @done σ R x y p c =>
    intro st hs
    classical
    refine ⟨1, st, ?_, hs⟩
    rw [runP, test_keeps (hs x) (hs y) R, Out.ok_bind, decide_eq_false c]
    rfl

theorem keeps_toString {N : Nat} {b : Big} {x : Int} (h : Keeps N b x) (h0 : x ≠ 0) : toString b = .ok (decimal x) := by
  have hv := h.fresh.1
  have nn := mag_nonneg hv.toValid
  have e : BigNum.toString b = .ok ((if b.sign < 0 then [byte '-'] else []) ++ text (digit b) b.len) := by
    unfold BigNum.toString
    rw [toStringLoop_eq b b.len fun k hk => ⟨valid_get hv.toValid hk, (hv.digits k hk).2⟩, Out.ok_bind]
  have v := h.val
  rw [e, text_dec hv.toValid, decimal, if_neg h0]
  rcases hv.sign with s | s
  · rw [val_eq, s] at v
    rw [s, if_neg (by decide), if_neg (by omega), List.nil_append, show (mag b).toNat = x.natAbs by omega]
  · have lt := (fresh_sign h.fresh).1 s
    rw [h.val] at lt
    rw [val_eq, s] at v
    rw [s, if_pos (by decide), if_pos lt, show (mag b).toNat = x.natAbs by omega]; rfl

end BigNum

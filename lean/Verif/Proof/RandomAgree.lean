import Verif.Proof.RandomSmp

/-! # The samplers of the model agree with the procedures of `Spec/RandomLaw.lean` -/

namespace Rand
open Cpp Spec

variable {E : Engine} {β γ : Type}

theorem agrees_pure (x : β) : Agrees (pure x : R E β) (fun ω => (x, ω)) := by
  intro s v s' h
  rw [pure_run] at h
  injection h with h
  injection h with h1 h2
  subst h1 h2
  exact ⟨0, rfl, fun _ => rfl⟩

theorem Spec.Agrees.bind {f : R E β} {F : Smp β} {g : β → R E γ} {G : β → Smp γ} (hf : Agrees f F)
    (hg : ∀ a, Agrees (g a) (G a)) : Agrees (f >>= g) (fun ω => G (F ω).1 (F ω).2) := by
  intro s v s' h
  rw [bind_run] at h
  cases hfs : f s with
  | ok p =>
    obtain ⟨a, s1⟩ := p
    rw [hfs] at h
    simp only [Out.bind] at h
    obtain ⟨m1, e1, h1⟩ := hf s a s1 hfs
    obtain ⟨m2, e2, h2⟩ := hg a s1 v s' h
    refine ⟨m2 + m1, by rw [e2, e1, stateAt_add], fun ho => ?_⟩
    have k1 := h1 fun i hi => ho i (by omega)
    have k2 := h2 fun i hi => by
      rw [e1, outAt_add]
      exact ho _ (by omega)
    simp only [k1]
    exact k2
  | exit => rw [hfs] at h; simp only [Out.bind] at h; cases h
  | ub => rw [hfs] at h; simp only [Out.bind] at h; cases h
  | diverge => rw [hfs] at h; simp only [Out.bind] at h; cases h

theorem agrees_lift (o : Out β) (x : β) (h : ∀ y, o = .ok y → y = x) : Agrees (StateT.lift o : R E β) (fun ω => (x, ω)) := by
  intro s v s' hr
  rw [lift_run] at hr
  cases o with
  | ok y =>
    have : Out.ok (y, s) = Out.ok (v, s') := hr
    injection this with h'
    injection h' with h1 h2
    subst h1 h2
    exact ⟨0, rfl, fun _ => by rw [h y rfl]⟩
  | exit => cases hr
  | ub => cases hr
  | diverge => cases hr

theorem unitAt_shift (s : E.σ) (m : Nat) : unitAt E (stateAt E s m) = fun i => unitAt E s (i + m) := by
  funext i
  rw [unitAt_add]

theorem agrees_oneMinus : Agrees (oneMinus (D := ℝ) : R E ℝ) (fun ω => (1 - ω 0, fun i => ω (i + 1))) := by
  intro s v s' h
  rw [oneMinus_real] at h
  injection h with h
  injection h with h1 h2
  subst h1 h2
  refine ⟨1, rfl, fun _ => ?_⟩
  have : (E.draw s).2 = stateAt E s 1 := rfl
  rw [this, unitAt_shift]

theorem agrees_gammaSum (F : Smp ℝ) (f : ℝ → R E ℝ) (φ : ℝ → ℝ) (n : Nat) : ∀ (a : ℝ)
    (_ : ∀ a, Agrees (f a) fun ω => (φ (-a + (F ω).1), (F ω).2)),
    Agrees (gammaSum Libm.real n a >>= f) fun ω => (φ (-a + (expSum F n ω).1), (expSum F n ω).2) := by
  induction n with
  | zero =>
    intro a hf
    show Agrees (pure a >>= f) _
    rw [pure_bind]
    exact hf a
  | succ n ih =>
    intro a hf
    have e : (gammaSum Libm.real (n + 1) a >>= f : R E ℝ) =
        oneMinus >>= fun rnd => gammaSum Libm.real n (a + Real.log rnd) >>= f := by
      show ((oneMinus >>= fun rnd => gammaSum Libm.real n (a + Libm.real.log rnd)) >>= f) = _
      rw [bind_assoc]
      rfl
    rw [e]
    have h := (agrees_oneMinus (E := E)).bind fun rnd => ih (a + Real.log rnd) hf
    convert h using 1
    funext ω
    simp only [expSum, expSmp]
    ext1
    · simp only
      congr 1
      ring
    · rfl

/-- one more round -/
theorem repeatUntil_step {F : Smp β} {A : Set β} {d : β} {ω : ℕ → ℝ} (hn : (F ω).1 ∉ A)
    (h : ∃ j, results F (F ω).2 j ∈ A) :
    (∃ j, results F ω j ∈ A) ∧ repeatUntil F A d ω = repeatUntil F A d (F ω).2 := by
  classical
  have h1 := repeatUntil_eq (d := d) (Nat.find_spec h) fun i hi => Nat.find_min h hi
  have hs : ∀ i, results F ω (i + 1) = results F (F ω).2 i := fun i => rfl
  refine ⟨⟨Nat.find h + 1, Nat.find_spec h⟩, ?_⟩
  have h2 := repeatUntil_eq (d := d) (ω := ω) (j := Nat.find h + 1) (Nat.find_spec h) (fun i hi => by
    cases i with
    | zero => exact hn
    | succ i => rw [hs]; exact Nat.find_min h (by omega))
  rw [h1, h2]
  rfl

theorem repeatUntil_done {F : Smp β} {A : Set β} {d : β} {ω : ℕ → ℝ} (hn : (F ω).1 ∈ A) :
    (∃ j, results F ω j ∈ A) ∧ repeatUntil F A d ω = F ω :=
  ⟨⟨0, hn⟩, repeatUntil_eq (j := 0) hn (fun i hi => by omega)⟩

/-- a round of the loop either goes on or ends, after three outputs -/
theorem gammaReject_shape (delta : ℝ) (fuel : Nat) (s : E.σ) :
    gammaReject Libm.real delta (fuel + 1) s = gammaReject Libm.real delta fuel (stateAt E s 3) ∨
    ∃ x, gammaReject Libm.real delta (fuel + 1) s = .ok (x, stateAt E s 3) := by
  have hG : ∃ G, gammaReject (E := E) Libm.real delta fuel = G := ⟨_, rfl⟩
  obtain ⟨G, hG⟩ := hG
  rw [hG]
  unfold gammaReject
  rw [hG]
  dsimp only
  rw [bind_run, oneMinus_real]
  simp only [Out.bind]
  rw [bind_run, oneMinus_real]
  simp only [Out.bind]
  rw [bind_run, oneMinus_real]
  simp only [Out.bind]
  generalize (if (1 - unitAt E s 0) ≤ _ then (_ : ℝ × ℝ) else _) = q
  by_cases h : Libm.real.pow q.1 (delta - ((1 : Int) : ℝ)) * Libm.real.exp (-q.1) < q.2
  · rw [if_pos h]
    exact .inl rfl
  · rw [if_neg h]
    exact .inr ⟨_, rfl⟩

theorem agrees_gammaReject (delta : ℝ) (fuel : Nat) (s : E.σ) (v : ℝ) (s' : E.σ)
    (h : gammaReject Libm.real delta fuel s = .ok (v, s')) : ∃ m, s' = stateAt E s m ∧
    ((∀ i < m, outAt E s i < 2 ^ 64 - 1) →
      (∃ j, results triple (unitAt E s) j ∈ {t | adAccepts delta t.1 t.2.1 t.2.2}) ∧
      adSmp delta (unitAt E s) = (v, unitAt E s')) := by
  induction fuel generalizing s with
  | zero => cases h
  | succ fuel ih =>
    by_cases hg : outAt E s 1 < 2 ^ 64 - 1
    · have h1 := unitAt_lt s 1 hg
      have h2 := unitAt_nonneg s 1
      have hr := gammaReject_round delta fuel s _ _ _ rfl rfl rfl (by linarith) (by linarith)
      have ht : (triple (unitAt E s)).2 = unitAt E (stateAt E s 3) := by rw [unitAt_shift]; rfl
      by_cases ha : adAccepts delta (1 - unitAt E s 0) (1 - unitAt E s 1) (1 - unitAt E s 2)
      · rw [hr.1 ha] at h
        injection h with h
        injection h with e1 e2
        subst e1 e2
        refine ⟨3, rfl, fun _ => ?_⟩
        obtain ⟨k1, k2⟩ := repeatUntil_done (F := triple) (A := {t | adAccepts delta t.1 t.2.1 t.2.2})
          (d := (0, 0, 0)) (ω := unitAt E s) ha
        refine ⟨k1, ?_⟩
        unfold adSmp
        rw [k2, ← ht]
        rfl
      · rw [hr.2 ha] at h
        obtain ⟨m, e1, e2⟩ := ih (stateAt E s 3) h
        refine ⟨m + 3, by rw [e1, stateAt_add], fun ho => ?_⟩
        obtain ⟨k1, k2⟩ := e2 fun i hi => by rw [outAt_add]; exact ho _ (by omega)
        rw [← ht] at k1
        obtain ⟨k3, k4⟩ := repeatUntil_step (F := triple) (A := {t | adAccepts delta t.1 t.2.1 t.2.2})
          (d := (0, 0, 0)) (ω := unitAt E s) ha k1
        refine ⟨k3, ?_⟩
        unfold adSmp at k2 ⊢
        rw [k4, ht]
        exact k2
    · rcases gammaReject_shape delta fuel s with hs | ⟨x, hs⟩
      · rw [hs] at h
        obtain ⟨m, e1, -⟩ := ih (stateAt E s 3) h
        exact ⟨m + 3, by rw [e1, stateAt_add], fun ho => absurd (ho 1 (by omega)) hg⟩
      · rw [hs] at h
        injection h with h
        injection h with e1 e2
        exact ⟨3, e2.symm, fun ho => absurd (ho 1 (by omega)) hg⟩

theorem agrees_gamma (fuel : Nat) (k theta : ℝ) (hk : 0 < k) :
    Agrees (gammaNext Libm.real fuel ⟨k, theta⟩ : R E ℝ) (gammaSmp k theta) := by
  have hf := agrees_lift (E := E) (Libm.real.toInt k) ⌊k⌋ fun y hy => by
    have hy : truncInt k = .ok y := hy
    unfold truncInt at hy
    rw [if_pos hk.le] at hy
    exact (int_eq_ok.1 hy).2.symm
  have hd : (k - (⌊k⌋ : ℝ) ≤ ((0 : Int) : ℝ) ∧ ((0 : Int) : ℝ) ≤ k - (⌊k⌋ : ℝ)) ↔ k = ⌊k⌋ := by
    push_cast
    rw [← le_antisymm_iff, sub_eq_zero]
  refine hf.bind (G := fun n ω => (theta * (expSum (if k = ⌊k⌋ then fun ω => (0, ω) else adSmp (k - ⌊k⌋)) n.toNat ω).1,
    (expSum (if k = ⌊k⌋ then fun ω => (0, ω) else adSmp (k - ⌊k⌋)) n.toNat ω).2)) fun n => ?_
  have h0 : (-((0 : Int) : ℝ)) = 0 := by norm_num
  by_cases hkk : k = ⌊k⌋
  · have h := agrees_gammaSum (E := E) (fun ω => (0, ω)) (fun sum => pure (theta * -sum)) (fun x => theta * x) n.toNat
      ((0 : Int) : ℝ) (fun a => by simpa using agrees_pure _)
    simp only [h0, zero_add] at h
    rw [if_pos hkk]
    convert h using 3 with sum
    show (if k - (⌊k⌋ : ℝ) ≤ ((0 : Int) : ℝ) ∧ ((0 : Int) : ℝ) ≤ k - (⌊k⌋ : ℝ) then _ else _) = _
    rw [if_pos (hd.2 hkk)]
  · have h := agrees_gammaSum (E := E) (adSmp (k - ⌊k⌋))
      (fun sum => gammaReject Libm.real (k - ⌊k⌋) fuel >>= fun ksi => pure (theta * (ksi - sum))) (fun x => theta * x) n.toNat
      ((0 : Int) : ℝ) (fun a => by
        have hr : Agrees (gammaReject Libm.real (k - ⌊k⌋) fuel : R E ℝ) (adSmp (k - ⌊k⌋)) := by
          intro s v s' h
          obtain ⟨m, e1, e2⟩ := agrees_gammaReject _ _ _ _ _ h
          exact ⟨m, e1, fun ho => (e2 ho).2⟩
        have := hr.bind fun ksi => agrees_pure (theta * (ksi - a))
        convert this using 3
        ring)
    simp only [h0, zero_add] at h
    rw [if_neg hkk]
    convert h using 3 with sum
    show (if k - (⌊k⌋ : ℝ) ≤ ((0 : Int) : ℝ) ∧ ((0 : Int) : ℝ) ≤ k - (⌊k⌋ : ℝ) then _ else _) = _
    rw [if_neg (mt hd.1 hkk)]
    rfl

theorem agrees_normalReject (fuel : Nat) (s : E.σ) (v : ℝ × ℝ × ℝ) (s' : E.σ)
    (h : normalReject fuel s = .ok (v, s')) : v.2.2 = v.1 ^ 2 + v.2.1 ^ 2 ∧ ∃ m, s' = stateAt E s m ∧
      (∃ j, results square (unitAt E s) j ∈ disc) ∧
      repeatUntil square disc (0, 0) (unitAt E s) = ((v.1, v.2.1), unitAt E s') := by
  induction fuel generalizing s with
  | zero => cases h
  | succ fuel ih =>
    have ht : (square (unitAt E s)).2 = unitAt E (stateAt E s 2) := by rw [unitAt_shift]; rfl
    rw [normalReject_step fuel s _ _ rfl rfl] at h
    by_cases hc : (square (unitAt E s)).1 ∈ disc
    · have hc' : 0 < (2 * unitAt E s 0 - 1) ^ 2 + (2 * unitAt E s 1 - 1) ^ 2 ∧
          (2 * unitAt E s 0 - 1) ^ 2 + (2 * unitAt E s 1 - 1) ^ 2 ≤ 1 := hc
      rw [if_neg (by rintro (h | h) <;> nlinarith)] at h
      injection h with h
      injection h with e1 e2
      subst e1 e2
      obtain ⟨k1, k2⟩ := repeatUntil_done (F := square) (A := disc) (d := (0, 0)) (ω := unitAt E s) hc
      refine ⟨by simp only; ring, 2, rfl, k1, ?_⟩
      rw [k2, ← ht]
      rfl
    · have hc' : ¬ (0 < (2 * unitAt E s 0 - 1) ^ 2 + (2 * unitAt E s 1 - 1) ^ 2 ∧
          (2 * unitAt E s 0 - 1) ^ 2 + (2 * unitAt E s 1 - 1) ^ 2 ≤ 1) := hc
      rw [if_pos (by
        by_contra hcon
        push Not at hcon
        apply hc'
        constructor
        · rcases (add_nonneg (sq_nonneg (2 * unitAt E s 0 - 1)) (sq_nonneg (2 * unitAt E s 1 - 1))).lt_or_eq with h | h
          · exact h
          · exact absurd (by nlinarith) hcon.1
        · nlinarith [hcon.2])] at h
      obtain ⟨k0, m, e1, k1, k2⟩ := ih (stateAt E s 2) h
      rw [← ht] at k1
      obtain ⟨k3, k4⟩ := repeatUntil_step (F := square) (A := disc) (d := (0, 0)) (ω := unitAt E s) hc k1
      refine ⟨k0, m + 2, by rw [e1, stateAt_add], k3, ?_⟩
      rw [k4, ht, k2]

theorem agrees_normal_one (fuel : Nat) (mean stddev : ℝ) :
    Agrees (normalNext Libm.real fuel ⟨mean, stddev, none, false⟩ : R E _) (fun ω =>
      (((normalSmp mean stddev ω).1.1, ⟨mean, stddev, some (polarPoint (repeatUntil square disc (0, 0) ω).1).2, true⟩),
        (normalSmp mean stddev ω).2)) := by
  intro s v s' h
  cases hr : normalReject (D := ℝ) fuel s with
  | ok p =>
    obtain ⟨⟨u, w, q⟩, s1⟩ := p
    rw [normalNext_real fuel mean stddev none s s1 u w q hr] at h
    injection h with h
    injection h with e1 e2
    subst e1 e2
    obtain ⟨k0, m, k1, -, k3⟩ := agrees_normalReject fuel s _ _ hr
    simp only at k0
    refine ⟨m, k1, fun _ => ?_⟩
    unfold normalSmp
    simp only [k3, polarPoint, ← k0]
    ext1
    · ext1
      · simp only; ring
      · rfl
    · rfl
  | exit => unfold normalNext at h; rw [if_neg (by simp), bind_run, hr] at h; cases h
  | ub => unfold normalNext at h; rw [if_neg (by simp), bind_run, hr] at h; cases h
  | diverge => unfold normalNext at h; rw [if_neg (by simp), bind_run, hr] at h; cases h

theorem agrees_normal (fuel : Nat) (mean stddev : ℝ) :
    Agrees (do
      let p ← normalNext Libm.real fuel ⟨mean, stddev, none, false⟩
      let q ← normalNext Libm.real fuel p.2
      pure (p.1, q.1) : R E (ℝ × ℝ)) (normalSmp mean stddev) := by
  intro s v s' h
  rw [bind_run] at h
  cases hr : normalReject (D := ℝ) fuel s with
  | ok p =>
    obtain ⟨⟨u, w, q⟩, s1⟩ := p
    rw [normalNext_real fuel mean stddev none s s1 u w q hr] at h
    simp only [Out.bind] at h
    rw [bind_run] at h
    simp only [normalNext, if_true, pure_run, Out.bind] at h
    injection h with h
    injection h with e1 e2
    subst e1 e2
    obtain ⟨k0, m, k1, -, k3⟩ := agrees_normalReject fuel s _ _ hr
    simp only at k0
    refine ⟨m, k1, fun _ => ?_⟩
    unfold normalSmp
    simp only [k3, polarPoint, ← k0]
    ext1
    · ext1
      · simp only; ring
      · simp only; ring
    · rfl
  | exit => unfold normalNext at h; rw [if_neg (by simp), bind_run, hr] at h; cases h
  | ub => unfold normalNext at h; rw [if_neg (by simp), bind_run, hr] at h; cases h
  | diverge => unfold normalNext at h; rw [if_neg (by simp), bind_run, hr] at h; cases h

theorem chiSquaredInit_pos {r : ℝ} (hr : 0 < r) : chiSquaredInit r = .ok ⟨r / 2, 2⟩ := by
  unfold chiSquaredInit gammaInit
  rw [if_neg]
  · norm_num
  · push_cast
    rintro (h | h) <;> linarith

theorem agrees_studentT (fuel : Nat) (left : Bool) (r : ℝ) (hr : 0 < r) :
    Agrees (studentTNext Libm.real fuel left r : R E ℝ) (studentTSmp left r) := by
  have hl : ∀ {α β : Type} (x : α) (g : α → R E β), (StateT.lift (Out.ok x) >>= g : R E β) = g x := by
    intro α β x g
    rfl
  have h2 : 0 < r / 2 := by positivity
  unfold studentTNext
  rw [normalInit_std, hl, chiSquaredInit_pos hr, hl]
  cases left
  · exact (agrees_gamma (E := E) fuel (r / 2) 2 h2).bind fun y =>
      (agrees_normal_one (E := E) fuel 0 1).bind fun p => agrees_pure (p.1 * Real.sqrt (r / y))
  · exact (agrees_normal_one (E := E) fuel 0 1).bind fun p =>
      (agrees_gamma (E := E) fuel (r / 2) 2 h2).bind fun y => agrees_pure (p.1 * Real.sqrt (r / y))

end Rand

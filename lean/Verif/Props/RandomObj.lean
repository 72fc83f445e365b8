import Verif.Proof.RandomObj
import Verif.Props.Random

/-! # C104 – C107: uniform samplers, ownership of generators, the shared generator -/

namespace Rand.Props
open Cpp Spec Rand

/-! ### C104 UniformIntDistribution, UniformDistribution -/

/-- **C104.**  The constructors accept exactly the ranges they should: `min < max`, for doubles `min <= max` (and NaN). -/
theorem C104_init (a b : Int) (x y : Dbl) :
    ((∃ d, uniformIntInit a b = .ok d) ↔ a < b) ∧ (b ≤ a → uniformIntInit a b = .exit) ∧
    ((∃ d, uniformInit x y = .ok d) ↔ ¬ y < x) ∧ (y < x → uniformInit x y = .exit) := by
  refine ⟨?_, fun h => ?_, ?_, fun h => ?_⟩
  · unfold uniformIntInit
    split_ifs with h
    · simp; omega
    · simp; omega
  · unfold uniformIntInit; rw [if_pos h]
  · unfold uniformInit
    split_ifs with h <;> simp [h]
  · unfold uniformInit; rw [if_pos h]

/-- **C104, what holds for integers.**  An accepted sampler whose range fits into an `int` returns values of the
range, and every value for some output. -/
theorem C104_int_partial (a b : Int) (ha : IsInt a) (hb : IsInt b) (hd : b - a ≤ INT_MAX) (d : Int × Int)
    (hi : uniformIntInit a b = .ok d) :
    (∀ (E : Engine) (s : E.σ), ∃ v, uniformIntNext d s = .ok (v, (E.draw s).2) ∧ a ≤ v ∧ v < b) ∧
    ∀ v, a ≤ v → v < b → ∃ g : Fin (2 ^ 64), ∀ (E : Engine) (s : E.σ), (E.draw s).1 = g →
      uniformIntNext d s = .ok (v, (E.draw s).2) := by
  have hlt := ((C104_init a b (.fin 0) (.fin 0)).1).1 ⟨d, hi⟩
  unfold uniformIntInit at hi
  rw [if_neg (by omega)] at hi
  cases hi
  exact ⟨fun E s => C59_range_partial E s a b ha hb hlt hd, fun v h1 h2 => C59_cover_partial a b ha hb hd v h1 h2⟩

/-- **C104, refuted for integers.**  The constructor accepts ranges for which every call of `next` is undefined. -/
theorem C104_int_refuted : ∃ d, uniformIntInit (-2000000000) 2000000000 = .ok d ∧
    ∀ (E : Engine) (s : E.σ), uniformIntNext d s = .ub :=
  ⟨_, rfl, C59_refuted.1⟩

/-- **C104, what holds for doubles.**  An accepted sampler with bounds up to `2^1022` returns finite numbers not below
`min`. -/
theorem C104_double_partial (a b : ℚ) (ha : IsDouble a) (h1 : |a| ≤ 2 ^ 1022) (h2 : |b| ≤ 2 ^ 1022) (d : Dbl × Dbl)
    (hi : uniformInit (Dbl.fin a) (Dbl.fin b) = .ok d) (E : Engine) (s : E.σ) :
    ∃ q, uniformNext d s = .ok (Dbl.fin q, (E.draw s).2) ∧ IsDouble q ∧ a ≤ q := by
  unfold uniformInit at hi
  split_ifs at hi with h
  cases hi
  rw [fin_lt] at h
  obtain ⟨q, e1, e2, e3, _⟩ := C61_lower_partial E s a b ha (by linarith) h1 h2
  exact ⟨q, e1, e2, e3⟩

/-- **C104, refuted for doubles.**  `max` is returned, and NaN is accepted as a bound and then returned. -/
theorem C104_double_refuted :
    (∃ d : Dbl × Dbl, uniformInit (Dbl.fin 0) (Dbl.fin 1) = .ok d ∧ ∀ (E : Engine) (s : E.σ),
      (E.draw s).1 = 2 ^ 64 - 1 → uniformNext d s = .ok (Dbl.fin 1, (E.draw s).2)) ∧
    ∃ d : Dbl × Dbl, uniformInit (Dbl.fin 0) .nan = .ok d ∧ ∀ (E : Engine) (s : E.σ),
      uniformNext d s = .ok (.nan, (E.draw s).2) := by
  refine ⟨⟨_, rfl, fun E s hg => ?_⟩, ⟨_, rfl, fun E s => ?_⟩⟩
  · have h0 : ((0 : Int) : Dbl) = Dbl.fin 0 := by decide +kernel
    have h1 : ((1 : Int) : Dbl) = Dbl.fin 1 := by decide +kernel
    have := C61_refuted.1 E s hg
    unfold nextDouble0 at this
    rw [h0, h1] at this
    exact this
  · unfold uniformNext nextDouble2
    rw [if_neg (by decide), bind_run, draw_run]
    simp only [Out.bind]
    rw [pure_run]
    have e1 : (Dbl.nan : Dbl) - Dbl.fin 0 = .nan := rfl
    have e2 : ∀ x : Dbl, x * .nan = .nan := fun x => by cases x <;> rfl
    have e3 : (Dbl.nan : Dbl) + Dbl.fin 0 = .nan := rfl
    show Out.ok (_ * (Dbl.nan - Dbl.fin 0) + Dbl.fin 0, _) = _
    rw [e1, e2, e3]

example : ∃ d, uniformIntInit (-5) 6 = .ok d ∧ (uniformIntNext d : R counter Int) (17 : Fin (2 ^ 64)) =
    .ok (1, (18 : Fin (2 ^ 64))) := ⟨_, rfl, by decide +kernel⟩
example : ∃ d, uniformInit (Dbl.fin (-3 / 2)) (Dbl.fin 1) = .ok d ∧ IsDouble (-3 / 2) :=
  ⟨(Dbl.fin (-3 / 2), Dbl.fin 1), by decide +kernel, ⟨-3, -1, by norm_num, by norm_num, by norm_num, by norm_num⟩⟩

/-! ### C105 ownership -/

/-- **C105.**  Whatever a program does, as long as it uses only objects it has and destroys no generator in use, every
call is defined, and the program can go on. -/
theorem C105_defined (E : Engine) (w : Objs E) (h : ObjReach w) (c : ObjCmd) (hc : c.Legal w) :
    ∃ w', objStep w c = .ok w' ∧ ObjReach w' := by
  obtain ⟨w', h1, _⟩ := obj_step (reach_inv h) c hc
  exact ⟨w', h1, .step c h hc h1⟩

/-- **C105.**  A generator made by a distribution exists exactly as long as one live distribution uses it as its own,
and there is only one such distribution; so none is freed twice and none is left over. -/
theorem C105_owner (E : Engine) (w : Objs E) (h : ObjReach w) (g : Nat) (x : Gen E) (hx : w.gens[g]? = some x)
    (hc : x.client = false) :
    (x.alive = true ↔ ∃! d : Nat, ∃ y : Dist, w.dists[d]? = some y ∧ y.alive = true ∧ y.newed = true ∧ y.gen = g) ∧
    ((∀ (d : Nat) (y : Dist), w.dists[d]? = some y → y.alive = false) → x.alive = false) := by
  have hi := reach_inv h
  refine ⟨⟨fun ha => ?_, ?_⟩, fun hd => ?_⟩
  · obtain ⟨d, y, e1, e2, e3, e4⟩ := hi.own g x hx ha hc
    refine ⟨d, ⟨y, e1, e2, e3, e4⟩, ?_⟩
    rintro d' ⟨y', f1, f2, f3, f4⟩
    exact hi.one d' d y' y f1 e1 f2 e2 f3 e3 (f4.trans e4.symm)
  · rintro ⟨d, ⟨y, e1, e2, e3, e4⟩, _⟩
    obtain ⟨z, f1, f2, _⟩ := hi.gen d y e1 e2
    rw [e4, hx] at f1
    cases f1
    exact f2
  · by_contra ha
    obtain ⟨d, y, e1, e2, _⟩ := hi.own g x hx (by simpa using ha) hc
    rw [hd d y e1] at e2
    cases e2

/-- **C105.**  A generator of the program is destroyed by the program only, and nothing but a use of it or of a
distribution that uses it changes its sequence. -/
theorem C105_client (E : Engine) (w w' : Objs E) (h : ObjReach w) (c : ObjCmd) (hc : c.Legal w)
    (hs : objStep w c = .ok w') (g : Nat) (x : Gen E) (hx : w.gens[g]? = some x) (hxc : x.client = true)
    (hne : c ≠ .deleteRandom g) :
    ∃ x', w'.gens[g]? = some x' ∧ x'.alive = x.alive ∧
      (x'.st = x.st ∨ (∃ n, c = .drawG g n) ∨ ∃ d n y, c = .draw d n ∧ w.dists[d]? = some y ∧ y.gen = g) := by
  obtain ⟨w1, h1, _, h3⟩ := obj_step (reach_inv h) c hc
  rw [hs] at h1
  cases h1
  obtain ⟨x', e1, _, e3, e4⟩ := h3 g x hx hxc hne
  exact ⟨x', e1, e3, e4⟩

/-- **C105.**  After `setRandomGenerator(random)` the distribution samples from `random`, and leaves it where the
sampling function does. -/
theorem C105_set (E : Engine) (w w' : Objs E) (h : ObjReach w) (d g : Nat) (hd : w.HasDist d) (hg : w.Has g)
    (hs : objStep w (.setGenerator d g) = .ok w') :
    ∃ x, w.gens[g]? = some x ∧ ∀ (α : Type) (f : R E α) a st, f x.st = .ok (a, st) →
      ∃ w'', sample w' d f = .ok (a, w'') ∧ w''.gens[g]? = some { x with st := st } := by
  obtain ⟨y, hy, hya⟩ := hd
  obtain ⟨x, hx, hxc, hxa⟩ := hg
  obtain ⟨w1, e1, e2, e3, _⟩ := inv_release (reach_inv h) hy hya { y with gen := g, newed := false }
    fun _ => ⟨rfl, x, hx, hxc, hxa⟩
  have hw : w' = { w1 with dists := w1.dists.set d { y with gen := g, newed := false } } := by
    have : setGenerator w d g = .ok w' := hs
    unfold setGenerator at this
    rw [readG_eq.2 ⟨hx, hxa⟩, readD_eq.2 ⟨hy, hya⟩] at this
    simp only [Out.ok_bind] at this
    split_ifs at e1 this with hn
    · rw [e1] at this
      cases this
      rfl
    · cases e1
      cases this
      rfl
  have hx1 := e3 g x hx hxc
  refine ⟨x, hx, fun α f a st hf => ⟨{ w' with gens := w'.gens.set g { x with st := st } }, ?_, ?_⟩⟩
  · unfold sample
    have hr : readD w' d = .ok { y with gen := g, newed := false } := by
      rw [readD_eq, hw]
      exact ⟨List.getElem?_set_self (by rw [e2]; exact Graph.lt_of_some hy), hya⟩
    have hr' : readG w' g = .ok x := by
      rw [readG_eq, hw]
      exact ⟨hx1, hxa⟩
    rw [hr]
    simp only [Out.ok_bind]
    rw [hr']
    simp only [Out.ok_bind]
    rw [hf]
    rfl
  · subst hw
    exact List.getElem?_set_self (Graph.lt_of_some hx1)

/-- A program: two distributions with their own generators, one of which then gets a generator of the program. -/
example : ∃ w, ObjReach w ∧
    w.gens.map (fun g : Gen counter => (g.client, g.alive)) = [(false, false), (false, true), (true, true)] ∧
    w.dists = [⟨2, false, true⟩, ⟨1, true, true⟩, ⟨2, false, false⟩] := by
  refine ⟨_, .step (.destroyDist 2) (.step (.newDistWith 2) (.step (.draw 0 3) (.step (.setGenerator 0 2)
    (.step (.newRandom 5) (.step (.newDist 100) (.step (.newDist 100) .init trivial rfl) trivial rfl) trivial rfl)
    ?_ rfl) ?_ rfl) ?_ rfl) ?_ rfl, rfl, rfl⟩
  · exact ⟨⟨_, rfl, rfl⟩, ⟨_, rfl, rfl, rfl⟩⟩
  · exact ⟨_, rfl, rfl⟩
  · exact ⟨_, rfl, rfl, rfl⟩
  · exact ⟨_, rfl, rfl⟩

/-! ### C106 the shared generator -/

/-- **C106.**  Any history of calls of `randomInt`, `randomDouble`, `randomBool`, the first one at time `t`, returns what
the same history of calls returns on one `Random` object constructed at time `t`. -/
theorem C106_global (E : Engine) (t : Int) (c : Call Dbl) (cs : List (Int × Call Dbl)) :
    (do let (rs, _) ← runGlobal ((t, c) :: cs) (none : Global E); Out.ok rs) =
    (do let (rs, _) ← runMethods (c :: cs.map Prod.snd) (newAt E t); Out.ok rs) := by
  rw [runGlobal_none, runGlobal_some]
  simp only [List.map_cons]
  cases runMethods (c :: cs.map Prod.snd) (newAt E t) <;> rfl

/-- **C106.**  Calls that follow later continue the sequence, whatever the time is. -/
theorem C106_continue (E : Engine) (s : E.σ) (cs : List (Int × Call Dbl)) :
    runGlobal cs (some s) = (do
      let (rs, s) ← runMethods (cs.map Prod.snd) s
      Out.ok (rs, some s)) :=
  runGlobal_some cs s

example : runMethods (E := counter) (D := Dbl) [Call.int2 (-5) 6, .bool, .int1 10] (17 : Fin (2 ^ 64)) =
    .ok ([.int 1, .bool false, .int 9], (20 : Fin (2 ^ 64))) := by rfl
example : newAt counter 17 = (17 : Fin (2 ^ 64)) := rfl

/-! ### C107 generators constructed without a seed -/

/-- **C107, refuted.**  Two distributions constructed in the same second without a generator yield the same sequence:
every sampling function returns the same from both. -/
theorem C107_refuted (E : Engine) (w : Objs E) (t : Int) :
    ∃ w1 w2 d1 d2, objStep w (.newDist t) = .ok w1 ∧ objStep w1 (.newDist t) = .ok w2 ∧ d1 ≠ d2 ∧
      w2.HasDist d1 ∧ w2.HasDist d2 ∧
      ∀ (α : Type) (f : R E α) a u, sample w2 d1 f = .ok (a, u) → ∃ u', sample w2 d2 f = .ok (a, u') := by
  refine ⟨_, _, w.dists.length, w.dists.length + 1, rfl, rfl, by omega, ⟨⟨w.gens.length, true, true⟩, ?_, rfl⟩,
    ⟨⟨w.gens.length + 1, true, true⟩, ?_, rfl⟩, ?_⟩
  · simp [newDist]
  · simp [newDist]
  · intro α f a u hu
    have hd1 : readD (newDist (newDist w t) t) w.dists.length = .ok ⟨w.gens.length, true, true⟩ :=
      readD_eq.2 ⟨by simp [newDist], rfl⟩
    have hd2 : readD (newDist (newDist w t) t) (w.dists.length + 1) = .ok ⟨w.gens.length + 1, true, true⟩ :=
      readD_eq.2 ⟨by simp [newDist], rfl⟩
    have hg1 : readG (newDist (newDist w t) t) w.gens.length = .ok ⟨newAt E t, false, true⟩ :=
      readG_eq.2 ⟨by simp [newDist], rfl⟩
    have hg2 : readG (newDist (newDist w t) t) (w.gens.length + 1) = .ok ⟨newAt E t, false, true⟩ :=
      readG_eq.2 ⟨by simp [newDist], rfl⟩
    unfold sample at hu ⊢
    rw [hd1] at hu
    rw [hd2]
    simp only [Out.ok_bind] at hu ⊢
    rw [hg1] at hu
    rw [hg2]
    simp only [Out.ok_bind] at hu ⊢
    cases hf : f (newAt E t) with
    | ok v =>
      rw [hf] at hu
      cases hu
      exact ⟨_, rfl⟩
    | exit => rw [hf] at hu; cases hu
    | ub => rw [hf] at hu; cases hu
    | diverge => rw [hf] at hu; cases hu

/-- **C107.**  The clock counts: times whose lower 32 bits differ give different seeds. -/
theorem C107_seed_partial (t t' : Int) (h : t % 2 ^ 32 ≠ t' % 2 ^ 32) :
    newAt counter t ≠ newAt counter t' := by
  intro he
  apply h
  have e : uint64 (t.bmod (2 ^ 32)) = uint64 (t'.bmod (2 ^ 32)) := he
  have hb := Int.emod_bmod (x := t) (n := 2 ^ 32)
  unfold uint64 at e
  have e2 := congrArg Fin.val e
  simp only [Fin.val_ofNat] at e2
  have h1 := Int.le_bmod (x := t) (m := 2 ^ 32) (by norm_num)
  have h2 := Int.bmod_lt (x := t) (m := 2 ^ 32) (by norm_num)
  have h3 := Int.le_bmod (x := t') (m := 2 ^ 32) (by norm_num)
  have h4 := Int.bmod_lt (x := t') (m := 2 ^ 32) (by norm_num)
  have h5 : t.bmod (2 ^ 32) = t'.bmod (2 ^ 32) := by norm_num at *; omega
  have h6 := Int.bmod_emod (x := t) (m := 2 ^ 32)
  have h7 := Int.bmod_emod (x := t') (m := 2 ^ 32)
  rw [h5] at h6
  norm_num at *
  omega

example : (1700000000 : Int) % 2 ^ 32 ≠ 1700000001 % 2 ^ 32 := by decide
example : ObjReach (⟨[], []⟩ : Objs counter) := .init

end Rand.Props

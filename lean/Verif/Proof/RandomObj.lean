import Verif.Spec.RandomObj
import Verif.Proof.Random
import Verif.Proof.Graph

/-! # Lemmas about the ownership of generators -/

namespace Rand
open Cpp Graph
variable {E : Engine}

theorem readG_eq {w : Objs E} {g : Nat} {x : Gen E} : readG w g = .ok x ↔ w.gens[g]? = some x ∧ x.alive = true := by
  unfold readG
  rcases w.gens[g]? with _ | y
  · simp
  · by_cases hy : y.alive = true
    · simp only [hy, if_true, Out.ok.injEq, Option.some.injEq]
      constructor
      · rintro rfl; exact ⟨rfl, hy⟩
      · exact fun h => h.1
    · simp only [hy, Option.some.injEq]
      constructor
      · intro h; cases h
      · rintro ⟨rfl, h⟩; exact absurd h hy

theorem readD_eq {w : Objs E} {d : Nat} {x : Dist} : readD w d = .ok x ↔ w.dists[d]? = some x ∧ x.alive = true := by
  unfold readD
  rcases w.dists[d]? with _ | y
  · simp
  · by_cases hy : y.alive = true
    · simp only [hy, if_true, Out.ok.injEq, Option.some.injEq]
      constructor
      · rintro rfl; exact ⟨rfl, hy⟩
      · exact fun h => h.1
    · simp only [hy, Option.some.injEq]
      constructor
      · intro h; cases h
      · rintro ⟨rfl, h⟩; exact absurd h hy

theorem draws_ok (n : Nat) (s : E.σ) : ∃ s', (draws n : R E Unit) s = .ok ((), s') := by
  induction n generalizing s with
  | zero => exact ⟨s, rfl⟩
  | succ n ih =>
    obtain ⟨s', h⟩ := ih (E.draw s).2
    refine ⟨s', ?_⟩
    show (do let _ ← Rand.draw; draws n : R E Unit) s = _
    rw [bind_run, draw_run]
    exact h

/-- Every live distribution has a live generator, its own or one of the program; and every other generator belongs
to exactly one distribution. -/
structure ObjInv (w : Objs E) : Prop where
  gen : ∀ (d : Nat) (y : Dist), w.dists[d]? = some y → y.alive = true →
    ∃ x : Gen E, w.gens[y.gen]? = some x ∧ x.alive = true ∧ x.client = !y.newed
  one : ∀ (d d' : Nat) (y y' : Dist), w.dists[d]? = some y → w.dists[d']? = some y' → y.alive = true →
    y'.alive = true → y.newed = true → y'.newed = true → y.gen = y'.gen → d = d'
  own : ∀ (g : Nat) (x : Gen E), w.gens[g]? = some x → x.alive = true → x.client = false →
    ∃ (d : Nat) (y : Dist), w.dists[d]? = some y ∧ y.alive = true ∧ y.newed = true ∧ y.gen = g

theorem inv_init : ObjInv (⟨[], []⟩ : Objs E) :=
  ⟨fun d y h => by simp at h, fun d d' y y' h => by simp at h, fun g x h => by simp at h⟩

/-- A new generator. -/
theorem inv_push {w : Objs E} (h : ObjInv w) (x : Gen E) (hx : x.client = true) :
    ObjInv { w with gens := w.gens ++ [x] } := by
  refine ⟨?_, h.one, ?_⟩
  · intro d y hy ha
    obtain ⟨z, hz, h1, h2⟩ := h.gen d y hy ha
    refine ⟨z, ?_, h1, h2⟩
    show (w.gens ++ [x])[y.gen]? = _
    rw [List.getElem?_append_left (lt_of_some hz)]
    exact hz
  · intro g z hz ha hc
    rcases getElem?_append_some hz with ⟨_, hz⟩ | ⟨rfl, rfl⟩
    · exact h.own g z hz ha hc
    · rw [hx] at hc; cases hc

/-- The engine of a generator moves on. -/
theorem inv_state {w : Objs E} (h : ObjInv w) {g : Nat} {x : Gen E} (hx : w.gens[g]? = some x) (st : E.σ) :
    ObjInv { w with gens := w.gens.set g { x with st := st } } := by
  refine ⟨?_, h.one, ?_⟩
  · intro d y hy ha
    obtain ⟨z, hz, h1, h2⟩ := h.gen d y hy ha
    by_cases hg : y.gen = g
    · rw [hg, hx] at hz
      cases hz
      refine ⟨{ x with st := st }, ?_, h1, h2⟩
      show (w.gens.set g _)[y.gen]? = _
      rw [hg, List.getElem?_set_self (lt_of_some hx)]
    · refine ⟨z, ?_, h1, h2⟩
      show (w.gens.set g _)[y.gen]? = _
      rw [List.getElem?_set_ne (Ne.symm hg)]
      exact hz
  · intro i z hz ha hc
    rcases getElem?_set_some hz with ⟨rfl, rfl, _⟩ | ⟨_, hz⟩
    · exact h.own _ x hx ha hc
    · exact h.own i z hz ha hc

/-- A distribution lets go of its generator (and destroys its own one), and is replaced by `y'`, which is dead or uses
a generator of the program. -/
theorem inv_release {w : Objs E} (h : ObjInv w) {d : Nat} {y : Dist} (hy : w.dists[d]? = some y)
    (ha : y.alive = true) (y' : Dist) (hy' : y'.alive = true → y'.newed = false ∧ w.Has y'.gen) :
    ∃ w1, (if y.newed then deleteG w y.gen else .ok w) = .ok w1 ∧ w1.dists = w.dists ∧
      (∀ (g : Nat) (x : Gen E), w.gens[g]? = some x → x.client = true → w1.gens[g]? = some x) ∧
      ObjInv { w1 with dists := w1.dists.set d y' } := by
  obtain ⟨x, hx, h1, h2⟩ := h.gen d y hy ha
  by_cases hn : y.newed = true
  · rw [if_pos hn]
    have hcl : x.client = false := by rw [h2, hn]; rfl
    refine ⟨{ w with gens := w.gens.set y.gen { x with alive := false } }, ?_, rfl, ?_, ?_⟩
    · unfold deleteG
      rw [readG_eq.2 ⟨hx, h1⟩]
      rfl
    · intro g z hz hc
      show (w.gens.set y.gen _)[g]? = _
      rw [List.getElem?_set_ne]
      · exact hz
      · rintro rfl
        rw [hx] at hz
        cases hz
        rw [hcl] at hc
        cases hc
    · refine ⟨?_, ?_, ?_⟩
      · intro i z hz hza
        have keep : ∀ (g : Nat) (x' : Gen E), w.gens[g]? = some x' → g ≠ y.gen →
            (w.gens.set y.gen { x with alive := false })[g]? = some x' := by
          intro g x' hg hne
          rw [List.getElem?_set_ne (Ne.symm hne)]
          exact hg
        rcases getElem?_set_some hz with ⟨rfl, rfl, _⟩ | ⟨hne, hz⟩
        · obtain ⟨e1, x', e2, e3, e4⟩ := hy' hza
          refine ⟨x', keep _ _ e2 ?_, e4, by rw [e3, e1]; rfl⟩
          intro hg
          rw [hg, hx] at e2
          cases e2
          rw [hcl] at e3
          cases e3
        · obtain ⟨x', e2, e3, e4⟩ := h.gen i z hz hza
          refine ⟨x', keep _ _ e2 ?_, e3, e4⟩
          intro hg
          rw [hg, hx] at e2
          cases e2
          have : z.newed = true := by
            rw [hcl] at e4
            simpa using e4.symm
          exact hne (h.one i d z y hz hy hza ha this hn hg)
      · intro i i' z z' hz hz' hza hza' hzn hzn' hg
        rcases getElem?_set_some hz with ⟨rfl, rfl, _⟩ | ⟨hne, hz⟩
        · rw [(hy' hza).1] at hzn; cases hzn
        · rcases getElem?_set_some hz' with ⟨rfl, rfl, _⟩ | ⟨hne', hz'⟩
          · rw [(hy' hza').1] at hzn'; cases hzn'
          · exact h.one i i' z z' hz hz' hza hza' hzn hzn' hg
      · intro g z hz hza hzc
        rcases getElem?_set_some hz with ⟨rfl, rfl, _⟩ | ⟨hne, hz⟩
        · cases hza
        · obtain ⟨i, u, e1, e2, e3, e4⟩ := h.own g z hz hza hzc
          refine ⟨i, u, ?_, e2, e3, e4⟩
          show (w.dists.set d y')[i]? = _
          rw [List.getElem?_set_ne]
          · exact e1
          · rintro rfl
            rw [hy] at e1
            cases e1
            exact hne e4.symm
  · rw [if_neg hn]
    refine ⟨w, rfl, rfl, fun _ _ hz _ => hz, ?_⟩
    refine ⟨?_, ?_, ?_⟩
    · intro i z hz hza
      rcases getElem?_set_some hz with ⟨rfl, rfl, _⟩ | ⟨_, hz⟩
      · obtain ⟨e1, x', e2, e3, e4⟩ := hy' hza
        exact ⟨x', e2, e4, by rw [e3, e1]; rfl⟩
      · exact h.gen i z hz hza
    · intro i i' z z' hz hz' hza hza' hzn hzn' hg
      rcases getElem?_set_some hz with ⟨rfl, rfl, _⟩ | ⟨hne, hz⟩
      · rw [(hy' hza).1] at hzn; cases hzn
      · rcases getElem?_set_some hz' with ⟨rfl, rfl, _⟩ | ⟨hne', hz'⟩
        · rw [(hy' hza').1] at hzn'; cases hzn'
        · exact h.one i i' z z' hz hz' hza hza' hzn hzn' hg
    · intro g z hz hza hzc
      obtain ⟨i, u, e1, e2, e3, e4⟩ := h.own g z hz hza hzc
      refine ⟨i, u, ?_, e2, e3, e4⟩
      show (w.dists.set d y')[i]? = _
      rw [List.getElem?_set_ne]
      · exact e1
      · rintro rfl
        rw [hy] at e1
        cases e1
        exact hn e3

/-- Every legal call is defined and keeps the invariant; the generators of the program other than one being destroyed
stay, and only a use of them changes their state. -/
theorem obj_step {w : Objs E} (h : ObjInv w) (c : ObjCmd) (hc : c.Legal w) :
    ∃ w', objStep w c = .ok w' ∧ ObjInv w' ∧
      ∀ (g : Nat) (x : Gen E), w.gens[g]? = some x → x.client = true → c ≠ .deleteRandom g →
        ∃ x', w'.gens[g]? = some x' ∧ x'.client = true ∧ x'.alive = x.alive ∧
          (x'.st = x.st ∨ (∃ n, c = .drawG g n) ∨ ∃ d n y, c = .draw d n ∧ w.dists[d]? = some y ∧ y.gen = g) := by
  cases c with
  | newRandom seed =>
    refine ⟨_, rfl, inv_push h _ rfl, fun g x hx hcl _ => ⟨x, ?_, hcl, rfl, Or.inl rfl⟩⟩
    show (w.gens ++ _)[g]? = _
    rw [List.getElem?_append_left (lt_of_some hx)]
    exact hx
  | deleteRandom g =>
    obtain ⟨⟨x, hx, hxc, hxa⟩, hd⟩ := hc
    refine ⟨{ w with gens := w.gens.set g { x with alive := false } }, ?_, ⟨?_, h.one, ?_⟩, ?_⟩
    · show deleteG w g = _
      unfold deleteG
      rw [readG_eq.2 ⟨hx, hxa⟩]
      rfl
    · intro d y hy ha
      obtain ⟨z, hz, h1, h2⟩ := h.gen d y hy ha
      refine ⟨z, ?_, h1, h2⟩
      show (w.gens.set g _)[y.gen]? = _
      rw [List.getElem?_set_ne (Ne.symm (hd d y hy ha))]
      exact hz
    · intro i z hz ha hzc
      rcases getElem?_set_some hz with ⟨rfl, rfl, _⟩ | ⟨_, hz⟩
      · cases ha
      · exact h.own i z hz ha hzc
    · intro i z hz hcl hne
      refine ⟨z, ?_, hcl, rfl, Or.inl rfl⟩
      show (w.gens.set g _)[i]? = _
      rw [List.getElem?_set_ne]
      · exact hz
      · rintro rfl
        exact hne rfl
  | newDist time =>
    refine ⟨_, rfl, ⟨?_, ?_, ?_⟩, ?_⟩
    · intro d y hy ha
      rcases getElem?_append_some hy with ⟨_, hy⟩ | ⟨rfl, rfl⟩
      · obtain ⟨z, hz, h1, h2⟩ := h.gen d y hy ha
        refine ⟨z, ?_, h1, h2⟩
        show (w.gens ++ _)[y.gen]? = _
        rw [List.getElem?_append_left (lt_of_some hz)]
        exact hz
      · refine ⟨⟨newAt E time, false, true⟩, ?_, rfl, rfl⟩
        show (w.gens ++ [_])[w.gens.length]? = _
        simp
    · intro d d' y y' hy hy' ha ha' hn hn' hg
      have low : ∀ (d : Nat) (y : Dist), w.dists[d]? = some y → y.alive = true → y.gen < w.gens.length := by
        intro d y hy ha
        obtain ⟨z, hz, _⟩ := h.gen d y hy ha
        exact lt_of_some hz
      rcases getElem?_append_some hy with ⟨_, hy⟩ | ⟨rfl, rfl⟩
      · rcases getElem?_append_some hy' with ⟨_, hy'⟩ | ⟨rfl, rfl⟩
        · exact h.one d d' y y' hy hy' ha ha' hn hn' hg
        · have := low d y hy ha
          rw [hg] at this
          exact absurd this (lt_irrefl _)
      · rcases getElem?_append_some hy' with ⟨_, hy'⟩ | ⟨rfl, rfl⟩
        · have := low d' y' hy' ha'
          rw [← hg] at this
          exact absurd this (lt_irrefl _)
        · rfl
    · intro g x hx ha hcl
      rcases getElem?_append_some hx with ⟨_, hx⟩ | ⟨rfl, rfl⟩
      · obtain ⟨d, y, e1, e2⟩ := h.own g x hx ha hcl
        refine ⟨d, y, ?_, e2⟩
        show (w.dists ++ _)[d]? = _
        rw [List.getElem?_append_left (lt_of_some e1)]
        exact e1
      · refine ⟨w.dists.length, ⟨w.gens.length, true, true⟩, ?_, rfl, rfl, rfl⟩
        show (w.dists ++ [_])[w.dists.length]? = _
        simp
    · intro g x hx hcl _
      refine ⟨x, ?_, hcl, rfl, Or.inl rfl⟩
      show (w.gens ++ _)[g]? = _
      rw [List.getElem?_append_left (lt_of_some hx)]
      exact hx
  | newDistWith g =>
    obtain ⟨x, hx, hxc, hxa⟩ := hc
    refine ⟨{ w with dists := w.dists ++ [⟨g, false, true⟩] }, ?_, ⟨?_, ?_, ?_⟩, ?_⟩
    · show newDistWith w g = _
      unfold newDistWith
      rw [readG_eq.2 ⟨hx, hxa⟩]
      rfl
    · intro d y hy ha
      rcases getElem?_append_some hy with ⟨_, hy⟩ | ⟨rfl, rfl⟩
      · exact h.gen d y hy ha
      · exact ⟨x, hx, hxa, hxc⟩
    · intro d d' y y' hy hy' ha ha' hn hn' hg
      rcases getElem?_append_some hy with ⟨_, hy⟩ | ⟨rfl, rfl⟩
      · rcases getElem?_append_some hy' with ⟨_, hy'⟩ | ⟨rfl, rfl⟩
        · exact h.one d d' y y' hy hy' ha ha' hn hn' hg
        · cases hn'
      · cases hn
    · intro i z hz ha hcl
      obtain ⟨d, y, e1, e2⟩ := h.own i z hz ha hcl
      refine ⟨d, y, ?_, e2⟩
      show (w.dists ++ _)[d]? = _
      rw [List.getElem?_append_left (lt_of_some e1)]
      exact e1
    · exact fun i z hz hcl _ => ⟨z, hz, hcl, rfl, Or.inl rfl⟩
  | setGenerator d g =>
    obtain ⟨⟨y, hy, ha⟩, x, hx, hxc, hxa⟩ := hc
    obtain ⟨w1, e1, e2, e3, e4⟩ := inv_release h hy ha { y with gen := g, newed := false }
      fun _ => ⟨rfl, x, hx, hxc, hxa⟩
    refine ⟨_, ?_, e4, fun i z hz hcl _ => ⟨z, e3 i z hz hcl, hcl, rfl, Or.inl rfl⟩⟩
    show setGenerator w d g = _
    unfold setGenerator
    rw [readG_eq.2 ⟨hx, hxa⟩, readD_eq.2 ⟨hy, ha⟩]
    simp only [Out.ok_bind]
    split_ifs at e1 ⊢ with hn
    · rw [e1]
      rfl
    · cases e1
      rfl
  | destroyDist d =>
    obtain ⟨y, hy, ha⟩ := hc
    obtain ⟨w1, e1, e2, e3, e4⟩ := inv_release h hy ha { y with alive := false } fun h => by cases h
    refine ⟨_, ?_, e4, fun i z hz hcl _ => ⟨z, e3 i z hz hcl, hcl, rfl, Or.inl rfl⟩⟩
    show destroyDist w d = _
    unfold destroyDist
    rw [readD_eq.2 ⟨hy, ha⟩]
    simp only [Out.ok_bind]
    split_ifs at e1 ⊢ with hn
    · rw [e1]
      rfl
    · cases e1
      rfl
  | draw d n =>
    obtain ⟨y, hy, ha⟩ := hc
    obtain ⟨x, hx, h1, h2⟩ := h.gen d y hy ha
    obtain ⟨s', hs⟩ := draws_ok n x.st
    refine ⟨{ w with gens := w.gens.set y.gen { x with st := s' } }, ?_, inv_state h hx s', ?_⟩
    · show (do let (_, w) ← sample w d (draws n); Out.ok w) = _
      unfold sample
      rw [readD_eq.2 ⟨hy, ha⟩]
      simp only [Out.ok_bind]
      rw [readG_eq.2 ⟨hx, h1⟩]
      simp only [Out.ok_bind]
      rw [hs]
      rfl
    · intro g z hz hcl _
      by_cases hg : y.gen = g
      · subst hg
        rw [hx] at hz
        cases hz
        exact ⟨{ x with st := s' }, List.getElem?_set_self (lt_of_some hx), hcl, rfl,
          Or.inr (Or.inr ⟨d, n, y, rfl, hy, rfl⟩)⟩
      · exact ⟨z, (List.getElem?_set_ne hg).trans hz, hcl, rfl, Or.inl rfl⟩
  | drawG g n =>
    obtain ⟨x, hx, hxc, hxa⟩ := hc
    obtain ⟨s', hs⟩ := draws_ok n x.st
    refine ⟨{ w with gens := w.gens.set g { x with st := s' } }, ?_, inv_state h hx s', ?_⟩
    · show (do
        let x ← readG w g
        let (_, st) ← draws (E := E) n x.st
        Out.ok { w with gens := w.gens.set g { x with st := st } }) = _
      rw [readG_eq.2 ⟨hx, hxa⟩]
      simp only [Out.ok_bind]
      rw [hs]
      rfl
    · intro i z hz hcl _
      by_cases hg : g = i
      · subst hg
        rw [hx] at hz
        cases hz
        exact ⟨{ x with st := s' }, List.getElem?_set_self (lt_of_some hx), hcl, rfl, Or.inr (Or.inl ⟨n, rfl⟩)⟩
      · exact ⟨z, (List.getElem?_set_ne hg).trans hz, hcl, rfl, Or.inl rfl⟩

theorem reach_inv {w : Objs E} (h : ObjReach w) : ObjInv w := by
  induction h with
  | init => exact inv_init
  | step c _ hc hs ih =>
    obtain ⟨w', h1, h2, _⟩ := obj_step ih c hc
    rw [hs] at h1
    cases h1
    exact h2

section
set_option linter.unusedSectionVars false
variable {D : Type} [Add D] [Sub D] [Neg D] [Mul D] [Div D] [IntCast D] [LT D] [LE D] [DecidableLT D] [DecidableLE D]

theorem nextDouble1_eq (max : D) (s : E.σ) : (nextDouble1 max : R E D) s = nextDouble2 ((0 : Int) : D) max s := by
  unfold nextDouble1
  split_ifs with h
  · unfold nextDouble2
    rw [if_pos h]
  · rfl

theorem call_global (t : Int) (c : Call D) (g : Global E) :
    c.global t g = (do
      let (r, s) ← c.method (g.getD (newAt E t))
      Out.ok (r, some s)) := by
  have key : ∀ f f' : R E (Ret D), (∀ s, f s = f' s) → Rand.global t f g = (do
      let (r, s) ← f' (g.getD (newAt E t))
      Out.ok (r, some s)) := by
    intro f f' h
    unfold Rand.global
    cases g
    · dsimp only
      rw [h]
      rfl
    · dsimp only
      rw [h]
      rfl
  cases c with
  | double1 max =>
    refine key _ _ fun s => ?_
    show (do pure (.double (← nextDouble2 ((0 : Int) : D) max)) : R E (Ret D)) s =
      (do pure (.double (← nextDouble1 max)) : R E (Ret D)) s
    rw [bind_run, bind_run, nextDouble1_eq]
  | int0 => exact key _ _ fun _ => rfl
  | int1 max => exact key _ _ fun _ => rfl
  | int2 min max => exact key _ _ fun _ => rfl
  | double0 => exact key _ _ fun _ => rfl
  | double2 min max => exact key _ _ fun _ => rfl
  | bool => exact key _ _ fun _ => rfl

theorem runGlobal_some (cs : List (Int × Call D)) (s : E.σ) :
    runGlobal cs (some s) = (do
      let (rs, s) ← runMethods (cs.map Prod.snd) s
      Out.ok (rs, some s)) := by
  induction cs generalizing s with
  | nil => rfl
  | cons tc cs ih =>
    obtain ⟨t, c⟩ := tc
    show (do
      let (r, g) ← c.global t (some s)
      let (rs, g) ← runGlobal cs g
      Out.ok (r :: rs, g)) = _
    rw [call_global, List.map_cons, runMethods, bind_run]
    simp only [Option.getD_some]
    cases h : c.method s with
    | ok v =>
      obtain ⟨r, s'⟩ := v
      simp only [Out.ok_bind, Out.bind]
      rw [ih, bind_run]
      cases h' : runMethods (cs.map Prod.snd) s' with
      | ok v => rfl
      | exit => rfl
      | ub => rfl
      | diverge => rfl
    | exit => rfl
    | ub => rfl
    | diverge => rfl

theorem runGlobal_none (t : Int) (c : Call D) (cs : List (Int × Call D)) :
    runGlobal ((t, c) :: cs) (none : Global E) = runGlobal ((t, c) :: cs) (some (newAt E t)) := by
  show (do
      let (r, g) ← c.global t none
      let (rs, g) ← runGlobal cs g
      Out.ok (r :: rs, g)) = (do
      let (r, g) ← c.global t (some (newAt E t))
      let (rs, g) ← runGlobal cs g
      Out.ok (r :: rs, g))
  rw [call_global, call_global]
  rfl

end
end Rand

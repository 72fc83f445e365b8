import Verif.Proof.TrieIter

/-! # Several tries -/

namespace Trie
open Cpp Spec

variable {A : Byte → Prop} {code : Byte → Int}

/-- a mapper with the demanded properties has codes -/
theorem Spec.Adapter.codes {m : Mapper} (h : Adapter A m) : ∃ code, Alpha A code ∧ Maps A code m := by
  have hv : ∀ c, Valid A c → ∃ n, m c = .ok n := by
    intro c hc
    rcases hc with rfl | hc
    · exact ⟨1, h.end_⟩
    · obtain ⟨n, e, _⟩ := h.letter c hc; exact ⟨n, e⟩
  refine ⟨fun c => match m c with | .ok n => n | _ => 0, ⟨?_, h.not_end, ?_, ?_⟩, ?_⟩
  · simp only [h.end_]
  · intro c hc
    obtain ⟨n, e, h2⟩ := h.letter c hc
    simp only [e]; exact h2
  · intro c d hc hd e
    obtain ⟨n, e1, _⟩ := h.letter c hc
    obtain ⟨n', e2, _⟩ := h.letter d hd
    simp only [e1, e2] at e
    exact h.inj c d hc hd (by rw [e1, e2, e])
  · intro c hc
    obtain ⟨n, e⟩ := hv c hc
    simp only [e]

/-- The tries hold the sets. -/
structure RepW (A : Byte → Prop) (code : Byte → Int) (w : World) (S : Nat → Option (Finset Str)) : Prop where
  none : ∀ i, S i = none → w.trie i = none
  some : ∀ i s, S i = some s → Maps A code w.static ∧ ∃ st m, w.trie i = some (st, m) ∧ Maps A code m ∧ Rep A code st s

theorem act_ok (al : Alpha A code) {w : World} {S : Nat → Option (Finset Str)} (R : RepW A code w S) {a : Act}
    (ha : ActOk A S a) (hm : ∀ i m, a = .construct i m → Maps A code m) :
    ∃ w', w.act a = .ok w' ∧ RepW A code w' (setsAct S a) := by
  cases a with
  | construct i m =>
    obtain ⟨st, e, Rn⟩ := new_rep (A := A) (code := code) al
    have hm' := hm i m rfl
    refine ⟨_, by unfold World.act World.construct; dsimp only; rw [e]; rfl, ?_, ?_⟩
    · intro j hj
      unfold setsAct at hj
      by_cases h : j = i
      · simp [h] at hj
      · simp only [h, if_false] at hj ⊢; exact R.none j hj
    · intro j s hj
      refine ⟨hm', ?_⟩
      unfold setsAct at hj
      by_cases h : j = i
      · simp only [h, if_true] at hj ⊢
        injection hj with hj
        subst hj
        exact ⟨st, m, rfl, hm', Rn⟩
      · simp only [h, if_false] at hj ⊢; exact (R.some j s hj).2
  | insert i u =>
    obtain ⟨h1, h2⟩ := ha
    obtain ⟨s, hs⟩ := Option.isSome_iff_exists.1 h1
    obtain ⟨hst, st, m, e, hm', Rs⟩ := R.some i s hs
    obtain ⟨st', e', R'⟩ := insert_rep al hst hm' Rs h2
    refine ⟨_, by unfold World.act World.insert; dsimp only; rw [e]; dsimp only; rw [e']; rfl, ?_, ?_⟩
    · intro j hj
      unfold setsAct at hj
      by_cases h : j = i
      · simp [h, hs] at hj
      · simp only [h, if_false] at hj ⊢; exact R.none j hj
    · intro j s' hj
      refine ⟨hst, ?_⟩
      unfold setsAct at hj
      by_cases h : j = i
      · simp only [h, if_true, hs, Option.map_some] at hj ⊢
        injection hj with hj
        subst hj
        exact ⟨st', m, rfl, hm', R'⟩
      · simp only [h, if_false] at hj ⊢; exact (R.some j s' hj).2
  | remove i u =>
    obtain ⟨⟨s, hs, hu⟩, h2⟩ := ha
    obtain ⟨hst, st, m, e, hm', Rs⟩ := R.some i s hs
    obtain ⟨st', e', R'⟩ := (remove_rep al hst Rs h2).1 hu
    refine ⟨_, by unfold World.act World.remove; dsimp only; rw [e]; dsimp only; rw [e']; rfl, ?_, ?_⟩
    · intro j hj
      unfold setsAct at hj
      by_cases h : j = i
      · simp [h, hs] at hj
      · simp only [h, if_false] at hj ⊢; exact R.none j hj
    · intro j s' hj
      refine ⟨hst, ?_⟩
      unfold setsAct at hj
      by_cases h : j = i
      · simp only [h, if_true, hs, Option.map_some] at hj ⊢
        injection hj with hj
        subst hj
        exact ⟨st', m, rfl, hm', R'⟩
      · simp only [h, if_false] at hj ⊢; exact (R.some j s' hj).2

theorem acts_ok (al : Alpha A code) : ∀ (as : List Act) {w : World} {S : Nat → Option (Finset Str)}, RepW A code w S →
    ActsOk A S as → (∀ i m, .construct i m ∈ as → Maps A code m) →
    ∃ w', as.foldlM World.act w = .ok w' ∧ RepW A code w' (as.foldl setsAct S) := by
  intro as
  induction as with
  | nil => intro w S R _ _; exact ⟨w, rfl, R⟩
  | cons a as ih =>
    intro w S R h hm
    obtain ⟨w1, e1, R1⟩ := act_ok al R h.1 (fun i m e => hm i m (by rw [e]; simp))
    obtain ⟨w2, e2, R2⟩ := ih R1 h.2 (fun i m e => hm i m (by simp [e]))
    refine ⟨w2, ?_, R2⟩
    rw [List.foldlM_cons, e1]
    simp only [Out.ok_bind]
    exact e2

theorem run_world (al : Alpha A code) (as : List Act) (h : ActsOk A (fun _ => Option.none) as)
    (hm : ∀ i m, .construct i m ∈ as → Maps A code m) :
    ∃ w, World.run as = .ok w ∧ RepW A code w (sets as) := by
  refine acts_ok al as ⟨fun _ _ => rfl, fun i s h => ?_⟩ h hm
  cases h

end Trie

import Verif.Props.Stream
import Verif.Proof.StreamBad

/-! # Every text read as a Vector<int>: property C86 -/

namespace Stream.Props
open Cpp Spec

/-- **C86, exactly what happens.**  For every text: reading it is undefined exactly if it is one of `Undefined`; it gives a vector
exactly if the text begins with one, and then the characters of the vector are consumed; and in all other cases the program ends
with a message. -/
theorem C86_exact_partial (s : Str) :
    (readVector { rest := s } = .ub ↔ Undefined s) ∧
    (∀ v st, readVector { rest := s } = .ok (v, st) ↔
      ∃ t rest, VecText t v ∧ s = t ++ rest ∧ st = { back := t.reverse, rest := rest }) ∧
    (readVector { rest := s } = .exit ↔ ¬ Undefined s ∧ ¬ ∃ t v rest, VecText t v ∧ s = t ++ rest) := by
  rcases readVector_all s with h | ⟨t, v, rest, h, rfl⟩ | h
  · have e := undefined_ub h
    have no : ¬ ∃ t v rest, VecText t v ∧ s = t ++ rest := by
      rintro ⟨t, v, rest, h', rfl⟩
      rw [C85_read t v h' rest] at e
      cases e
    refine ⟨⟨fun _ => h, fun _ => e⟩, fun v st => ⟨fun h' => ?_, ?_⟩, ⟨fun h' => ?_, fun h' => (h'.1 h).elim⟩⟩
    · rw [e] at h'; cases h'
    · rintro ⟨t, rest, h1, h2, -⟩
      exact (no ⟨t, v, rest, h1, h2⟩).elim
    · rw [e] at h'; cases h'
  · have e := C85_read t v h rest
    have no : ¬ Undefined (t ++ rest) := fun h' => by rw [undefined_ub h'] at e; cases e
    refine ⟨⟨fun h' => ?_, fun h' => (no h').elim⟩, fun v' st => ⟨fun h' => ?_, ?_⟩, ⟨fun h' => ?_, fun h' => (h'.2 ⟨t, v, rest, h, rfl⟩).elim⟩⟩
    · rw [e] at h'; cases h'
    · rw [e] at h'
      cases h'
      exact ⟨t, rest, h, rfl, rfl⟩
    · rintro ⟨t', rest', h1, h2, rfl⟩
      rw [h2]
      exact C85_read t' v' h1 rest'
    · rw [e] at h'; cases h'
  · refine ⟨⟨fun h' => ?_, fun h' => ?_⟩, fun v' st => ⟨fun h' => ?_, ?_⟩, ⟨fun _ => ⟨fun h' => ?_, ?_⟩, fun _ => h⟩⟩
    · rw [h] at h'; cases h'
    · rw [undefined_ub h'] at h; cases h
    · rw [h] at h'; cases h'
    · rintro ⟨t', rest', h1, rfl, -⟩
      rw [C85_read t' v' h1 rest'] at h
      cases h
    · rw [undefined_ub h'] at h; cases h
    · rintro ⟨t', v', rest', h1, rfl⟩
      rw [C85_read t' v' h1 rest'] at h
      cases h

/-- **C86.**  So a text determines the vector at its beginning. -/
theorem C86_unique_partial (t t' rest rest' : Str) (v v' : List Int) (h : VecText t v) (h' : VecText t' v')
    (e : t ++ rest = t' ++ rest') : t = t' ∧ v = v' := by
  have h1 := C85_read t v h rest
  rw [e, C85_read t' v' h' rest'] at h1
  simp only [Out.ok.injEq, Prod.mk.injEq, IStream.mk.injEq, List.reverse_inj] at h1
  exact ⟨h1.2.1.symm, h1.1.symm⟩

-- "{1,x}" is undefined, as a word stands behind the comma
example : readVector { rest := bytes ['{', '1', ',', 'x', '}'] } = .ub :=
  (C86_exact_partial _).1.2 (.later [] [⟨[], bytes ['1'], [], 1⟩] (bytes ['x', '}']) (by decide) (by simp) (by
    intro x hx
    rw [List.mem_singleton] at hx
    subst hx
    exact ⟨by show Ws []; decide, .plain (bytes ['1']) (by decide), by show Ws []; decide, by decide⟩)
    (.word [] [] (byte 'x') (bytes ['}']) (by decide) (.inl rfl) (by decide) (fun _ => by decide)))
-- "{,1}" is undefined, "{x}" is an error
example : readVector { rest := bytes ['{', ',', '1', '}'] } = .ub :=
  (C86_exact_partial _).1.2 (.comma [] [] (bytes ['1', '}']) (by decide) (by decide))
example : ¬ Undefined (bytes ['{', 'x', '}']) := by
  have h : readVector { rest := bytes ['{', 'x', '}'] } = .exit := by rfl
  exact ((C86_exact_partial _).2.2.1 h).1

end Stream.Props

import Verif.Proof.JsonStack

/-! # C148: the stack `loadJSON` needs

`loadJSOND D` is `loadJSON` on a machine whose stack holds `D` nested calls of `parse_next`. -/

namespace Json
open Cpp Spec

/-- **C148** (partial).  With room for one call more than the text has opening brackets, the result for **every** text, well
formed or not, is the one `loadJSON` has without a limit.  Missing: a bound that does not depend on the text; see below. -/
theorem C148_stack_partial (str : Str) (D : Nat) (h : opens str < D) : loadJSOND D str = loadJSON str := loadD_eq h

example : opens (bytes ['[', '{', '"', 'a', '"', ':', '1', '}', ',', '2', ']']) < 3 := by decide

/-- **C148** (refuted).  There is no stack that suffices for all texts: whatever the limit, the text `[[[…]]]`, which is
well formed and which `loadJSON` reads without a limit, overflows the stack. -/
theorem C148_refuted : ¬ ∃ D : Nat, ∀ str v, Text EscKey str v → loadJSOND D str = loadJSON str := by
  rintro ⟨D, h⟩
  have ht : Text EscKey (nestText (D + 1)) (nest D) :=
    ⟨[], [], _, (by intro c hc; cases hc), (by intro c hc; cases hc), by simp [nestText], doc_nest _ D⟩
  have := h _ _ ht
  rw [load_text ht, nestText, loadD_deep _ (by omega)] at this
  cases this

/-- **C148** (refuted, malformed texts).  A text that begins with more brackets `[` than calls fit on the stack overflows
it, whatever follows: such a text is not rejected with an error. -/
theorem C148_reject_refuted (D n : Nat) (rest : Str) (h : D < n) :
    loadJSOND D (List.replicate n (byte '[') ++ rest) = .ub := loadD_deep rest h

example : loadJSOND 1000 (List.replicate 1001 (byte '[') ++ bytes ['x']) = .ub := C148_reject_refuted 1000 1001 _ (by omega)

/-- The text `[[[…]]]` with `n` brackets on each side needs room for `n` calls, and `n + 1` suffice. -/
theorem C148_nested_partial (n D : Nat) :
    (D < n + 1 → loadJSOND D (nestText (n + 1)) = .ub) ∧ (n + 1 < D → loadJSOND D (nestText (n + 1)) = .ok (nest n)) := by
  refine ⟨fun h => loadD_deep _ h, fun h => ?_⟩
  have ht : Text EscKey (nestText (n + 1)) (nest n) :=
    ⟨[], [], _, (by intro c hc; cases hc), (by intro c hc; cases hc), by simp [nestText], doc_nest _ n⟩
  rw [loadD_eq, load_text ht]
  have : opens (nestText (n + 1)) = n + 1 := by
    unfold opens nestText
    rw [List.countP_append, List.countP_replicate, List.countP_replicate, if_pos (by decide), if_neg (by decide)]
  omega

example : loadJSOND 2 (bytes ['[', '[', '[', ']', ']', ']']) = .ub := (C148_nested_partial 2 2).1 (by omega)
example : loadJSOND 4 (bytes ['[', '[', '[', ']', ']', ']']) = .ok (.arr [.arr [.arr []]]) :=
  (C148_nested_partial 2 4).2 (by omega)

end Json

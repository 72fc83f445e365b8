import Verif.Proof.JsonLayout

/-! # C172: the layout of `dump` -/

namespace Json.Props
open Cpp Spec

/-- **C172.**  `dump(depth, tab)` lays out every value, with keys in escaped form, in lines indented by multiples of the tab: each
member of an object by the number of brackets and braces open before it, closing braces by one less. -/
def C172 (ok : Str → Value → Prop) : Prop :=
  ∀ (tab : Str) (v : Value) (depth : Int), Blanks tab → Fine v → ok tab v → 1 ≤ depth → LaidOut tab (depth - 1) (dump tab depth v)

/-- **C172, refuted.**  Two characters are taken off the indentation of closing braces, however long the tab is: with a tab
character the brace of an inner object stands at the beginning of the line, with four spaces the last brace is indented by two. -/
theorem C172_tab_refuted : ¬ C172 (fun tab v => tab = [9] ∧ Tidy v) ∧ ¬ C172 (fun tab v => tab = [32, 32, 32, 32] ∧ Tidy v) := by
  have t1 : Tidy (.obj [([97], .int 1)]) := .obj _ (by simp) (by simpa using .plain 97 (by decide) .nil) (by simpa using .int 1)
  have f1 : Fine (.obj [([97], .int 1)]) := .obj _ (by simp) (by simpa using ⟨[97], by decide⟩) (by simpa using .int 1 (by decide))
  constructor
  · intro h
    have t2 : Tidy (.obj [([97], .obj [([97], .int 1)])]) := .obj _ (by simp) (by simpa using .plain 97 (by decide) .nil) (by simpa using t1)
    have f2 : Fine (.obj [([97], .obj [([97], .int 1)])]) := .obj _ (by simp) (by simpa using ⟨[97], by decide⟩) (by simpa using f1)
    have w := h [9] _ 1 (by simp [Blanks]) f2 ⟨rfl, t2⟩ (le_refl 1)
      (bytes ['{', '\n', '\t', '"', 'a', '"', ' ', ':', ' ', '{', '\n', '\t', '\t', '"', 'a', '"', ' ', ':', ' ', '1'])
      (bytes ['}', '\n', '}']) (by decide +kernel)
    have e : (read (1 - 1) (bytes ['{', '\n', '\t', '"', 'a', '"', ' ', ':', ' ', '{', '\n', '\t', '\t', '"', 'a', '"', ' ', ':', ' ',
      '1'])).level = 2 := by decide +kernel
    rw [e] at w
    rcases w.2 with ⟨r, hr⟩ | ⟨r, hr⟩
    · injection hr with hr; revert hr; decide
    · injection hr with hr; revert hr; decide
  · intro h
    have w := h [32, 32, 32, 32] _ 1 (by simp [Blanks]) f1 ⟨rfl, t1⟩ (le_refl 1)
      (bytes ['{', '\n', ' ', ' ', ' ', ' ', '"', 'a', '"', ' ', ':', ' ', '1']) (bytes [' ', ' ', '}']) (by decide +kernel)
    have e : (read (1 - 1) (bytes ['{', '\n', ' ', ' ', ' ', ' ', '"', 'a', '"', ' ', ':', ' ', '1'])).level = 1 := by decide +kernel
    rw [e] at w
    rcases w.2 with ⟨r, hr⟩ | ⟨r, hr⟩
    · have := congrArg (fun l => l[2]?) hr
      revert this; simp [bytes, byte, indent]
    · have := congrArg List.head? hr
      revert this; simp [bytes, byte, indent]

/-- **C172, refuted.**  An empty object is written with an empty line. -/
theorem C172_empty_refuted : dumpDefault (.obj []) = bytes ['{', '\n', '\n', '}'] ∧ ¬ C172 (fun tab _ => tab = bytes [' ', ' ']) := by
  refine ⟨by decide +kernel, fun h => ?_⟩
  have w := h (bytes [' ', ' ']) (.obj []) 1 (by simp [Blanks, bytes, byte]) (.obj _ (by simp) (by simp) (by simp)) rfl (le_refl 1)
    (bytes ['{']) (bytes ['\n', '}']) (by decide +kernel)
  have e : (read (1 - 1) (bytes ['{'])).level = 1 := by decide +kernel
  rw [e] at w
  rcases w.2 with ⟨r, hr⟩ | ⟨r, hr⟩
  · have := congrArg List.head? hr
    revert this; simp [bytes, byte, indent]
  · have := congrArg List.head? hr
    revert this; simp [bytes, byte, indent]

/-- **C172, what holds.**  With a tab of two characters, as by default, every value whose objects have members is laid out so, from
any depth.  Missing for C172: other tabs, empty objects. -/
theorem C172_layout_partial (tab : Str) (hb : Blanks tab) (ht : tab.length = 2) (v : Value) (hv : Tidy v) (depth : Int) :
    LaidOut tab (depth - 1) (dump tab depth v) := by
  have := (dump_piece hb hv depth).lines
  simp only [indent_pred ht] at this
  exact this

example : Blanks (bytes [' ', ' ']) ∧ (bytes [' ', ' ']).length = 2 ∧
    Tidy (.arr [.obj [([97], .str [10]), ([98], .obj [([99], .null)])], .int 3]) := by
  refine ⟨by simp [Blanks, bytes, byte], rfl, .arr _ ?_⟩
  have t1 : Tidy (.obj [([99], .null)]) := .obj _ (by simp) (by simpa using .plain 99 (by decide) .nil) (by simpa using .null)
  have e : ∀ p ∈ [([97], Value.str [10]), ([98], Value.obj [([99], .null)])], Escaped p.1 := by
    simp only [List.mem_cons, List.not_mem_nil, or_false, forall_eq_or_imp, forall_eq]
    exact ⟨.plain 97 (by decide) .nil, .plain 98 (by decide) .nil⟩
  simp only [List.mem_cons, List.not_mem_nil, or_false, forall_eq_or_imp, forall_eq]
  refine ⟨.obj _ (by simp) e ?_, .int 3⟩
  simp only [List.mem_cons, List.not_mem_nil, or_false, forall_eq_or_imp, forall_eq]
  exact ⟨.str _, t1⟩

/-- **C172, what holds for every tab.**  Members are indented as expected; a closing brace by the indentation of the members less
two characters. -/
theorem C172_brace_partial (tab : Str) (hb : Blanks tab) (v : Value) (hv : Tidy v) (depth : Int) :
    Lines (indent tab) (fun k => (indent tab k).drop 2) (depth - 1) (dump tab depth v) := (dump_piece hb hv depth).lines

/-- **C172, what holds for every tab.**  There is one line break before each member of an object and one before each closing brace
of an object, and no other; the brackets, braces and quotes match. -/
theorem C172_breaks_partial (tab : Str) (hb : Blanks tab) (v : Value) (hv : Tidy v) (depth : Int) :
    (dump tab depth v).count 10 = breaks v ∧ read 0 (dump tab depth v) = ⟨false, false, 0⟩ := by
  refine ⟨(dump_piece hb hv depth).count, ?_⟩
  have shift : ∀ (t : Str) (s : Reader) (a b : Int), t.foldl Reader.step s = ⟨false, false, b⟩ →
      t.foldl Reader.step ⟨s.quoted, s.esc, s.level + a⟩ = ⟨false, false, b + a⟩ := by
    intro t
    induction t with
    | nil => intro s a b e; simp only [List.foldl_nil] at e ⊢; rw [e]
    | cons c t ih =>
      intro s a b e
      rw [List.foldl_cons] at e ⊢
      have e1 : Reader.step ⟨s.quoted, s.esc, s.level + a⟩ c = ⟨(s.step c).quoted, (s.step c).esc, (s.step c).level + a⟩ := by
        unfold Reader.step
        dsimp only
        split
        · split
          · rfl
          · split
            · rfl
            · split <;> rfl
        · split
          · rfl
          · split
            · simp only [Reader.mk.injEq, true_and]; omega
            · split
              · simp only [Reader.mk.injEq, true_and]; omega
              · rfl
      rw [e1]
      exact ih _ a b e
  have := shift _ _ (1 - depth) _ (dump_piece hb hv depth).fold
  dsimp only at this
  rw [show depth - 1 + (1 - depth) = 0 by omega] at this
  exact this

example : breaks (.arr [.obj [([97], .str [10]), ([98], .obj [([99], .null)])], .int 3]) = 5 ∧
    (dumpDefault (.arr [.obj [([97], .str [10]), ([98], .obj [([99], .null)])], .int 3])).count 10 = 5 := by decide +kernel

end Json.Props

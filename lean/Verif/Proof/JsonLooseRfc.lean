import Verif.Proof.JsonLooseDoc

/-! # Helper lemmas: JSON texts without exponents are among the texts taken for JSON -/

namespace Json
open Cpp Spec

theorem ws_blank {w : Str} (h : Ws w) : Blank w := by
  intro c hc
  rcases h c hc with rfl | rfl | rfl | rfl <;> decide

theorem rbody_loose {t : Str} (h : RBody t) : ∃ s, LBody t s := by
  induction h with
  | nil => exact ⟨_, .nil⟩
  | plain c h h' _ _ ih => obtain ⟨s, hs⟩ := ih; exact ⟨_, .plain c h h' hs⟩
  | escape p h _ ih => obtain ⟨s, hs⟩ := ih; exact ⟨_, .escape p.1 p.2 h hs⟩
  | unicode h hl hh _ ih => obtain ⟨s, hs⟩ := ih; exact ⟨_, .unicode h hl hh hs⟩

theorem number_loose {n : Number} (h : n.Ok) (he : n.exp = none) : ∃ v, Numeral n.text v := by
  let m : LNum := ⟨n.neg, n.ip, n.frac, []⟩
  have hm : m.Ok := ⟨h.1.2, fun f hf => (h.2.1 f hf).2, by simp [m], by simp [m], fun _ => h.1.1⟩
  have ht : n.text = m.text := by
    unfold Number.text LNum.text
    rw [he]
    simp only [m, List.append_nil]
    cases n.frac <;> rfl
  by_cases hp : byte '.' ∈ n.text
  · exact ⟨_, m, hm, ht, .inl ⟨hp, rfl⟩⟩
  · have hfr : m.frac = none := by
      cases hf : m.frac with
      | none => rfl
      | some f => exact absurd (by rw [ht]; unfold LNum.text; rw [hf]; simp) hp
    refine ⟨_, m, hm, ht, .inr ⟨hp, if m.neg then -(nat m.ip : Int) else nat m.ip, ?_, rfl⟩⟩
    unfold LNum.value
    rw [hfr]
    cases m.neg <;> simp

theorem rfc_loose {t : Str} (h : Rfc false t) : ∃ b v, Loose b t v := by
  induction h with
  | null => exact ⟨_, _, .null⟩
  | true => exact ⟨_, _, .true⟩
  | false => exact ⟨_, _, .false⟩
  | num n h hz he =>
    obtain ⟨v, hv⟩ := number_loose h he
    exact ⟨_, _, .num _ v hv⟩
  | exp n h hz he hE => exact absurd hE (by simp)
  | str t h =>
    obtain ⟨s, hs⟩ := rbody_loose h
    exact ⟨_, _, .str t s hs⟩
  | arr0 w h => exact ⟨_, _, .arr0 w (ws_blank h)⟩
  | obj0 w h => exact ⟨_, _, .obj0 w (ws_blank h)⟩
  | arr l hne hw h ih =>
    classical
    let f : Around → LItem := fun x => if hx : x ∈ l then
      ⟨x.pre, x.text, x.post, (ih x hx).choose_spec.choose, (ih x hx).choose⟩ else ⟨x.pre, x.text, x.post, .null, false⟩
    have hf : l.map Around.full = (l.map f).map LItem.full := by
      rw [List.map_map]
      refine List.map_congr_left fun x hx => ?_
      simp [f, hx, Around.full, LItem.full]
    rw [hf]
    refine ⟨_, _, .arr (l.map f) (by simpa using hne) ?_ ?_⟩
    · intro y hy
      obtain ⟨x, hx, rfl⟩ := List.mem_map.1 hy
      simp only [f, hx, dite_true]
      exact ⟨ws_blank (hw x hx).1, ws_blank (hw x hx).2⟩
    · intro y hy
      obtain ⟨x, hx, rfl⟩ := List.mem_map.1 hy
      simp only [f, hx, dite_true]
      exact (ih x hx).choose_spec.choose_spec
  | obj l hne hw hk h ih =>
    classical
    have hk' : ∀ x ∈ l, ∃ s, Loose false x.1.text (.str s) := by
      intro x hx
      obtain ⟨t, ht, e⟩ := hk x hx
      obtain ⟨s, hs⟩ := rbody_loose ht
      exact ⟨s, e ▸ .str t s hs⟩
    let f : Around × Around → LMember := fun x => if hx : x ∈ l then
      ⟨⟨x.1.pre, x.1.text, x.1.post, .str (hk' x hx).choose, false⟩,
        ⟨x.2.pre, x.2.text, x.2.post, (ih x hx).choose_spec.choose, (ih x hx).choose⟩⟩
      else ⟨⟨[], [], [], .null, false⟩, ⟨[], [], [], .null, false⟩⟩
    have hf : (l.map fun x => x.1.full ++ [byte ':'] ++ x.2.full) = (l.map f).map LMember.full := by
      rw [List.map_map]
      refine List.map_congr_left fun x hx => ?_
      simp [f, hx, Around.full, LMember.full, LItem.full]
    rw [hf]
    refine ⟨_, _, .obj (l.map f) ((l.map f).map fun x => (x.key.value.toString, x.item.value)) _ (by simpa using hne)
      ?_ ?_ ?_ ?_ ?_ (puts_mapOf _)⟩
    · intro y hy
      obtain ⟨x, hx, rfl⟩ := List.mem_map.1 hy
      simp only [f, hx, dite_true]
      exact ⟨ws_blank (hw x hx).1.1, ws_blank (hw x hx).1.2, ws_blank (hw x hx).2.1, ws_blank (hw x hx).2.2⟩
    · intro y hy
      obtain ⟨x, hx, rfl⟩ := List.mem_map.1 hy
      simp only [f, hx, dite_true]
      exact (hk' x hx).choose_spec
    · intro y hy
      obtain ⟨x, hx, rfl⟩ := List.mem_map.1 hy
      simp [f, hx]
    · intro y hy
      obtain ⟨x, hx, rfl⟩ := List.mem_map.1 hy
      simp only [f, hx, dite_true]
      exact (ih x hx).choose_spec.choose_spec
    · rw [List.forall₂_map_right_iff]
      refine List.forall₂_same.2 fun y _ => ⟨keyOf_toString _, rfl⟩

theorem rfcText_loose {t : Str} (h : RfcText false t) : ∃ v, LooseText t v := by
  obtain ⟨x, hx, h, rfl⟩ := h
  obtain ⟨b, v, hv⟩ := rfc_loose h
  refine ⟨v, x.pre, x.text, x.post, ws_blank hx.1, rfl, ?_⟩
  cases b with
  | false => exact .inl hv
  | true =>
    refine .inr (.inl ⟨hv, ?_⟩)
    intro c hc
    have := ws_blank hx.2 c (List.mem_of_mem_head? hc)
    exact .inl this

/-! ## the last character of a JSON text -/

/-- characters that may end a JSON text -/
def Last (c : Byte) : Prop :=
  (c = 32 ∨ c = 9 ∨ c = 10 ∨ c = 13) ∨ c ∈ bytes ['l', 'e', '"', ']', '}'] ∨ (48 ≤ c ∧ c ≤ 57)

theorem last_append {a b : Str} (h : b ≠ []) (hb : ∀ c ∈ b.getLast?, Last c) : ∀ c ∈ (a ++ b).getLast?, Last c := by
  rw [List.getLast?_append_of_ne_nil _ h]
  exact hb

theorem last_digits {ds : Str} (h : Digits ds) : ∀ c ∈ ds.getLast?, Last c := fun c hc =>
  .inr (.inr (h.2 c (List.mem_of_getLast? hc)))

theorem rfc_last {E : Bool} {t : Str} (h : Rfc E t) : t ≠ [] ∧ ∀ c ∈ t.getLast?, Last c := by
  have single : ∀ {a : Str} {c : Byte}, Last c → a ++ [c] ≠ [] ∧ ∀ x ∈ (a ++ [c]).getLast?, Last x := by
    intro a c hc
    refine ⟨by simp, last_append (by simp) ?_⟩
    intro x hx
    simp at hx
    subst hx
    exact hc
  cases h with
  | null => exact single (a := bytes ['n', 'u', 'l']) (by unfold Last; decide)
  | true => exact single (a := bytes ['t', 'r', 'u']) (by unfold Last; decide)
  | false => exact single (a := bytes ['f', 'a', 'l', 's']) (by unfold Last; decide)
  | num n h hz he =>
    unfold Number.text
    rw [he]
    cases hf : n.frac with
    | none =>
      simp only [List.append_nil]
      exact ⟨by simp [h.1.1], last_append h.1.1 (last_digits h.1)⟩
    | some f =>
      have := h.2.1 f (by rw [hf]; rfl)
      simp only [List.append_nil]
      refine ⟨by simp, ?_⟩
      rw [List.append_cons]
      exact last_append this.1 (last_digits this)
  | exp n h hz he hE e h' sign ds hs hd => exact ⟨by simp, last_append hd.1 (last_digits hd)⟩
  | str t h => exact single (by unfold Last; decide)
  | arr0 w h => exact single (by unfold Last; decide)
  | arr l hne hw h => exact single (by unfold Last; decide)
  | obj0 w h => exact single (by unfold Last; decide)
  | obj l hne hw hk h => exact single (by unfold Last; decide)

theorem rfcText_last {E : Bool} {t : Str} (h : RfcText E t) : ∀ c ∈ t.getLast?, Last c := by
  obtain ⟨x, hx, h, rfl⟩ := h
  obtain ⟨h1, h2⟩ := rfc_last h
  unfold Around.full
  by_cases hp : x.post = []
  · rw [hp, List.append_nil]
    exact last_append h1 h2
  · exact last_append hp fun c hc => .inl (hx.2 c (List.mem_of_getLast? hc))

end Json

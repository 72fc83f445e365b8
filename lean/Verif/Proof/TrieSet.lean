import Verif.Proof.TrieMove
import Verif.Spec.Trie

/-! # The trie as a set -/

namespace Trie
open Cpp Spec

/-- The state holds the words `S`. -/
structure Rep (A : Byte → Prop) (code : Byte → Int) (st : St) (S : Finset Str) : Prop where
  inv : Inv A st
  word : ∀ u, st.Word A code u ↔ ∃ w ∈ S, u = w ++ [1]
  size : st.size = S.card

variable {A : Byte → Prop} {code : Byte → Int}

theorem Rep.mem {st : St} {S : Finset Str} (R : Rep A code st S) (w : Str) : st.Word A code (w ++ [1]) ↔ w ∈ S := by
  rw [R.word]
  constructor
  · rintro ⟨w', h, e⟩
    rw [List.append_cancel_right e]; exact h
  · intro h; exact ⟨w, h, rfl⟩

theorem term_of {w : Str} (h : ∀ c ∈ w, A c) : Term A (w ++ [1]) := ⟨w, h, rfl⟩

theorem new_rep (_al : Alpha A code) : ∃ st, new = .ok st ∧ Rep A code st ∅ := by
  refine ⟨_, by unfold new; rw [AA.set_ok _ (Int.le_refl 0)]; rfl, ?_, ?_, ?_⟩
  · have hk : ∀ s, (AA.new 26 (-1) : AA Int).at s = -1 := by
      intro s; unfold AA.at AA.new; simp
    refine ⟨⟨hk 0, ?_, ?_, ?_, ?_, ?_, ?_, ?_, ?_⟩, ⟨?_, ?_, by simp, by simp, by simp⟩, ⟨rfl, ?_, ?_, by simp [AA.new]⟩⟩
    · show 0 ≤ ((AA.new 26 (-1) : AA Int).put 0 0).at 0
      rw [AA.at_put, if_pos rfl]
    all_goals first
      | (intro s h; exact absurd (hk s) h)
      | skip
    · intro s t h; exact absurd (hk s) h
    · intro s h _
      rcases h with rfl | h
      · exact (AA.size_put _ _ _).2
      · exact absurd (hk s) h
  · intro u
    simp only [Finset.notMem_empty, false_and, exists_false, iff_false]
    rintro ⟨v, t, hp, hne, -⟩
    have hk : ∀ s, (AA.new 26 (-1) : AA Int).at s = -1 := by
      intro s; unfold AA.at AA.new; simp
    cases hp with
    | root => exact hne rfl
    | step c hp hb hc h =>
      rename_i w n
      have h : (AA.new 26 (-1) : AA Int).at _ = n := h
      rw [hk] at h
      subst h
      have h : 0 ≤ ((AA.new 26 (-1) : AA Int).put 0 0).at (-1) := hb
      rw [AA.at_put, if_neg (by omega), hk] at h
      omega
  · rfl

theorem contain_rep (al : Alpha A code) {ms : Mapper} (hms : Maps A code ms) {st : St} {S : Finset Str}
    (R : Rep A code st S) {w : Str} (hw : ∀ c ∈ w, A c) : contain ms st w = .ok (decide (w ∈ S)) := by
  obtain ⟨r, e, h⟩ := retrieve_ok al R.inv hms (w ++ [1]) [] 0 (term_of hw) .root R.inv.core.b0
  unfold contain
  rw [show endChar = 1 from rfl, e]
  congr 1
  rw [List.nil_append, R.mem] at h
  by_cases hm : w ∈ S
  · rw [decide_eq_true hm]; exact h.2 hm
  · rw [decide_eq_false hm]
    exact Bool.eq_false_iff.2 fun h' => hm (h.1 h')

theorem insert_rep (al : Alpha A code) {ms mo : Mapper} (hms : Maps A code ms) (hmo : Maps A code mo) {st : St} {S : Finset Str}
    (R : Rep A code st S) {w : Str} (hw : ∀ c ∈ w, A c) :
    ∃ st', insert ms mo st w = .ok st' ∧ Rep A code st' (Insert.insert w S) := by
  unfold insert
  rw [contain_rep al hms R hw]
  simp only [Out.ok_bind]
  by_cases hm : w ∈ S
  · rw [decide_eq_true hm, if_pos rfl]
    exact ⟨st, rfl, by rw [Finset.insert_eq_of_mem hm]; exact R⟩
  · rw [decide_eq_false hm, if_neg (by simp)]
    obtain ⟨st', e, I', hs, hW, -⟩ := insertGo_ok al R.inv hms hmo (w ++ [1]) [] 0 (term_of hw) .root R.inv.core.b0
      (by rw [List.nil_append, R.mem]; exact hm)
    rw [show endChar = 1 from rfl, e]
    simp only [Out.ok_bind]
    refine ⟨_, rfl, ⟨I'.core, I'.tails, ⟨I'.lens.kd, I'.lens.bsz, I'.lens.ksz, I'.lens.tsz⟩⟩, fun u => ?_, ?_⟩
    · refine (hW u).trans ?_
      rw [R.word, List.nil_append]
      constructor
      · rintro (⟨w', h, e⟩ | e)
        · exact ⟨w', Finset.mem_insert_of_mem h, e⟩
        · exact ⟨w, Finset.mem_insert_self _ _, e⟩
      · rintro ⟨w', h, e'⟩
        rcases Finset.mem_insert.1 h with rfl | h
        · exact .inr e'
        · exact .inl ⟨w', h, e'⟩
    · show st'.size + 1 = _
      rw [hs, R.size, Finset.card_insert_of_notMem hm]
      simp

theorem remove_rep (al : Alpha A code) {ms : Mapper} (hms : Maps A code ms) {st : St} {S : Finset Str}
    (R : Rep A code st S) {w : Str} (hw : ∀ c ∈ w, A c) :
    (w ∈ S → ∃ st', remove ms st w = .ok st' ∧ Rep A code st' (S.erase w)) ∧
    (w ∉ S → remove ms st w = .ub ∨ remove ms st w = .ok st) := by
  obtain ⟨h1, h2⟩ := removeGo_ok al R.inv hms (w ++ [1]) [] 0 (term_of hw) .root R.inv.core.b0
  rw [List.nil_append, R.mem] at h1 h2
  unfold remove
  rw [show endChar = 1 from rfl]
  constructor
  · intro hm
    obtain ⟨st', e, I', hs, -, hW⟩ := h1 hm
    rw [e]
    simp only [Out.ok_bind, if_true]
    refine ⟨_, rfl, ⟨I'.core, I'.tails, ⟨I'.lens.kd, I'.lens.bsz, I'.lens.ksz, I'.lens.tsz⟩⟩, fun u => ?_, ?_⟩
    · refine (hW u).trans ?_
      rw [R.word]
      constructor
      · rintro ⟨⟨w', h, e⟩, hne⟩
        exact ⟨w', Finset.mem_erase.2 ⟨fun e' => hne (by rw [e, e']), h⟩, e⟩
      · rintro ⟨w', h, e⟩
        obtain ⟨h3, h4⟩ := Finset.mem_erase.1 h
        exact ⟨⟨w', h4, e⟩, fun e' => h3 (List.append_cancel_right (e.symm.trans e'))⟩
    · show st'.size - 1 = _
      have := Finset.card_pos.2 ⟨w, hm⟩
      rw [hs, R.size, Finset.card_erase_of_mem hm]
      omega
  · intro hm
    rcases h2 hm with e | e
    · left; rw [e]; rfl
    · right; rw [e]; rfl

/-! ### the default mapper -/

def lower (c : Byte) : Prop := 97 ≤ c ∧ c ≤ 122

def lcode (c : Byte) : Int := if c = 1 then 1 else (c.toNat : Int) - 95

theorem lower_alpha : Alpha lower lcode := by
  constructor
  · decide
  · unfold lower; decide
  · intro c h
    have h1 : 97 ≤ c.toNat := h.1
    have h2 : c.toNat ≤ 122 := h.2
    unfold lcode
    rw [if_neg (by rintro rfl; simp at h1)]
    omega
  · intro c d hc hd e
    have h1 : 97 ≤ c.toNat := hc.1
    have h2 : 97 ≤ d.toNat := hd.1
    unfold lcode at e
    rw [if_neg (by rintro rfl; simp at h1), if_neg (by rintro rfl; simp at h2)] at e
    exact UInt8.toNat_inj.1 (by omega)

theorem lower_maps : Maps lower lcode mapChar := by
  intro c h
  rcases h with rfl | h
  · decide
  · have h1 : 97 ≤ c.toNat := h.1
    have h2 : c.toNat ≤ 122 := h.2
    have hv : charVal c = (c.toNat : Int) := by unfold charVal; rw [if_pos (by omega)]
    unfold mapChar lcode
    have hne : c ≠ 1 := by rintro rfl; simp at h1
    rw [if_neg hne, if_neg hne, hv, if_neg (by omega)]
    congr 1; omega

theorem run_ok {st : St} {S : Finset Str} (R : Rep lower lcode st S) (ops : List (Bool × Str)) (hw : ∀ op ∈ ops, Lower op.2) :
    let r := ops.foldlM (fun st op => if op.1 then insert mapChar mapChar st op.2 else remove mapChar st op.2) st
    let S' := ops.foldl (fun S op => if op.1 then Insert.insert op.2 S else S.erase op.2) S
    r = .ub ∨ ∃ st', r = .ok st' ∧ Rep lower lcode st' S' := by
  induction ops generalizing st S with
  | nil => exact .inr ⟨st, rfl, R⟩
  | cons op ops ih =>
    obtain ⟨b, w⟩ := op
    have h1 : ∀ c ∈ w, lower c := hw (b, w) (by simp)
    have h2 : ∀ op ∈ ops, Lower op.2 := fun op h => hw op (by simp [h])
    intro r S'
    cases b with
    | true =>
      obtain ⟨st', e, R'⟩ := insert_rep lower_alpha lower_maps lower_maps R h1
      have : r = ops.foldlM (fun st op => if op.1 then insert mapChar mapChar st op.2 else remove mapChar st op.2) st' := by
        show List.foldlM _ _ _ = _
        rw [List.foldlM_cons]
        simp only [if_true]
        rw [e]
        rfl
      rw [this]
      exact ih R' h2
    | false =>
      obtain ⟨g1, g2⟩ := remove_rep lower_alpha lower_maps R h1
      have hr : r = (remove mapChar st w >>= fun st =>
          ops.foldlM (fun st op => if op.1 then insert mapChar mapChar st op.2 else remove mapChar st op.2) st) := by
        show List.foldlM _ _ _ = _
        rw [List.foldlM_cons]
        rfl
      by_cases hm : w ∈ S
      · obtain ⟨st', e, R'⟩ := g1 hm
        rw [hr, e]
        exact ih R' h2
      · rcases g2 hm with e | e
        · left; rw [hr, e]; rfl
        · rw [hr, e]
          have := ih R h2
          have hS : S' = ops.foldl (fun S op => if op.1 then Insert.insert op.2 S else S.erase op.2) S := by
            show List.foldl _ _ _ = _
            rw [List.foldl_cons]
            simp [Finset.erase_eq_of_notMem hm]
          rw [hS]
          exact this

theorem run_rep (ops : List (Bool × Str)) (hw : ∀ op ∈ ops, Lower op.2) :
    run ops = .ub ∨ ∃ st, run ops = .ok st ∧ Rep lower lcode st (words ops) := by
  obtain ⟨st, e, R⟩ := new_rep lower_alpha
  unfold run
  rw [e]
  exact run_ok R ops hw

theorem words_snoc (ops : List (Bool × Str)) (op : Bool × Str) :
    words (ops ++ [op]) = if op.1 then Insert.insert op.2 (words ops) else (words ops).erase op.2 := by
  unfold words; rw [List.foldl_append]; rfl

theorem run_snoc (ops : List (Bool × Str)) (op : Bool × Str) :
    run (ops ++ [op]) = (do
      let st ← run ops
      if op.1 then insert mapChar mapChar st op.2 else remove mapChar st op.2) := by
  unfold run
  rw [bind_assoc]
  congr 1
  funext st
  rw [List.foldlM_append]
  congr 1
  funext st
  rw [List.foldlM_cons]
  exact bind_pure _

theorem run_legal (ops : List (Bool × Str)) (hw : ∀ op ∈ ops, Lower op.2) (hl : Legal ops) :
    ∃ st, run ops = .ok st ∧ Rep lower lcode st (words ops) := by
  induction ops using List.reverseRecOn with
  | nil =>
    obtain ⟨st, e, R⟩ := new_rep lower_alpha
    exact ⟨st, by unfold run; rw [e]; rfl, R⟩
  | append_singleton ops op ih =>
    obtain ⟨st, e, R⟩ := ih (fun o h => hw o (by simp [h])) (fun l w r h => hl l w (r ++ [op]) (by rw [h]; simp))
    rw [run_snoc, words_snoc, e]
    simp only [Out.ok_bind]
    have h1 : ∀ c ∈ op.2, lower c := hw op (by simp)
    obtain ⟨b, w⟩ := op
    cases b with
    | true => exact insert_rep lower_alpha lower_maps lower_maps R h1
    | false => exact (remove_rep lower_alpha lower_maps R h1).1 (hl ops w [] rfl)

end Trie

import Verif.Proof.TrieHistory
import Verif.Spec.TrieAbsent

/-! # Helper lemmas for `Trie`: removals of absent words which stay inside the tables -/

namespace Trie
open Cpp Spec

variable {A : Byte → Prop} {code : Byte → Int}

/-- Where there is an arc with the same or a larger code, the lookup of `remove_` stays inside `check`. -/
theorem removeGo_def (al : Alpha A code) {st : St} (I : Inv A st) {ms : Mapper} (hms : Maps A code ms) :
    ∀ (w v : Str) (n : Int), Term A w → Path A code st.b st.k v n → 0 ≤ st.b n →
      (∀ x c r, w = x ++ c :: r → st.Inner A code (v ++ x) → ∃ d y, Valid A d ∧ code c ≤ code d ∧
        st.Word A code (v ++ x ++ d :: y)) → removeGo ms st n w ≠ .ub := by
  intro w
  induction w with
  | nil => intro v n h; exact absurd h Term.nil_not
  | cons c rest ih =>
    intro v n hw hp hb hg
    have C := I.core
    have hc : Valid A c := by rcases hw.cons_inv with h | h; exacts [.inl h.1, .inr h.1]
    have hr := al.range' hc
    have hna := hp.alloc C
    have hn0 := C.nonneg hna
    unfold removeGo
    rw [hms c hc]
    simp only [Out.ok_bind]
    rw [AA.get_ok _ hn0 (I.bsz hna)]
    simp only [Out.ok_bind]
    rw [show st.base.at n = st.b n from rfl]
    have hsz : st.b n + code c < st.check.size := by
      obtain ⟨d, y, hd, hcd, hW⟩ := hg [] c rest rfl (by simpa using ⟨n, hp, hb⟩)
      rw [List.append_nil] at hW
      have h1 := ((word_step (T := st.T) hp hb hd y).1 hW).1
      have h2 := I.lens.ksz (st.b n + code d) (by omega)
      omega
    rw [AA.get_ok _ (by omega) hsz]
    simp only [Out.ok_bind]
    rw [show st.check.at (st.b n + code c) = st.k (st.b n + code c) from rfl]
    by_cases hk : st.k (st.b n + code c) = n
    · have hfree : st.k (st.b n + code c) ≠ -1 := by omega
      rw [if_neg (by simpa using hk), AA.get_ok _ (by omega) (I.bsz (.inr hfree))]
      simp only [Out.ok_bind]
      rw [show st.base.at (st.b n + code c) = st.b (st.b n + code c) from rfl]
      have hp' := Path.step c hp hb hc hk
      have hoff : st.b n + code c - st.b (st.k (st.b n + code c)) = code c := by rw [hk]; omega
      by_cases hbt : st.b (st.b n + code c) < -1
      · rw [if_pos hbt, AA.getc_ok _ (by omega)]
        simp only [Out.ok_bind]
        split
        · rw [setBase_ok _ (by omega)]
          simp only [Out.ok_bind]
          rw [setCheck_ok _ (by omega)]
          simp
        · simp
      · rw [if_neg hbt]
        rcases hw.cons_inv with ⟨rfl, rfl⟩ | ⟨hA, hT⟩
        · unfold removeGo
          rw [setCheck_ok _ (by omega)]
          simp
        · have hne : st.b n + code c - st.b (st.k (st.b n + code c)) ≠ 1 := by have := al.range c hA; omega
          have hb2 : 0 ≤ st.b (st.b n + code c) := by rcases C.leafLet _ hfree hne with h | h <;> omega
          refine ih (v ++ [c]) _ hT hp' hb2 fun x c' r e hi => ?_
          obtain ⟨d, y, h1, h2, h3⟩ := hg (c :: x) c' r (by rw [e]; rfl) (by simpa using hi)
          exact ⟨d, y, h1, h2, by simpa using h3⟩
    · rw [if_pos hk]
      simp

/-- the next letters of two words with a common beginning, the first word not after the second -/
theorem next_le_of_le {w u v r y : Str} {c d : Byte} (hw : Lower w) (hu : Lower u) (hle : w ≤ u) (h1 : w ++ [1] = v ++ c :: r)
    (h2 : u ++ [1] = v ++ d :: y) : c ≤ d := by
  induction v generalizing w u with
  | nil =>
    cases w with
    | nil =>
      simp only [List.nil_append, List.cons.injEq] at h1
      rw [← h1.1]
      cases u with
      | nil => simp only [List.nil_append, List.cons.injEq] at h2; rw [← h2.1]; exact UInt8.le_refl _
      | cons a u =>
        simp only [List.nil_append, List.cons_append, List.cons.injEq] at h2
        rw [← h2.1]
        have : 97 ≤ a := (hu a (by simp)).1
        exact UInt8.le_trans (by decide : (1 : UInt8) ≤ 97) this
    | cons a w =>
      simp only [List.nil_append, List.cons_append, List.cons.injEq] at h1
      cases u with
      | nil => simp at hle
      | cons b u =>
        simp only [List.nil_append, List.cons_append, List.cons.injEq] at h2
        rw [← h1.1, ← h2.1]
        rcases List.cons_le_cons_iff.1 hle with h | h
        · exact UInt8.le_of_lt h
        · rw [h.1]; exact UInt8.le_refl _
  | cons x v ih =>
    cases w with
    | nil => simp at h1
    | cons a w =>
      cases u with
      | nil => simp at h2
      | cons b u =>
        simp only [List.cons_append, List.cons.injEq] at h1 h2
        refine ih (fun z hz => hw z (by simp [hz])) (fun z hz => hu z (by simp [hz])) ?_ h1.2 h2.2
        rcases List.cons_le_cons_iff.1 hle with h | h
        · rw [h1.1, h2.1] at h; exact absurd h (UInt8.lt_irrefl _)
        · exact h.2

theorem lcode_mono {c d : Byte} (hc : Valid lower c) (hd : Valid lower d) (h : c ≤ d) : lcode c ≤ lcode d := by
  unfold lcode
  rcases hc with rfl | hc <;> rcases hd with rfl | hd
  · simp
  · have h1 : 97 ≤ d.toNat := hd.1
    rw [if_pos rfl, if_neg (by rintro rfl; simp at h1)]
    omega
  · have h1 : 97 ≤ c.toNat := hc.1
    have h2 : c.toNat ≤ 1 := h
    omega
  · have h1 : 97 ≤ c.toNat := hc.1
    have h2 : 97 ≤ d.toNat := hd.1
    have h3 : c.toNat ≤ d.toNat := h
    rw [if_neg (by rintro rfl; simp at h1), if_neg (by rintro rfl; simp at h2)]
    omega

theorem remove_absent {st : St} {S : Finset Str} {F : Str → Prop} (R : Rep lower lcode st S)
    (hF : ∀ v, v ≠ [] → (F v ↔ Inn st v)) (hS : ∀ u ∈ S, Lower u) {w : Str} (hw : Lower w) (hm : w ∉ S)
    (h : ∀ v, v <+: w → (v = [] ∨ F v) → ∃ u ∈ S, v <+: u ∧ w ≤ u) : remove mapChar st w = .ok st := by
  rcases (remove_rep lower_alpha lower_maps R hw).2 hm with e | e
  · exfalso
    have hg := removeGo_def lower_alpha R.inv lower_maps (w ++ [1]) [] 0 (term_of hw) .root R.inv.core.b0 ?_
    · unfold remove at e
      rw [show endChar = 1 from rfl] at e
      cases hx : removeGo mapChar st 0 (w ++ [1]) with
      | ub => exact hg hx
      | ok a => rw [hx] at e; cases e
      | exit => rw [hx] at e; cases e
      | diverge => rw [hx] at e; cases e
    · intro x c r e1 hi
      rw [List.nil_append] at hi ⊢
      have hxw : x <+: w := by
        rcases List.eq_nil_or_concat r with rfl | ⟨r', z, rfl⟩
        · rw [List.append_inj_left' e1 rfl]
        · rw [List.concat_eq_append, show x ++ c :: (r' ++ [z]) = (x ++ c :: r') ++ [z] by simp] at e1
          rw [List.append_inj_left' e1 rfl]
          exact List.prefix_append _ _
      obtain ⟨u, hu, hxu, hle⟩ := h x hxw (by
        by_cases hx : x = []
        · exact .inl hx
        · exact .inr ((hF x hx).2 hi))
      obtain ⟨t, ht⟩ := hxu
      obtain ⟨d, y, hd⟩ : ∃ d y, t ++ [1] = d :: y := by cases t <;> exact ⟨_, _, rfl⟩
      have e2 : u ++ [1] = x ++ d :: y := by rw [← ht, List.append_assoc, hd]
      have vc : ∀ (l : Str), Lower l → ∀ a ∈ l ++ [1], Valid lower a := by
        intro l hl a ha
        rcases List.mem_append.1 ha with ha | ha
        · exact .inr (hl a ha)
        · exact .inl (by simpa using ha)
      have v1 := vc w hw c (by rw [e1]; simp)
      have v2 := vc u (hS u hu) d (by rw [e2]; simp)
      exact ⟨d, y, v2, lcode_mono v1 v2 (next_le_of_le hw (hS u hu) hle e1 e2), (R.word _).2 ⟨u, hu, e2.symm⟩⟩
  · exact e

theorem words_lower (ops : List (Bool × Str)) (hl : ∀ op ∈ ops, Lower op.2) : ∀ w ∈ words ops, Lower w := by
  induction ops using List.reverseRecOn with
  | nil => intro w hw; simp [words] at hw
  | append_singleton ops op ih =>
    intro w hw
    rw [words_snoc] at hw
    split at hw
    · rcases Finset.mem_insert.1 hw with rfl | hw
      · exact hl op (by simp)
      · exact ih (fun o h => hl o (by simp [h])) w hw
    · exact ih (fun o h => hl o (by simp [h])) w (Finset.mem_of_mem_erase hw)

theorem run_sheltered (ops : List (Bool × Str)) (hl : ∀ op ∈ ops, Lower op.2) {st : St} (e : run ops = .ok st) {w : Str}
    (hw : Lower w) (hm : w ∉ words ops) (h : Sheltered ops w) : remove mapChar st w = .ok st := by
  obtain ⟨R, hF, -⟩ := run_inner ops hl e
  exact remove_absent R hF (words_lower ops hl) hw hm h

/-- a proper beginning of a word -/
theorem sheltered_prefix {ops : List (Bool × Str)} {w u : Str} (hu : u ∈ words ops) (h : w <+: u) : Sheltered ops w := by
  intro v hv _
  refine ⟨u, hu, hv.trans h, ?_⟩
  obtain ⟨t, rfl⟩ := h
  clear hu hv
  induction w with
  | nil => simp
  | cons a w ih => exact List.cons_le_cons_iff.2 (.inr ⟨rfl, ih⟩)

theorem run_total (ops : List (Bool × Str)) (hl : ∀ op ∈ ops, Lower op.2)
    (h : ∀ l w r, ops = l ++ (false, w) :: r → w ∈ words l ∨ Sheltered l w) : ∃ st, run ops = .ok st := by
  induction ops using List.reverseRecOn with
  | nil =>
    rcases run_rep [] (by simp) with h | ⟨st, h, _⟩
    · exact absurd h (by
        obtain ⟨st, e, R⟩ := new_rep lower_alpha
        unfold run; rw [e]; simp)
    · exact ⟨st, h⟩
  | append_singleton ops op ih =>
    have hl' : ∀ o ∈ ops, Lower o.2 := fun o h => hl o (by simp [h])
    obtain ⟨st, e⟩ := ih hl' fun l w r e => h l w (r ++ [op]) (by rw [e]; simp)
    rw [run_snoc, e]
    simp only [Out.ok_bind]
    have R := (run_inner ops hl' e).1
    obtain ⟨b, w⟩ := op
    have hw : Lower w := hl (b, w) (by simp)
    cases b with
    | true =>
      obtain ⟨st', e', _⟩ := insert_rep lower_alpha lower_maps lower_maps R hw
      exact ⟨st', by simpa using e'⟩
    | false =>
      by_cases hm : w ∈ words ops
      · obtain ⟨st', e', _⟩ := (remove_rep lower_alpha lower_maps R hw).1 hm
        exact ⟨st', by simpa using e'⟩
      · rcases h ops w [] rfl with h' | h'
        · exact absurd h' hm
        · exact ⟨st, by simpa using run_sheltered ops hl' e hw hm h'⟩

end Trie

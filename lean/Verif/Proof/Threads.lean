import Verif.Spec.Threads

/-! # Proofs for threads -/

namespace Threads
open Cpp Spec

variable {E : Rand.Engine} {α β : Type}

/-- the code reads only `U` and writes only `W` -/
def Prog.Within (U W : Var → Prop) : Prog E α → Prop
  | .ret _ => True
  | .load l k => U l ∧ ∀ v, (k v).Within U W
  | .store l _ k => W l ∧ k.Within U W

theorem Prog.Within.bind {U W : Var → Prop} {p : Prog E α} {f : α → Prog E β} (hp : p.Within U W)
    (hf : ∀ a, (f a).Within U W) : (p.bind f).Within U W := by
  induction p with
  | ret o => cases o <;> first | exact hf _ | trivial
  | load l k ih => exact ⟨hp.1, fun v => ih v (hp.2 v)⟩
  | store l v k ih => exact ⟨hp.1, ih hp.2⟩

theorem Prog.Within.mono {U W U' W' : Var → Prop} (hU : ∀ l, U l → U' l) (hW : ∀ l, W l → W' l) {p : Prog E α}
    (hp : p.Within U W) : p.Within U' W' := by
  induction p with
  | ret o => trivial
  | load l k ih => exact ⟨hU _ hp.1, fun v => ih v (hp.2 v)⟩
  | store l v k ih => exact ⟨hW _ hp.1, ih hp.2⟩

/-- at most `n` accesses -/
def Prog.AtMost : Nat → Prog E α → Prop
  | _, .ret _ => True
  | 0, _ => False
  | n + 1, .load _ k => ∀ v, (k v).AtMost n
  | n + 1, .store _ _ k => k.AtMost n

theorem Prog.AtMost.mono {p : Prog E α} {m n : Nat} (h : p.AtMost m) (hmn : m ≤ n) : p.AtMost n := by
  induction p generalizing m n with
  | ret o => cases n <;> trivial
  | load l k ih =>
    cases m with
    | zero => exact h.elim
    | succ m =>
      obtain ⟨n, rfl⟩ : ∃ n', n = n' + 1 := ⟨n - 1, by omega⟩
      exact fun v => ih v (h v) (by omega)
  | store l v k ih =>
    cases m with
    | zero => exact h.elim
    | succ m =>
      obtain ⟨n, rfl⟩ : ∃ n', n = n' + 1 := ⟨n - 1, by omega⟩
      exact ih (m := m) h (by omega)

theorem Prog.AtMost.bind {p : Prog E α} {f : α → Prog E β} {m n : Nat} (hp : p.AtMost m) (hf : ∀ a, (f a).AtMost n) :
    (p.bind f).AtMost (m + n) := by
  induction p generalizing m with
  | ret o =>
    cases o with
    | ok a => exact (hf a).mono (by omega)
    | _ => cases m + n <;> trivial
  | load l k ih =>
    cases m with
    | zero => exact hp.elim
    | succ m =>
      rw [Nat.succ_add]
      exact fun v => ih v (hp v)
  | store l v k ih =>
    cases m with
    | zero => exact hp.elim
    | succ m =>
      rw [Nat.succ_add]
      exact ih (m := m) hp

theorem ret_atMost (n : Nat) (o : Out α) : (Prog.ret o : Prog E α).AtMost n := by cases n <;> trivial

/-! ### The calls -/

/-- reads or writes -/
def touched (c : Call) (l : Var) : Prop := l ∈ reads c

def written (c : Call) (l : Var) : Prop := l ∈ writes c

theorem call_within (c : Call) (s : Objects E) : (c.prog s).Within (touched c) (written c) := by
  cases c with
  | vertex =>
    refine Prog.Within.bind ?_ fun _ => trivial
    refine ⟨by simp [touched, reads], fun v => ?_⟩
    dsimp only
    split
    · exact ⟨by simp [written, writes], trivial⟩
    · trivial
  | edge =>
    refine Prog.Within.bind ?_ fun _ => trivial
    refine ⟨by simp [touched, reads], fun v => ?_⟩
    dsimp only
    split
    · exact ⟨by simp [written, writes], trivial⟩
    · trivial
  | trie t m =>
    refine Prog.Within.bind ?_ fun _ => trivial
    rw [newTrie]
    split
    · exact ⟨by simp [written, writes], trivial⟩
    · trivial
  | insert t w =>
    refine Prog.Within.bind ?_ fun _ => trivial
    rw [useTrie]
    split
    · trivial
    · refine ⟨by simp [touched, reads], fun v => ?_⟩
      dsimp only
      split <;> trivial
  | contain t w =>
    refine Prog.Within.bind ?_ fun _ => trivial
    rw [useTrie]
    split
    · trivial
    · refine ⟨by simp [touched, reads], fun v => ?_⟩
      dsimp only
      split <;> trivial
  | remove t w =>
    refine Prog.Within.bind ?_ fun _ => trivial
    rw [useTrie]
    split
    · trivial
    · refine ⟨by simp [touched, reads], fun v => ?_⟩
      dsimp only
      split <;> trivial
  | global time c =>
    refine Prog.Within.bind ?_ fun _ => trivial
    have key : ∀ v : Val E .generator, (match (v : Option E.σ) with
      | none => (.ret .ub : Prog E (Rand.Ret Dbl))
      | some s =>
        match c.global time (some s) with
        | .ok (r, g') => .store .generator g' (.ret (.ok r))
        | .exit => .ret .exit
        | .ub => .ret .ub
        | .diverge => .ret .diverge).Within (touched (.global time c)) (written (.global time c)) := by
      intro v
      split
      · trivial
      · split
        · exact ⟨by simp [written, writes], trivial⟩
        all_goals trivial
    refine ⟨by simp [touched, reads], fun v => ?_⟩
    dsimp only
    split
    · exact ⟨by simp [touched, reads], key⟩
    · exact ⟨by simp [written, writes], by simp [written, writes], by simp [touched, reads], key⟩
  | random c => trivial
  | plus N fuel a b =>
    refine Prog.Within.bind ?_ fun _ => trivial
    refine ⟨by simp [touched, reads], fun v => ⟨by simp [touched, reads], fun w => ?_⟩⟩
    dsimp only
    split <;> trivial
  | times N a b =>
    refine Prog.Within.bind ?_ fun _ => trivial
    refine ⟨by simp [touched, reads], fun v => ⟨by simp [touched, reads], fun w => ?_⟩⟩
    dsimp only
    split <;> trivial

theorem call_atMost (c : Call) (s : Objects E) : (c.prog s).AtMost 5 := by
  cases c with
  | vertex =>
    refine Prog.AtMost.bind (m := 5) (n := 0) ?_ fun _ => ret_atMost _ _
    intro v
    dsimp only
    split <;> trivial
  | edge =>
    refine Prog.AtMost.bind (m := 5) (n := 0) ?_ fun _ => ret_atMost _ _
    intro v
    dsimp only
    split <;> trivial
  | trie t m =>
    refine Prog.AtMost.bind (m := 5) (n := 0) ?_ fun _ => ret_atMost _ _
    rw [newTrie]
    split <;> trivial
  | insert t w =>
    refine Prog.AtMost.bind (m := 5) (n := 0) ?_ fun _ => ret_atMost _ _
    rw [useTrie]
    split
    · trivial
    · intro v
      dsimp only
      split <;> trivial
  | contain t w =>
    refine Prog.AtMost.bind (m := 5) (n := 0) ?_ fun _ => ret_atMost _ _
    rw [useTrie]
    split
    · trivial
    · intro v
      dsimp only
      split <;> trivial
  | remove t w =>
    refine Prog.AtMost.bind (m := 5) (n := 0) ?_ fun _ => ret_atMost _ _
    rw [useTrie]
    split
    · trivial
    · intro v
      dsimp only
      split <;> trivial
  | global time c =>
    refine Prog.AtMost.bind (m := 5) (n := 0) ?_ fun _ => ret_atMost _ _
    have key : ∀ v : Val E .generator, (match (v : Option E.σ) with
      | none => (.ret .ub : Prog E (Rand.Ret Dbl))
      | some s =>
        match c.global time (some s) with
        | .ok (r, g') => .store .generator g' (.ret (.ok r))
        | .exit => .ret .exit
        | .ub => .ret .ub
        | .diverge => .ret .diverge).AtMost 1 := by
      intro v
      split
      · trivial
      · split <;> trivial
    intro v
    dsimp only
    split
    · exact fun v => (key v).mono (n := 3) (by decide)
    · exact key
  | random c => trivial
  | plus N fuel a b =>
    refine Prog.AtMost.bind (m := 5) (n := 0) ?_ fun _ => ret_atMost _ _
    intro v w
    dsimp only
    split <;> trivial
  | times N a b =>
    refine Prog.AtMost.bind (m := 5) (n := 0) ?_ fun _ => ret_atMost _ _
    intro v w
    dsimp only
    split <;> trivial

theorem thread_within (cs : List Call) (s : Objects E) :
    (thread cs s).Within (fun l => ∃ c ∈ cs, touched c l) (fun l => ∃ c ∈ cs, written c l) := by
  induction cs generalizing s with
  | nil => trivial
  | cons c cs ih =>
    refine Prog.Within.bind ((call_within c s).mono ?_ ?_) fun ⟨r, s'⟩ => Prog.Within.bind ((ih s').mono ?_ ?_) fun _ => trivial
    · exact fun l h => ⟨c, List.mem_cons_self, h⟩
    · exact fun l h => ⟨c, List.mem_cons_self, h⟩
    · exact fun l ⟨d, hd, h⟩ => ⟨d, List.mem_cons_of_mem _ hd, h⟩
    · exact fun l ⟨d, hd, h⟩ => ⟨d, List.mem_cons_of_mem _ hd, h⟩

theorem thread_atMost (cs : List Call) (s : Objects E) : (thread cs s).AtMost (5 * cs.length) := by
  induction cs generalizing s with
  | nil => trivial
  | cons c cs ih =>
    have := Prog.AtMost.bind (call_atMost c s) (f := fun (x : Result × Objects E) =>
      (thread cs x.2).bind fun rs => .ret (.ok (x.1 :: rs))) (n := 5 * cs.length + 0) fun x =>
      Prog.AtMost.bind (ih x.2) fun _ => ret_atMost _ _
    exact this.mono (by simp only [List.length_cons]; omega)

/-! ### The order of the threads does not matter -/

/-- `s` is a state of all threads, `t i` the state of the program with thread `i` alone -/
structure Agree (U W : Nat → Var → Prop) (s : State E α) (t : Nat → State E α) : Prop where
  todo : ∀ i, s.todo i = (t i).todo i
  within : ∀ i, (s.todo i).Within (U i) (W i)
  mem : ∀ i l, U i l → s.mem l = (t i).mem l
  accesses : ∀ a ∈ s.accesses, (U a.thread a.var ∨ W a.thread a.var) ∧ (a.write = true → W a.thread a.var)

theorem Agree.step {U W : Nat → Var → Prop} (hUW : ∀ i j, i ≠ j → ∀ l, W i l → ¬ U j l) {s : State E α} {t : Nat → State E α}
    (h : Agree U W s t) (i : Nat) : Agree U W (s.step i) (fun j => if j = i then (t j).step i else t j) := by
  have hw := h.within i
  have ht := h.todo i
  rw [State.step]
  split
  · next o e =>
    rw [e] at ht
    refine ⟨fun j => ?_, h.within, fun j l hl => ?_, h.accesses⟩
    · by_cases hj : j = i
      · subst hj
        rw [if_pos rfl, State.step, ← ht, ← h.todo j]
      · rw [if_neg hj, h.todo j]
    · by_cases hj : j = i
      · subst hj
        simp only [if_pos, State.step, ← ht]
        exact h.mem j l hl
      · simp only [if_neg hj]
        exact h.mem j l hl
  · next l k e =>
    rw [e] at ht hw
    refine ⟨fun j => ?_, fun j => ?_, fun j l' hl => ?_, fun a ha => ?_⟩
    · by_cases hj : j = i
      · subst hj
        rw [if_pos rfl, State.step, ← ht]
        simp only [Function.update_self]
        rw [h.mem j l hw.1]
      · rw [if_neg hj, ← h.todo j]
        exact Function.update_of_ne hj _ _
    · by_cases hj : j = i
      · subst hj
        simp only [Function.update_self]
        exact hw.2 _
      · simp only [Function.update_of_ne hj]
        exact h.within j
    · by_cases hj : j = i
      · subst hj
        simp only [if_pos, State.step, ← ht]
        exact h.mem j l' hl
      · simp only [if_neg hj]
        exact h.mem j l' hl
    · rcases List.mem_append.1 ha with ha | ha
      · exact h.accesses a ha
      · rw [List.mem_singleton.1 ha]
        exact ⟨.inl hw.1, fun h => by cases h⟩
  · next l v k e =>
    rw [e] at ht hw
    refine ⟨fun j => ?_, fun j => ?_, fun j l' hl => ?_, fun a ha => ?_⟩
    · by_cases hj : j = i
      · subst hj
        rw [if_pos rfl, State.step, ← ht]
        simp only [Function.update_self]
      · rw [if_neg hj, ← h.todo j]
        exact Function.update_of_ne hj _ _
    · by_cases hj : j = i
      · subst hj
        simp only [Function.update_self]
        exact hw.2
      · simp only [Function.update_of_ne hj]
        exact h.within j
    · by_cases hj : j = i
      · subst hj
        simp only [if_pos, State.step, ← ht]
        by_cases hl' : l' = l
        · subst hl'
          simp only [Mem.set, Function.update_self]
        · simp only [Mem.set, Function.update_of_ne hl']
          exact h.mem j l' hl
      · simp only [if_neg hj]
        have hl' : l' ≠ l := by
          rintro rfl
          exact hUW i j (fun e => hj e.symm) _ hw.1 hl
        simp only [Mem.set, Function.update_of_ne hl']
        exact h.mem j l' hl
    · rcases List.mem_append.1 ha with ha | ha
      · exact h.accesses a ha
      · rw [List.mem_singleton.1 ha]
        exact ⟨.inr hw.1, fun _ => hw.1⟩

theorem Agree.run {U W : Nat → Var → Prop} (hUW : ∀ i j, i ≠ j → ∀ l, W i l → ¬ U j l) (order : List Nat) {s : State E α}
    {t : Nat → State E α} (h : Agree U W s t) :
    Agree U W (s.run order) (fun j => (t j).run (order.filter (· = j))) := by
  induction order generalizing s t with
  | nil => exact h
  | cons i order ih =>
    have := ih (h.step hUW i)
    have e : (fun j => (if j = i then (t j).step i else t j).run (order.filter (· = j))) =
        fun j => (t j).run ((i :: order).filter (· = j)) := ?_
    · rw [e] at this
      exact this
    funext j
    by_cases hj : j = i
    · subst hj
      simp [State.run]
    · have : ¬ i = j := fun e => hj e.symm
      simp [State.run, hj, this]

/-- the number of rounds -/
theorem run_ends (order : List Nat) (i n : Nat) (s : State E α) (h : (s.todo i).AtMost n) (hn : n ≤ order.count i) :
    ∃ o, (s.run order).todo i = .ret o := by
  induction order generalizing n s with
  | nil =>
    simp only [List.count_nil, Nat.le_zero] at hn
    subst hn
    show ∃ o, s.todo i = .ret o
    cases e : s.todo i with
    | ret o => exact ⟨o, rfl⟩
    | load l k => rw [e] at h; exact h.elim
    | store l v k => rw [e] at h; exact h.elim
  | cons j order ih =>
    show ∃ o, ((s.step j).run order).todo i = .ret o
    by_cases hj : j = i
    · subst hj
      rw [List.count_cons_self] at hn
      refine ih (n - 1) _ ?_ (by omega)
      rw [State.step]
      split
      · next o e => rw [e]; exact ret_atMost _ _
      · next l k e =>
        rw [e] at h
        simp only [Function.update_self]
        cases n with
        | zero => exact h.elim
        | succ n => exact h _
      · next l v k e =>
        rw [e] at h
        simp only [Function.update_self]
        cases n with
        | zero => exact h.elim
        | succ n => exact h
    · rw [List.count_cons_of_ne hj] at hn
      refine ih n _ ?_ hn
      have : (s.step j).todo i = s.todo i := by
        rw [State.step]
        split
        · rfl
        · exact Function.update_of_ne (fun e => hj e.symm) _ _
        · exact Function.update_of_ne (fun e => hj e.symm) _ _
      rw [this]
      exact h

/-! ### Races -/

theorem step_load {s : State E α} {i : Nat} {l : Var} {k : Val E l → Prog E α} (h : s.todo i = .load l k) :
    s.step i = ⟨s.mem, Function.update s.todo i (k (s.mem l)), s.accesses ++ [⟨i, l, false⟩]⟩ := by
  rw [State.step, h]

theorem step_store {s : State E α} {i : Nat} {l : Var} {v : Val E l} {k : Prog E α} (h : s.todo i = .store l v k) :
    s.step i = ⟨s.mem.set l v, Function.update s.todo i k, s.accesses ++ [⟨i, l, true⟩]⟩ := by
  rw [State.step, h]

theorem step_other {s : State E α} {i j : Nat} (h : j ≠ i) : (s.step i).todo j = s.todo j := by
  rw [State.step]
  split
  · rfl
  · exact Function.update_of_ne h _ _
  · exact Function.update_of_ne h _ _

theorem step_keeps (s : State E α) (i : Nat) {a : Access} (h : a ∈ s.accesses) : a ∈ (s.step i).accesses := by
  rw [State.step]
  split
  · exact h
  · exact List.mem_append_left _ h
  · exact List.mem_append_left _ h

/-- the variable which a call uses first -/
def key : Call → Option Var
  | .vertex => some .nextVertexID
  | .edge => some .nextEdgeID
  | .trie _ _ => some .mapChar
  | .insert _ _ => some .mapChar
  | .contain _ _ => some .mapChar
  | .remove _ _ => some .mapChar
  | .global _ _ => some .initialized
  | _ => none

theorem first_load (t : Nat) (s : Objects E) {α : Type} (f : Trie.Mapper → Trie.Mapper → Trie.St → Out α) (ht : s.trie t ≠ none) :
    ∃ K, useTrie t s f = .load .mapChar K := by
  obtain ⟨⟨st, m⟩, e⟩ := Option.ne_none_iff_exists'.1 ht
  rw [useTrie, e]
  exact ⟨_, rfl⟩

theorem first_access {d : Call} {l : Var} (hl : key d = some l) (ds : List Call) (o : Objects E) (hd : Ready o d)
    (s : State E (List Result)) (j : Nat) (h : s.todo j = thread (d :: ds) o) :
    ∃ b, (⟨j, l, b⟩ : Access) ∈ (s.step j).accesses := by
  have load : ∀ (l : Var) k, s.todo j = .load l k → ∃ b, (⟨j, l, b⟩ : Access) ∈ (s.step j).accesses := by
    intro l k e
    rw [step_load e]
    exact ⟨false, List.mem_append_right _ (List.mem_singleton_self _)⟩
  have store : ∀ (l : Var) v k, s.todo j = .store l v k → ∃ b, (⟨j, l, b⟩ : Access) ∈ (s.step j).accesses := by
    intro l v k e
    rw [step_store e]
    exact ⟨true, List.mem_append_right _ (List.mem_singleton_self _)⟩
  cases d with
  | vertex => cases hl; exact load _ _ (h.trans rfl)
  | edge => cases hl; exact load _ _ (h.trans rfl)
  | trie t m => cases hl; exact store _ _ _ (h.trans rfl)
  | insert t w =>
    cases hl
    obtain ⟨K, e⟩ := first_load t o (fun ms m st => Trie.insert ms m st w) hd
    rw [thread, Call.prog, e] at h
    exact load _ _ (h.trans rfl)
  | contain t w =>
    cases hl
    obtain ⟨K, e⟩ := first_load t o (fun ms _ st => Trie.contain ms st w) hd
    rw [thread, Call.prog, e] at h
    exact load _ _ (h.trans rfl)
  | remove t w =>
    cases hl
    obtain ⟨K, e⟩ := first_load t o (fun ms _ st => Trie.remove ms st w) hd
    rw [thread, Call.prog, e] at h
    exact load _ _ (h.trans rfl)
  | global time c => cases hl; exact load _ _ (h.trans rfl)
  | random c => cases hl
  | plus N fuel a b => cases hl
  | times N a b => cases hl

theorem three_steps {c : Call} {l : Var} (hl : key c = some l) (hw : writes c ≠ []) (cs : List Call) (o : Objects E)
    (s : State E (List Result)) (i : Nat) (h : s.todo i = thread (c :: cs) o) (hm : s.mem = .init E) :
    (⟨i, l, true⟩ : Access) ∈ (((s.step i).step i).step i).accesses := by
  have two : ∀ (l : Var) K v k, s.todo i = .load l K → K (s.mem l) = .store l v k →
      (⟨i, l, true⟩ : Access) ∈ (((s.step i).step i).step i).accesses := by
    intro l K v k e e'
    refine step_keeps _ _ ?_
    have : (s.step i).todo i = .store l v k := by
      rw [step_load e]
      simp only [Function.update_self]
      exact e'
    rw [step_store this]
    exact List.mem_append_right _ (List.mem_singleton_self _)
  have three : ∀ (l : Var) K l' v' v k, s.todo i = .load l K → K (s.mem l) = .store l' v' (.store l v k) →
      (⟨i, l, true⟩ : Access) ∈ (((s.step i).step i).step i).accesses := by
    intro l K l' v' v k e e'
    have a : (s.step i).todo i = .store l' v' (.store l v k) := by
      rw [step_load e]
      simp only [Function.update_self]
      exact e'
    have b : ((s.step i).step i).todo i = .store l v k := by
      rw [step_store a]
      simp only [Function.update_self]
    rw [step_store b]
    exact List.mem_append_right _ (List.mem_singleton_self _)
  cases c with
  | vertex => cases hl; exact two _ _ _ _ (h.trans rfl) (by rw [hm]; rfl)
  | edge => cases hl; exact two _ _ _ _ (h.trans rfl) (by rw [hm]; rfl)
  | trie t m =>
    cases hl
    refine step_keeps _ _ (step_keeps _ _ ?_)
    rw [step_store (h.trans rfl)]
    exact List.mem_append_right _ (List.mem_singleton_self _)
  | global time c =>
    cases hl
    exact three _ _ .generator _ _ _ (h.trans rfl) (by rw [hm]; rfl)
  | insert t w => exact (hw rfl).elim
  | contain t w => exact (hw rfl).elim
  | remove t w => exact (hw rfl).elim
  | random c => cases hl
  | plus N fuel a b => cases hl
  | times N a b => cases hl

theorem keys {c d : Call} {l : Var} (hw : l ∈ writes c) (hu : l ∈ reads d ∨ l ∈ writes d) : ∃ k, key c = some k ∧ key d = some k := by
  cases c <;> simp only [writes, List.mem_cons, List.not_mem_nil, or_false] at hw <;>
  cases d <;> simp only [reads, writes, List.mem_cons, List.not_mem_nil, or_false, false_or] at hu <;>
  first
  | exact ⟨_, rfl, rfl⟩
  | (exfalso; rcases hw with rfl | rfl <;> simp at hu)

theorem race (calls : Nat → List Call) (own : Nat → Objects E) (i j : Nat) (hij : i ≠ j)
    (c d : Call) (cs ds : List Call) (hi : calls i = c :: cs) (hj : calls j = d :: ds) (hd : Ready (own j) d) {l : Var}
    (hw : l ∈ writes c) (hu : l ∈ reads d ∨ l ∈ writes d) : Race ((start (.init E) calls own).run [i, i, i, j]).accesses := by
  obtain ⟨k, e, e'⟩ := keys hw hu
  have ti : (start (.init E) calls own).todo i = thread (c :: cs) (own i) := by rw [← hi]; rfl
  have a := three_steps e (fun e => by rw [e] at hw; cases hw) cs (own i) (start (.init E) calls own) i ti rfl
  have tj : ((((start (.init E) calls own).step i).step i).step i).todo j = thread (d :: ds) (own j) := by
    rw [step_other hij.symm, step_other hij.symm, step_other hij.symm, ← hj]
    rfl
  obtain ⟨b, hb⟩ := first_access e' ds (own j) hd _ j tj
  exact ⟨_, step_keeps _ _ a, _, hb, hij, rfl, .inl rfl⟩

/-! ### One thread alone -/

/-- code run without interruption -/
def Prog.exec : Prog E α → Mem E → Out α × Mem E
  | .ret o, m => (o, m)
  | .load l k, m => (k (m l)).exec m
  | .store l v k, m => k.exec (m.set l v)

theorem run_exec (p : Prog E α) (s : State E α) (i n : Nat) (h : s.todo i = p) (o : Out α)
    (hr : (s.run (List.replicate n i)).todo i = .ret o) : (p.exec s.mem).1 = o := by
  induction n generalizing p s with
  | zero =>
    have : s.todo i = .ret o := hr
    rw [← h, this]
    rfl
  | succ n ih =>
    have hr' : ((s.step i).run (List.replicate n i)).todo i = .ret o := hr
    cases p with
    | ret o' =>
      have : s.step i = s := by rw [State.step, h]
      rw [this] at hr'
      exact ih _ s h hr'
    | load l k =>
      have := ih (k (s.mem l)) (s.step i) (by rw [step_load h]; exact Function.update_self i _ _) hr'
      rwa [step_load h] at this
    | store l v k =>
      have := ih k (s.step i) (by rw [step_store h]; exact Function.update_self i _ _) hr'
      rwa [step_store h] at this

theorem exec_bind (p : Prog E α) (f : α → Prog E β) (m : Mem E) {b : β} (h : ((p.bind f).exec m).1 = .ok b) :
    ∃ a, (p.exec m).1 = .ok a ∧ (p.bind f).exec m = (f a).exec (p.exec m).2 := by
  induction p generalizing m with
  | ret o =>
    cases o with
    | ok a => exact ⟨a, rfl, rfl⟩
    | exit => cases h
    | ub => cases h
    | diverge => cases h
  | load l k ih => exact ih _ m h
  | store l v k ih => exact ih _ h

theorem exec_frame {U W : Var → Prop} {p : Prog E α} (hp : p.Within U W) {l : Var} (hl : ¬ W l) (m : Mem E) : (p.exec m).2 l = m l := by
  induction p generalizing m with
  | ret o => rfl
  | load l' k ih => exact ih _ (hp.2 _) m
  | store l' v k ih =>
    rw [Prog.exec, ih hp.2]
    refine Function.update_of_ne (fun e => hl ?_) _ _
    rw [e]
    exact hp.1

theorem int_le {i n : Int} (h : int i = .ok n) : n = i := (int_eq_ok.1 h).2.symm

/-- the counter -/
def nextV (m : Mem E) : Int := m .nextVertexID

theorem vertex_exec (s s' : Objects E) (m : Mem E) (r : Result) (h : ((Call.vertex.prog s).exec m).1 = .ok (r, s')) :
    r = .id (nextV m) ∧ nextV ((Call.vertex.prog s).exec m).2 = nextV m + 1 := by
  have e : (Call.vertex.prog s).exec m = ((match int (nextV m + 1) with
    | .ok (n : Int) => .store .nextVertexID n (.ret (.ok (nextV m)))
    | _ => .ret .ub : Prog E Int).bind fun i => .ret (.ok (.id i, s))).exec m := rfl
  rw [e] at h ⊢
  cases hn : int (nextV m + 1) with
  | ok n =>
    simp only [hn] at h ⊢
    simp only [Prog.bind, Prog.exec, Out.ok.injEq, Prod.mk.injEq] at h
    refine ⟨h.1.symm, ?_⟩
    rw [← int_le hn]
    exact Function.update_self Var.nextVertexID (n : Val E .nextVertexID) m
  | exit => simp only [hn] at h; cases h
  | ub => simp only [hn] at h; cases h
  | diverge => simp only [hn] at h; cases h

/-- the counter -/
def nextE (m : Mem E) : Int := m .nextEdgeID

theorem edge_exec (s s' : Objects E) (m : Mem E) (r : Result) (h : ((Call.edge.prog s).exec m).1 = .ok (r, s')) :
    r = .id (nextE m) ∧ nextE ((Call.edge.prog s).exec m).2 = nextE m + 1 := by
  have e : (Call.edge.prog s).exec m = ((match int (nextE m + 1) with
    | .ok (n : Int) => .store .nextEdgeID n (.ret (.ok (nextE m)))
    | _ => .ret .ub : Prog E Int).bind fun i => .ret (.ok (.id i, s))).exec m := rfl
  rw [e] at h ⊢
  cases hn : int (nextE m + 1) with
  | ok n =>
    simp only [hn] at h ⊢
    simp only [Prog.bind, Prog.exec, Out.ok.injEq, Prod.mk.injEq] at h
    refine ⟨h.1.symm, ?_⟩
    rw [← int_le hn]
    exact Function.update_self Var.nextEdgeID (n : Val E .nextEdgeID) m
  | exit => simp only [hn] at h; cases h
  | ub => simp only [hn] at h; cases h
  | diverge => simp only [hn] at h; cases h

theorem thread_exec {c : Call} {cs : List Call} {s : Objects E} {m : Mem E} {rs : List Result}
    (h : ((thread (c :: cs) s).exec m).1 = .ok rs) :
    ∃ r s' rs', rs = r :: rs' ∧ ((c.prog s).exec m).1 = .ok (r, s') ∧ ((thread cs s').exec ((c.prog s).exec m).2).1 = .ok rs' := by
  rw [thread] at h
  obtain ⟨⟨r, s'⟩, e, e'⟩ := exec_bind _ _ _ h
  rw [e'] at h
  obtain ⟨rs', e2, e3⟩ := exec_bind _ _ _ h
  rw [e3] at h
  simp only [Prog.exec, Out.ok.injEq] at h
  exact ⟨r, s', rs', h.symm, e, e2⟩

theorem vertex_ids (cs : List Call) (s : Objects E) (m : Mem E) (rs : List Result) (h : ((thread cs s).exec m).1 = .ok rs) :
    vertexIDs cs rs = (List.range (vertices cs)).map fun k : Nat => nextV m + k := by
  induction cs generalizing s m rs with
  | nil => rfl
  | cons c cs ih =>
    obtain ⟨r, s', rs', rfl, h1, h2⟩ := thread_exec h
    have IH := ih s' _ rs' h2
    by_cases hc : c = .vertex
    · subst hc
      obtain ⟨rfl, hm⟩ := vertex_exec s s' m r h1
      have e : vertexIDs (Call.vertex :: cs) (Result.id (nextV m) :: rs') = nextV m :: vertexIDs cs rs' := rfl
      have e' : vertices (Call.vertex :: cs) = vertices cs + 1 := by simp [vertices]
      rw [e, e']
      rw [List.range_succ_eq_map, List.map_cons, List.map_map]
      congr 1
      · exact (Int.add_zero _).symm
      · conv_lhs => rw [IH]
        refine List.map_congr_left fun k _ => ?_
        rw [hm]
        simp only [Function.comp, Nat.succ_eq_add_one, Nat.cast_add, Nat.cast_one]
        omega
    · have e : vertexIDs (c :: cs) (r :: rs') = vertexIDs cs rs' := by
        rw [vertexIDs, List.zip_cons_cons, List.filterMap_cons_none]
        · rfl
        · cases c <;> first | rfl | exact (hc rfl).elim
      have e' : vertices (c :: cs) = vertices cs := by cases c <;> first | rfl | exact (hc rfl).elim
      rw [e, e', IH]
      have hw : ¬ written c .nextVertexID := by cases c <;> simp [written, writes] <;> exact (hc rfl).elim
      have f := exec_frame (call_within c s) hw m
      rw [nextV, f]
      simp [nextV]

theorem edge_ids (cs : List Call) (s : Objects E) (m : Mem E) (rs : List Result) (h : ((thread cs s).exec m).1 = .ok rs) :
    edgeIDs cs rs = (List.range (edges cs)).map fun k : Nat => nextE m + k := by
  induction cs generalizing s m rs with
  | nil => rfl
  | cons c cs ih =>
    obtain ⟨r, s', rs', rfl, h1, h2⟩ := thread_exec h
    have IH := ih s' _ rs' h2
    by_cases hc : c = .edge
    · subst hc
      obtain ⟨rfl, hm⟩ := edge_exec s s' m r h1
      have e : edgeIDs (Call.edge :: cs) (Result.id (nextE m) :: rs') = nextE m :: edgeIDs cs rs' := rfl
      have e' : edges (Call.edge :: cs) = edges cs + 1 := by simp [edges]
      rw [e, e']
      rw [List.range_succ_eq_map, List.map_cons, List.map_map]
      congr 1
      · exact (Int.add_zero _).symm
      · conv_lhs => rw [IH]
        refine List.map_congr_left fun k _ => ?_
        rw [hm]
        simp only [Function.comp, Nat.succ_eq_add_one, Nat.cast_add, Nat.cast_one]
        omega
    · have e : edgeIDs (c :: cs) (r :: rs') = edgeIDs cs rs' := by
        rw [edgeIDs, List.zip_cons_cons, List.filterMap_cons_none]
        · rfl
        · cases c <;> first | rfl | exact (hc rfl).elim
      have e' : edges (c :: cs) = edges cs := by cases c <;> first | rfl | exact (hc rfl).elim
      rw [e, e', IH]
      have hw : ¬ written c .nextEdgeID := by cases c <;> simp [written, writes] <;> exact (hc rfl).elim
      have f := exec_frame (call_within c s) hw m
      rw [nextE, f]
      simp [nextE]

end Threads

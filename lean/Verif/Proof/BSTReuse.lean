import Verif.Proof.BSTGhost
import Verif.Proof.BSTUse
import Verif.Spec.BSTReuse

/-! # Inserting a node that is in use -/

namespace BST
open Cpp Spec
variable {rk vl : Nat → Int}

/-! ### heaps as maps of links -/

def chOf (h : Heap) (p : Nat) (c : Bool) : Option Nat := (h p).bind (·.ch c)

def faOf (h : Heap) (p : Nat) : Option Nat := (h p).bind (·.fa)

/-- all links lead to nodes of `ks` -/
def Inside (h : Heap) (ks : List Nat) : Prop :=
  ∀ p ∈ ks, (∃ nd, h p = some nd) ∧ (∀ c q, chOf h p c = some q → q ∈ ks) ∧ ∀ q, faOf h p = some q → q ∈ ks

theorem setCh_links {h : Heap} {ks : List Nat} {p : Nat} (I : Inside h ks) (hp : p ∈ ks) (c : Bool) {v : Option Nat}
    (hv : ∀ q, v = some q → q ∈ ks) :
    ∃ h', setCh h p c v = .ok h' ∧ Inside h' ks ∧ (∀ q, faOf h' q = faOf h q) ∧
      ∀ q d, chOf h' q d = if q = p ∧ d = c then v else chOf h q d := by
  obtain ⟨⟨nd, hnd⟩, -, -⟩ := I p hp
  have e1 : ∀ q, faOf (store h p (nd.setCh c v)) q = faOf h q := by
    intro q
    by_cases e : q = p
    · subst e; simp [faOf, store_self, hnd]
    · simp [faOf, store_ne _ _ e]
  have e2 : ∀ q d, chOf (store h p (nd.setCh c v)) q d = if q = p ∧ d = c then v else chOf h q d := by
    intro q d
    by_cases e : q = p
    · subst e
      simp only [chOf, store_self, hnd, true_and, Option.bind_some]
      cases c <;> cases d <;> simp [Nd.ch, Nd.setCh]
    · simp [chOf, store_ne _ _ e, e]
  refine ⟨_, setCh_ok hnd c v, fun q hq => ⟨?_, fun d r hr => ?_, fun r hr => ?_⟩, e1, e2⟩
  · by_cases e : q = p
    · subst e; exact ⟨_, store_self _ _ _⟩
    · rw [store_ne _ _ e]; exact (I q hq).1
  · rw [e2] at hr
    split at hr
    · exact hv r hr
    · exact (I q hq).2.1 d r hr
  · rw [e1] at hr; exact (I q hq).2.2 r hr

theorem setFa_links {h : Heap} {ks : List Nat} {p : Nat} (I : Inside h ks) (hp : p ∈ ks) {v : Option Nat}
    (hv : ∀ q, v = some q → q ∈ ks) :
    ∃ h', setFa h p v = .ok h' ∧ Inside h' ks ∧ (∀ q, faOf h' q = if q = p then v else faOf h q) ∧
      ∀ q d, chOf h' q d = chOf h q d := by
  obtain ⟨⟨nd, hnd⟩, -, -⟩ := I p hp
  have e1 : ∀ q, faOf (store h p { nd with fa := v }) q = if q = p then v else faOf h q := by
    intro q
    by_cases e : q = p
    · subst e; simp [faOf, store_self]
    · simp [faOf, store_ne _ _ e, e]
  have e2 : ∀ q d, chOf (store h p { nd with fa := v }) q d = chOf h q d := by
    intro q d
    by_cases e : q = p
    · subst e; simp only [chOf, store_self, hnd, Option.bind_some]; rfl
    · simp [chOf, store_ne _ _ e]
  refine ⟨_, setFa_ok hnd v, fun q hq => ⟨?_, fun d r hr => ?_, fun r hr => ?_⟩, e1, e2⟩
  · by_cases e : q = p
    · subst e; exact ⟨_, store_self _ _ _⟩
    · rw [store_ne _ _ e]; exact (I q hq).1
  · rw [e2] at hr; exact (I q hq).2.1 d r hr
  · rw [e1] at hr
    split at hr
    · exact hv r hr
    · exact (I q hq).2.2 r hr

/-! ### the number of child links -/

def bit (o : Option Nat) : Nat := if o.isSome then 1 else 0

def count (h : Heap) : List Nat → Nat
  | [] => 0
  | p :: ks => bit (chOf h p false) + bit (chOf h p true) + count h ks

theorem count_eq {h h' : Heap} : ∀ {ks : List Nat}, (∀ p ∈ ks, ∀ d, chOf h' p d = chOf h p d) → count h' ks = count h ks
  | [], _ => rfl
  | p :: ks, H => by
    rw [count, count, H p (by simp), H p (by simp), count_eq fun q hq => H q (by simp [hq])]

theorem count_upd {h h' : Heap} {p : Nat} {c : Bool} {v : Option Nat}
    (H : ∀ q d, chOf h' q d = if q = p ∧ d = c then v else chOf h q d) : ∀ {ks : List Nat}, ks.Nodup → p ∈ ks →
    count h' ks + bit (chOf h p c) = count h ks + bit v
  | [], _, hp => by simp at hp
  | q :: ks, hn, hp => by
    rw [List.nodup_cons] at hn
    by_cases e : q = p
    · subst e
      have := count_eq (h := h) (h' := h') (ks := ks) fun r hr d => by
        rw [H, if_neg]; rintro ⟨rfl, -⟩; exact hn.1 hr
      rw [count, count, this, H, H]
      cases c <;> simp <;> omega
    · have ih := count_upd H hn.2 (by simpa [Ne.symm e] using hp)
      rw [count, count, H, H]
      simp only [e, false_and, if_false]
      omega

theorem count_append (h : Heap) : ∀ (xs ys : List Nat), count h (xs ++ ys) = count h xs + count h ys
  | [], ys => by simp [count]
  | x :: xs, ys => by rw [List.cons_append, count, count, count_append h xs ys]; omega

theorem count_perm (h : Heap) {xs ys : List Nat} (H : xs.Perm ys) : count h xs = count h ys := by
  induction H with
  | nil => rfl
  | cons x _ ih => rw [count, count, ih]
  | swap x y l => simp only [count]; omega
  | trans _ _ ih1 ih2 => rw [ih1, ih2]

theorem count_holds {h : Heap} : ∀ {t : T} {fa : Option Nat}, Holds rk vl h t fa →
    count h t.keys + bit t.ptr = t.keys.length
  | .nil, _, _ => rfl
  | .node l p r, fa, hs => by
    have h1 := count_holds hs.2.1
    have h2 := count_holds hs.2.2
    have c0 : chOf h p false = l.ptr := by simp [chOf, hs.1, Nd.ch]
    have c1 : chOf h p true = r.ptr := by simp [chOf, hs.1, Nd.ch]
    rw [T.keys, count_append, count, c0, c1]
    simp only [T.ptr, bit, Option.isSome_some, if_true, List.length_append, List.length_cons] at h1 h2 ⊢
    omega

theorem inside_holds {h : Heap} : ∀ {t : T} {fa : Option Nat}, Holds rk vl h t fa → ∀ p ∈ t.keys,
    (∃ nd, h p = some nd) ∧ (∀ c q, chOf h p c = some q → q ∈ t.keys) ∧
      ∀ q, faOf h p = some q → q ∈ t.keys ∨ (t.ptr = some p ∧ fa = some q) := by
  intro t
  induction t with
  | nil => intro fa _ p hp; simp [T.keys] at hp
  | node l r0 r ihl ihr =>
    intro fa hs p hp
    have hp0 := hp
    simp only [T.keys, List.mem_append, List.mem_cons] at hp
    rcases hp with hp | hp | hp
    · obtain ⟨a1, a2, a3⟩ := ihl hs.2.1 p hp
      refine ⟨a1, fun c q hq => by simp [T.keys, a2 c q hq], fun q hq => .inl ?_⟩
      rcases a3 q hq with h | ⟨-, h⟩
      · simp [T.keys, h]
      · injection h with h; subst h; simp [T.keys]
    · subst hp
      refine ⟨⟨_, hs.1⟩, fun c q hq => ?_, fun q hq => .inr ⟨rfl, ?_⟩⟩
      · simp only [chOf, hs.1, Option.bind_some, Nd.ch] at hq
        cases c <;> simp at hq <;> simp [T.keys, ptr_mem hq]
      · simpa [faOf, hs.1] using hq
    · obtain ⟨a1, a2, a3⟩ := ihr hs.2.2 p hp
      refine ⟨a1, fun c q hq => by simp [T.keys, a2 c q hq], fun q hq => .inl ?_⟩
      rcases a3 q hq with h | ⟨-, h⟩
      · simp [T.keys, h]
      · injection h with h; subst h; simp [T.keys]

theorem inside_tree {h : Heap} {t : T} (hs : Holds rk vl h t none) : Inside h t.keys := by
  intro p hp
  obtain ⟨a1, a2, a3⟩ := inside_holds hs p hp
  refine ⟨a1, a2, fun q hq => ?_⟩
  rcases a3 q hq with h | ⟨-, h⟩
  · exact h
  · cases h

theorem inside_perm {h : Heap} {xs ys : List Nat} (hp : xs.Perm ys) (I : Inside h xs) : Inside h ys := fun p h' =>
  ⟨(I p (hp.mem_iff.2 h')).1, fun c q hq => hp.mem_iff.1 ((I p (hp.mem_iff.2 h')).2.1 c q hq),
    fun q hq => hp.mem_iff.1 ((I p (hp.mem_iff.2 h')).2.2 q hq)⟩

/-! ### rotations in any heap -/

/-- parents of nodes of `S` are in `S`; in particular there are such -/
def Trapped (h : Heap) (S : Nat → Prop) : Prop := ∀ p, S p → ∃ q, faOf h p = some q ∧ S q

theorem ld_inside {h : Heap} {ks : List Nat} {p : Nat} (I : Inside h ks) (hp : p ∈ ks) :
    ∃ nd, ld h p = .ok nd ∧ nd.fa = faOf h p ∧ ∀ c, nd.ch c = chOf h p c := by
  obtain ⟨⟨nd, hnd⟩, -, -⟩ := I p hp
  exact ⟨nd, ld_ok hnd, by simp [faOf, hnd], fun c => by simp [chOf, hnd]⟩

theorem Trapped.setFa {h h' : Heap} {S : Nat → Prop} {p y : Nat} (hS : Trapped h S) (hy : S y)
    (e : ∀ q, faOf h' q = if q = p then some y else faOf h q) : Trapped h' S := by
  intro q hq
  rw [e]
  split
  · exact ⟨y, rfl, hy⟩
  · exact hS q hq

theorem Trapped.same {h h' : Heap} {S : Nat → Prop} (hS : Trapped h S) (e : ∀ q, faOf h' q = faOf h q) : Trapped h' S := by
  intro q hq; rw [e]; exact hS q hq

/-- `rotate` never fails, never loses child links, and keeps trapped nodes trapped -/
theorem rotate_links {s : St} {ks : List Nat} {x y : Nat} (c : Bool) (hn : ks.Nodup) (I : Inside s.heap ks) (hx : x ∈ ks)
    (hf : faOf s.heap x = some y) :
    ∃ s', rotate s x c = .ok s' ∧ Inside s'.heap ks ∧ count s.heap ks ≤ count s'.heap ks ∧
      ∀ S : Nat → Prop, S x → Trapped s.heap S → Trapped s'.heap S := by
  obtain ⟨h, root⟩ := s
  dsimp only at I hf ⊢
  have hy : y ∈ ks := (I x hx).2.2 y hf
  unfold rotate
  dsimp only
  obtain ⟨nx, e0, f0, c0⟩ := ld_inside I hx
  rw [e0, Out.ok_bind, f0, hf]
  simp only [nonNull, Out.ok_bind]
  rw [c0]
  -- y->ch[!c] = x->ch[c]
  obtain ⟨h1, e1, I1, fa1, ch1⟩ := setCh_links I hy (!c) (v := chOf h x c) (fun q hq => (I x hx).2.1 c q hq)
  have k1 := count_upd ch1 hn hy
  have cx1 : chOf h1 x c = chOf h x c := by rw [ch1, if_neg]; cases c <;> simp
  have t1 : ∀ S : Nat → Prop, Trapped h S → Trapped h1 S := fun S hS => hS.same fa1
  rw [e1, Out.ok_bind]
  -- x->ch[c]->fa = y
  obtain ⟨n1, e1', -, c1'⟩ := ld_inside I1 hx
  rw [e1', Out.ok_bind, c1']
  suffices fin : ∀ h2, Inside h2 ks → (∀ q d, chOf h2 q d = chOf h1 q d) →
      (∀ S : Nat → Prop, S y → Trapped h1 S → Trapped h2 S) →
      ∃ s', (do
        let h ← setFa h2 x (← ld h2 y).fa
        let h ← relink h (← ld h y).fa y x
        let h ← setFa h y (some x)
        let h ← setCh h x c (some y)
        Out.ok (⟨h, if some y = root then some x else root⟩ : St)) = .ok s' ∧ Inside s'.heap ks ∧
        count h ks ≤ count s'.heap ks ∧ ∀ S : Nat → Prop, S x → Trapped h S → Trapped s'.heap S by
    cases hb : chOf h1 x c with
    | none => exact fin h1 I1 (fun _ _ => rfl) (fun _ _ hS => hS)
    | some b =>
      obtain ⟨h2, e2, I2, fa2, ch2⟩ := setFa_links I1 ((I1 x hx).2.1 c b hb) (v := some y)
        (fun q hq => by injection hq with hq; exact hq ▸ hy)
      dsimp only
      rw [e2, Out.ok_bind]
      exact fin h2 I2 ch2 (fun S hSy hS => hS.setFa hSy fa2)
  intro h2 I2 ch2 t2
  -- x->fa = y->fa
  obtain ⟨n2, e2', f2', -⟩ := ld_inside I2 hy
  rw [e2', Out.ok_bind, f2']
  obtain ⟨h3, e3, I3, fa3, ch3⟩ := setFa_links I2 hx (v := faOf h2 y) (fun q hq => (I2 y hy).2.2 q hq)
  have t3 : ∀ S : Nat → Prop, S y → Trapped h2 S → Trapped h3 S := by
    intro S hSy hS
    obtain ⟨w, hw, hSw⟩ := hS y hSy
    exact hS.setFa hSw (by rw [← hw]; exact fa3)
  rw [e3, Out.ok_bind]
  obtain ⟨n3, e3', f3', -⟩ := ld_inside I3 hy
  rw [e3', Out.ok_bind, f3']
  have cx3 : ∀ q d, chOf h3 q d = chOf h1 q d := fun q d => (ch3 q d).trans (ch2 q d)
  have k3 : count h3 ks = count h1 ks := count_eq fun q _ d => cx3 q d
  -- the grandparent
  have hxv : ∀ q, some x = some q → q ∈ ks := fun q hq => by injection hq with hq; exact hq ▸ hx
  have step : ∃ h4, relink h3 (faOf h3 y) y x = .ok h4 ∧ Inside h4 ks ∧ (∀ q, faOf h4 q = faOf h3 q) ∧
      count h3 ks + bit (chOf h4 x c) ≤ count h4 ks + bit (chOf h3 x c) := by
    unfold relink
    cases hz : faOf h3 y with
    | none => exact ⟨h3, rfl, I3, fun _ => rfl, le_rfl⟩
    | some z =>
      have hzk : z ∈ ks := (I3 y hy).2.2 z hz
      obtain ⟨nz, ez, -, cz⟩ := ld_inside I3 hzk
      have one : ∀ d, ∃ h4, setCh h3 z d (some x) = .ok h4 ∧ Inside h4 ks ∧ (∀ q, faOf h4 q = faOf h3 q) ∧
          count h3 ks + bit (chOf h4 x c) ≤ count h4 ks + bit (chOf h3 x c) := by
        intro d
        obtain ⟨h4, e4, I4, fa4, ch4⟩ := setCh_links I3 hzk d (v := some x) hxv
        refine ⟨h4, e4, I4, fa4, ?_⟩
        have k4 := count_upd ch4 hn hzk
        have hb : bit (chOf h3 z d) ≤ 1 := by unfold bit; split <;> omega
        have hbx : bit (some x) = 1 := rfl
        rw [ch4]
        split
        · rename_i hh
          obtain ⟨rfl, rfl⟩ := hh
          omega
        · omega
      dsimp only
      rw [ez, Out.ok_bind]
      split
      · exact one false
      · exact one true
  obtain ⟨h4, e4, I4, fa4, k4⟩ := step
  rw [e4, Out.ok_bind]
  -- y->fa = x, x->ch[c] = y
  obtain ⟨h5, e5, I5, fa5, ch5⟩ := setFa_links I4 hy (v := some x) hxv
  rw [e5, Out.ok_bind]
  obtain ⟨h6, e6, I6, fa6, ch6⟩ := setCh_links I5 hx c (v := some y) (fun q hq => by injection hq with hq; exact hq ▸ hy)
  rw [e6, Out.ok_bind]
  have k5 : count h5 ks = count h4 ks := count_eq fun q _ d => ch5 q d
  have k6 := count_upd ch6 hn hx
  rw [ch5] at k6
  rw [cx3, cx1] at k4
  refine ⟨_, rfl, I6, ?_, fun S hSx hS => ?_⟩
  · have hb : bit (chOf h y (!c)) ≤ 1 := by unfold bit; split <;> omega
    have hby : bit (some y) = 1 := rfl
    dsimp only
    omega
  · obtain ⟨y', hy', hSy⟩ := hS x hSx
    rw [hf] at hy'
    injection hy' with hy'
    subst hy'
    exact (((((t1 S hS |> t2 S hSy) |> t3 S hSy).same fa4).setFa hSx fa5).same fa6)

/-- the same for a rotation that is known to succeed -/
theorem rotate_count {s s' : St} {ks : List Nat} {x : Nat} {c : Bool} (hn : ks.Nodup) (I : Inside s.heap ks) (hx : x ∈ ks)
    (e : rotate s x c = .ok s') : Inside s'.heap ks ∧ count s.heap ks ≤ count s'.heap ks := by
  cases hf : faOf s.heap x with
  | none =>
    obtain ⟨nx, e0, f0, c0⟩ := ld_inside I hx
    unfold rotate at e
    dsimp only at e
    rw [e0, Out.ok_bind, f0, hf] at e
    cases e
  | some y =>
    obtain ⟨s1, e1, a1, a2, -⟩ := rotate_links c hn I hx hf
    rw [e1] at e
    injection e with e
    subst e
    exact ⟨a1, a2⟩

theorem splay_count {ks : List Nat} {x : Nat} (hn : ks.Nodup) (hx : x ∈ ks) : ∀ {fuel : Nat} {s s' : St}, Inside s.heap ks →
    splay fuel s x = .ok s' → Inside s'.heap ks ∧ count s.heap ks ≤ count s'.heap ks := by
  intro fuel
  induction fuel with
  | zero => intro s s' _ e; cases e
  | succ fuel ih =>
    intro s s' I e
    obtain ⟨nx, e0, f0, -⟩ := ld_inside I hx
    rw [splay, e0, Out.ok_bind, f0] at e
    cases hf : faOf s.heap x with
    | none => rw [hf] at e; injection e with e; subst e; exact ⟨I, le_rfl⟩
    | some y =>
      rw [hf] at e
      have hy : y ∈ ks := (I x hx).2.2 y hf
      obtain ⟨ny, e1, f1, -⟩ := ld_inside I hy
      dsimp only at e
      rw [e1, Out.ok_bind, f1] at e
      -- two rotations
      have two : ∀ {p : Nat} {c d : Bool}, p ∈ ks → (do
          let s ← rotate s p c
          let s ← rotate s x d
          splay fuel s x) = .ok s' → Inside s'.heap ks ∧ count s.heap ks ≤ count s'.heap ks := by
        intro p c d hp e
        obtain ⟨s1, e1, e⟩ := Out.bind_eq_ok.1 e
        obtain ⟨s2, e2, e⟩ := Out.bind_eq_ok.1 e
        obtain ⟨a1, a2⟩ := rotate_count hn I hp e1
        obtain ⟨b1, b2⟩ := rotate_count hn a1 hx e2
        obtain ⟨c1, c2⟩ := ih b1 e
        exact ⟨c1, a2.trans (b2.trans c2)⟩
      cases hz : faOf s.heap y with
      | none =>
        rw [hz] at e
        dsimp only at e
        obtain ⟨s1, e1, e⟩ := Out.bind_eq_ok.1 e
        have : Inside s1.heap ks ∧ count s.heap ks ≤ count s1.heap ks := by
          split at e1
          · exact rotate_count hn I hx e1
          · exact rotate_count hn I hx e1
        obtain ⟨c1, c2⟩ := ih this.1 e
        exact ⟨c1, this.2.trans c2⟩
      | some z =>
        rw [hz] at e
        dsimp only at e
        obtain ⟨nz, e2, e⟩ := Out.bind_eq_ok.1 e
        split at e
        · split at e
          · exact two hy e
          · exact two hx e
        · split at e
          · exact two hy e
          · exact two hx e

theorem splay_trapped {ks : List Nat} {x : Nat} {S : Nat → Prop} (hn : ks.Nodup) (hS : ∀ p, S p → p ∈ ks) (hx : S x) :
    ∀ {fuel : Nat} {s : St}, Inside s.heap ks → Trapped s.heap S → splay fuel s x = .diverge := by
  intro fuel
  induction fuel with
  | zero => intro s _ _; rfl
  | succ fuel ih =>
    intro s I H
    obtain ⟨nx, e0, f0, -⟩ := ld_inside I (hS x hx)
    obtain ⟨y, hf, hy⟩ := H x hx
    obtain ⟨ny, e1, f1, -⟩ := ld_inside I (hS y hy)
    obtain ⟨z, hz, hzS⟩ := H y hy
    obtain ⟨nz, e2, -, -⟩ := ld_inside I (hS z hzS)
    rw [splay, e0, Out.ok_bind, f0, hf]
    dsimp only
    rw [e1, Out.ok_bind, f1, hz]
    dsimp only
    rw [e2, Out.ok_bind]
    have two : ∀ {p : Nat} {c d : Bool}, S p → (do
        let s ← rotate s p c
        let s ← rotate s x d
        splay fuel s x) = .diverge := by
      intro p c d hp
      obtain ⟨q, hq, -⟩ := H p hp
      obtain ⟨s1, e1, I1, -, H1⟩ := rotate_links c hn I (hS p hp) hq
      have H1 := H1 S hp H
      obtain ⟨q, hq, -⟩ := H1 x hx
      obtain ⟨s2, e2, I2, -, H2⟩ := rotate_links d hn I1 (hS x hx) hq
      rw [e1, Out.ok_bind, e2, Out.ok_bind]
      exact ih I2 (H2 S hx H1)
    split
    · split
      · exact two hy
      · exact two hx
    · split
      · exact two hy
      · exact two hx

/-! ### insertion in any heap -/

theorem descend_slot {h : Heap} {ks : List Nat} {x : Nat} {nx : Nd} (I : Inside h ks) (hx : h x = some nx) :
    ∀ {fuel q cur : Nat}, q ∈ ks → descend h x fuel q = .ok cur →
      cur ∈ ks ∧ ∃ nc, h cur = some nc ∧ chOf h cur (decide (nx.rank ≥ nc.rank)) = none := by
  intro fuel
  induction fuel with
  | zero => intro q cur _ e; cases e
  | succ fuel ih =>
    intro q cur hq e
    obtain ⟨⟨nc, hnc⟩, hch, -⟩ := I q hq
    rw [descend, ld_ok hx, Out.ok_bind, ld_ok hnc, Out.ok_bind] at e
    have slot : (if nx.rank < nc.rank then nc.ch false else nc.ch true) = chOf h q (decide (nx.rank ≥ nc.rank)) := by
      by_cases hlt : nx.rank < nc.rank
      · rw [if_pos hlt, decide_eq_false (by omega)]; simp [chOf, hnc]
      · rw [if_neg hlt, decide_eq_true (by omega)]; simp [chOf, hnc]
    rw [slot] at e
    cases hc : chOf h q (decide (nx.rank ≥ nc.rank)) with
    | none =>
      rw [hc] at e
      injection e with e
      subst e
      exact ⟨hq, nc, hnc, hc⟩
    | some r =>
      rw [hc] at e
      exact ih (hch _ r hc) e

/-- an insertion adds a child link -/
theorem insert_count {s s' : St} {ks : List Nat} {x r fuel : Nat} (hn : ks.Nodup) (I : Inside s.heap ks) (hx : x ∈ ks)
    (hr : s.root = some r) (hrk : r ∈ ks) (e : insert fuel s x = .ok s') : count s.heap ks + 1 ≤ count s'.heap ks := by
  obtain ⟨⟨nx, hnx⟩, -, -⟩ := I x hx
  unfold insert at e
  rw [hr] at e
  dsimp only at e
  obtain ⟨cur, e1, e⟩ := Out.bind_eq_ok.1 e
  obtain ⟨hcur, nc, hnc, hslot⟩ := descend_slot I hnx hrk e1
  obtain ⟨h1, e2, I1, -, ch1⟩ := setFa_links I hx (v := some cur) (fun q hq => by injection hq with hq; exact hq ▸ hcur)
  rw [e2, Out.ok_bind] at e
  have rank1 : ∀ q nd, s.heap q = some nd → ∃ nd', h1 q = some nd' ∧ nd'.rank = nd.rank := by
    intro q nd hq
    rw [setFa_ok hnx] at e2
    injection e2 with e2
    subst e2
    by_cases eq : q = x
    · subst eq; rw [hnx] at hq; injection hq with hq; subst hq; exact ⟨_, store_self _ _ _, rfl⟩
    · exact ⟨nd, by rw [store_ne _ _ eq, hq], rfl⟩
  obtain ⟨nx', hx', rx⟩ := rank1 x nx hnx
  obtain ⟨nc', hc', rc⟩ := rank1 cur nc hnc
  rw [ld_ok hx', Out.ok_bind, ld_ok hc', Out.ok_bind, rx, rc] at e
  obtain ⟨h2, e3, I2, -, ch2⟩ := setCh_links I1 hcur (decide (nx.rank ≥ nc.rank)) (v := some x)
    (fun q hq => by injection hq with hq; exact hq ▸ hx)
  rw [e3, Out.ok_bind] at e
  have k1 : count h1 ks = count s.heap ks := count_eq fun q _ d => ch1 q d
  have k2 := count_upd ch2 hn hcur
  rw [ch1, hslot] at k2
  have b0 : bit none = 0 := rfl
  have b1 : bit (some x) = 1 := rfl
  obtain ⟨-, k3⟩ := splay_count hn hx (s := ⟨h2, some r⟩) I2 (by rw [← hr]; rw [← hr] at e; exact e)
  dsimp only at k3
  omega

/-- a heap with too many child links is no tree -/
theorem not_tree {s : St} {xs ks : List Nat} (hp : ks.Perm xs) (hx : xs ≠ []) (h : xs.length ≤ count s.heap xs) :
    ¬ IsTree rk vl s ks := by
  rintro ⟨t, hs, -, hk, -, -⟩
  have h1 := count_holds hs
  rw [hk, count_perm _ hp, hp.length_eq] at h1
  cases t with
  | nil => rw [T.keys] at hk; subst hk; exact hx (List.nil_perm.1 hp)
  | node l p r =>
    have : bit (T.node l p r).ptr = 1 := rfl
    omega

/-- the first of several nodes keeps its link to the others when it is erased -/
theorem erase_first_count {s s1 : St} {ks : List Nat} {x fuel : Nat} (H : IsTree rk vl s (x :: ks)) (hk : ks ≠ [])
    (hf : ks.length + 1 < fuel) (e : erase fuel s x = .ok s1) :
    Inside s1.heap (x :: ks) ∧ count s1.heap (x :: ks) = ks.length ∧ ∃ r ∈ ks, s1.root = some r := by
  obtain ⟨s2, a, b, e2, hs, hr, hk2, F⟩ := splay_tree H (List.mem_cons_self) (fuel := fuel) (by simpa using hf)
  obtain ⟨-, -, -, -, hn, ho⟩ := H
  obtain ⟨h1, h2⟩ := split_unique (L := []) (by simpa using hn) (by simpa using hk2.symm)
  have ha : a = .nil := by
    cases a with
    | nil => rfl
    | node l p r => simp [T.keys] at h1
  subst ha
  subst h2
  rw [erase, e2, Out.ok_bind, ld_ok hs.1, Out.ok_bind] at e
  cases b with
  | nil => exact absurd rfl hk
  | node l p r =>
    have hI := inside_tree hs
    have hc := count_holds hs
    have hkeys : (T.node .nil x (.node l p r)).keys = x :: (T.node l p r).keys := rfl
    rw [hkeys] at hI hc
    have hpk : p ∈ x :: (T.node l p r).keys := by simp [T.keys]
    obtain ⟨h', e', I', -, ch'⟩ := setFa_links hI hpk (v := none) (fun q hq => by cases hq)
    change (do Out.ok (⟨← setFa s2.heap p none, some p⟩ : St)) = Out.ok s1 at e
    rw [e', Out.ok_bind] at e
    injection e with e
    subst e
    refine ⟨I', ?_, p, by simp [T.keys], rfl⟩
    dsimp only
    rw [count_eq fun q _ d => ch' q d]
    simp only [T.ptr, bit, Option.isSome_some, if_true, List.length_cons] at hc
    omega

/-- after erasing an inner node there are no fewer child links than before -/
theorem erase_middle_count {s s1 : St} {ls rs : List Nat} {x fuel : Nat} (H : IsTree rk vl s (ls ++ x :: rs)) (hl : ls ≠ [])
    (hr : rs ≠ []) (hf : (ls ++ x :: rs).length < fuel) (e : erase fuel s x = .ok s1) :
    Inside s1.heap (ls ++ x :: rs) ∧ (ls ++ x :: rs).length ≤ count s1.heap (ls ++ x :: rs) + 1 ∧
      ∃ r ∈ ls ++ x :: rs, s1.root = some r := by
  obtain ⟨s', m, c0, c1, t, e', hlast, G, hk, -, -⟩ := erase_ghost H hl hr hf
  rw [e'] at e
  injection e with e
  subst e
  have hls : ls.dropLast ++ [m] = ls := List.dropLast_append_getLast? m hlast
  have hperm : (m :: t.keys).Perm (ls ++ x :: rs) := by
    conv_rhs => rw [← hls]
    rw [hk]
    simp only [List.append_assoc, List.singleton_append]
    exact List.perm_middle.symm
  have htop := G.top
  have hI := inside_tree G.held
  have hc := count_holds G.held
  have hml : m ∈ ls := List.mem_of_getLast? hlast
  refine ⟨inside_perm hperm ?_, ?_, m, by simp [hml], G.root⟩
  · intro p hp
    rcases List.mem_cons.1 hp with rfl | hp
    · refine ⟨⟨_, htop⟩, fun c q hq => ?_, fun q hq => ?_⟩
      · simp only [chOf, htop, Option.bind_some, Nd.ch] at hq
        cases c
        · exact List.mem_cons_of_mem _ (G.left q (by simpa using hq))
        · simp at hq; subst hq; exact List.mem_cons_of_mem _ G.right
      · simp [faOf, htop] at hq
    · exact ⟨(hI p hp).1, fun c q hq => List.mem_cons_of_mem _ ((hI p hp).2.1 c q hq),
        fun q hq => List.mem_cons_of_mem _ ((hI p hp).2.2 q hq)⟩
  · rw [← count_perm _ hperm, ← hperm.length_eq, count]
    have : chOf s'.heap m true = some c1 := by simp [chOf, htop, Nd.ch]
    rw [this]
    have b1 : bit (some c1) = 1 := rfl
    have b2 : bit t.ptr ≤ 1 := by unfold bit; split <;> omega
    simp only [List.length_cons]
    omega

/-! ### inserting a node that is in the tree -/

theorem parent_in {h : Heap} : ∀ {t : T} {fa : Option Nat}, Holds rk vl h t fa → ∀ p ∈ t.keys, t.ptr ≠ some p →
    ∃ q ∈ t.keys, faOf h p = some q := by
  intro t
  induction t with
  | nil => intro fa _ p hp; simp [T.keys] at hp
  | node l r0 r ihl ihr =>
    intro fa hs p hp hne
    have side : ∀ {u : T}, Holds rk vl h u (some r0) → (∀ q ∈ u.keys, q ∈ (T.node l r0 r).keys) → p ∈ u.keys →
        (u.ptr ≠ some p → ∃ q ∈ u.keys, faOf h p = some q) → ∃ q ∈ (T.node l r0 r).keys, faOf h p = some q := by
      intro u hu hsub hpu ih
      by_cases e : u.ptr = some p
      · cases u with
        | nil => cases e
        | node a b c =>
          injection e with e
          subst e
          exact ⟨r0, by simp [T.keys], by simp [faOf, hu.1]⟩
      · obtain ⟨q, h1, h2⟩ := ih e
        exact ⟨q, hsub q h1, h2⟩
    simp only [T.keys, List.mem_append, List.mem_cons] at hp
    rcases hp with hp | hp | hp
    · exact side hs.2.1 (fun q hq => by simp [T.keys, hq]) hp (ihl hs.2.1 p hp)
    · subst hp; exact absurd rfl hne
    · exact side hs.2.2 (fun q hq => by simp [T.keys, hq]) hp (ihr hs.2.2 p hp)

theorem descend_any {h : Heap} {x : Nat} {nx : Nd} (hx : h x = some nx) : ∀ {t : T} {fa : Option Nat} {q : Nat},
    Holds rk vl h t fa → t.ptr = some q → ∀ fuel, descend h x fuel q = .diverge ∨ ∃ cur ∈ t.keys, descend h x fuel q = .ok cur := by
  intro t
  induction t with
  | nil => intro fa q _ e; cases e
  | node l p r ihl ihr =>
    intro fa q hs e fuel
    injection e with e
    subst e
    cases fuel with
    | zero => exact .inl rfl
    | succ fuel =>
      rw [descend, ld_ok hx, Out.ok_bind, ld_ok hs.1, Out.ok_bind]
      have side : ∀ {u : T}, (∀ q ∈ u.keys, q ∈ (T.node l p r).keys) → (∀ q, u.ptr = some q → ∀ fuel,
          descend h x fuel q = .diverge ∨ ∃ cur ∈ u.keys, descend h x fuel q = .ok cur) →
          (match u.ptr with | none => Out.ok p | some q => descend h x fuel q) = .diverge ∨
          ∃ cur ∈ (T.node l p r).keys, (match u.ptr with | none => Out.ok p | some q => descend h x fuel q) = .ok cur := by
        intro u hsub ih
        cases hu : u.ptr with
        | none => exact .inr ⟨p, by simp [T.keys], rfl⟩
        | some q =>
          rcases ih q hu fuel with h | ⟨cur, h1, h2⟩
          · exact .inl h
          · exact .inr ⟨cur, hsub cur h1, h2⟩
      dsimp only [Nd.ch]
      by_cases hc : nx.rank < rk p
      · rw [if_pos hc]
        exact side (u := l) (fun q hq => by simp [T.keys, hq]) (fun q hq => ihl hs.2.1 hq)
      · rw [if_neg hc]
        exact side (u := r) (fun q hq => by simp [T.keys, hq]) (fun q hq => ihr hs.2.2 hq)

/-- the descent for a node of the tree ends below that node -/
theorem descend_below {h : Heap} {x : Nat} {nx : Nd} (hx : h x = some nx) (hrx : nx.rank = rk x) :
    ∀ {t : T} {fa : Option Nat} {q : Nat}, Holds rk vl h t fa → t.ptr = some q → Ordered rk t.keys → x ∈ t.keys →
    (∀ p ∈ t.keys, p ≠ x → rk p ≠ rk x) → ∃ u fu, Holds rk vl h u fu ∧ u.ptr = some x ∧ (∀ p ∈ u.keys, p ∈ t.keys) ∧
      ∀ fuel, descend h x fuel q = .diverge ∨ ∃ cur ∈ u.keys, descend h x fuel q = .ok cur := by
  intro t
  induction t with
  | nil => intro fa q _ e; cases e
  | node l p r ihl ihr =>
    intro fa q hs e ho hm hd
    injection e with e
    subst e
    by_cases hxp : x = p
    · subst hxp
      exact ⟨_, fa, hs, rfl, fun _ h => h, descend_any hx hs rfl⟩
    · have hne : rk p ≠ rk x := hd p (by simp [T.keys]) (Ne.symm hxp)
      simp only [T.keys, Ordered, List.pairwise_append, List.pairwise_cons] at ho
      simp only [T.keys, List.mem_append, List.mem_cons] at hm
      rcases hm with hm | hm | hm
      · have hlt : nx.rank < rk p := by
          have := ho.2.2 x hm p (by simp)
          omega
        cases hl : l.ptr with
        | none => cases l with
          | nil => simp [T.keys] at hm
          | node _ _ _ => cases hl
        | some q =>
          obtain ⟨u, fu, a1, a2, a3, a4⟩ := ihl hs.2.1 hl ho.1 hm (fun z hz => hd z (by simp [T.keys, hz]))
          refine ⟨u, fu, a1, a2, fun z hz => by simp [T.keys, a3 z hz], fun fuel => ?_⟩
          cases fuel with
          | zero => exact .inl rfl
          | succ fuel =>
            rw [descend, ld_ok hx, Out.ok_bind, ld_ok hs.1, Out.ok_bind]
            dsimp only [Nd.ch]
            rw [if_pos hlt]
            simp only [Bool.false_eq_true, if_false]
            rw [hl]
            exact a4 fuel
      · exact absurd hm hxp
      · have hge : ¬ nx.rank < rk p := by
          have := ho.2.1.1 x hm
          omega
        cases hl : r.ptr with
        | none => cases r with
          | nil => simp [T.keys] at hm
          | node _ _ _ => cases hl
        | some q =>
          obtain ⟨u, fu, a1, a2, a3, a4⟩ := ihr hs.2.2 hl ho.2.1.2 hm (fun z hz => hd z (by simp [T.keys, hz]))
          refine ⟨u, fu, a1, a2, fun z hz => by simp [T.keys, a3 z hz], fun fuel => ?_⟩
          cases fuel with
          | zero => exact .inl rfl
          | succ fuel =>
            rw [descend, ld_ok hx, Out.ok_bind, ld_ok hs.1, Out.ok_bind]
            dsimp only [Nd.ch]
            rw [if_neg hge]
            simp only [if_true]
            rw [hl]
            exact a4 fuel

theorem insert_again {s : St} {ks : List Nat} {x : Nat} (H : IsTree rk vl s ks) (hm : x ∈ ks)
    (hd : ∀ p ∈ ks, p ≠ x → rk p ≠ rk x) (fuel : Nat) : insert fuel s x = .diverge := by
  obtain ⟨t, hs, hr, hk, hn, ho⟩ := H
  subst hk
  cases ht : t.ptr with
  | none => cases t with
    | nil => simp [T.keys] at hm
    | node _ _ _ => cases ht
  | some q =>
    obtain ⟨nx, hx, hrx⟩ : ∃ nx, s.heap x = some nx ∧ nx.rank = rk x := by
      obtain ⟨a, b, c, h⟩ := holds_node hs hm
      exact ⟨_, h, rfl⟩
    have I := inside_tree hs
    obtain ⟨u, fu, a1, a2, a3, a4⟩ := descend_below hx hrx hs ht ho hm hd
    unfold insert
    rw [hr, ht]
    dsimp only
    rcases a4 fuel with h | ⟨cur, hc, h⟩
    · rw [h]; rfl
    · rw [h, Out.ok_bind]
      have hxu : x ∈ u.keys := ptr_mem a2
      obtain ⟨h1, e1, I1, fa1, -⟩ := setFa_links I hm (v := some cur) (fun z hz => by injection hz with hz; exact hz ▸ a3 _ hc)
      rw [e1, Out.ok_bind]
      obtain ⟨n1, e2, -, -⟩ := ld_inside I1 hm
      obtain ⟨n2, e3, -, -⟩ := ld_inside I1 (a3 cur hc)
      rw [e2, Out.ok_bind, e3, Out.ok_bind]
      obtain ⟨h2, e4, I2, fa2, -⟩ := setCh_links I1 (a3 cur hc) (decide (n1.rank ≥ n2.rank)) (v := some x)
        (fun z hz => by injection hz with hz; exact hz ▸ hm)
      rw [e4, Out.ok_bind]
      refine splay_trapped (S := fun p => p ∈ u.keys) hn (fun p hp => a3 p hp) hxu (s := ⟨h2, _⟩) I2 ?_
      intro p hp
      dsimp only
      rw [fa2, fa1]
      split
      · exact ⟨cur, rfl, hc⟩
      · rename_i hpx
        obtain ⟨z, hz, e⟩ := parent_in a1 p hp (by rw [a2]; intro e; injection e with e; exact hpx e.symm)
        exact ⟨z, e, hz⟩

/-! ### programs that make nodes anew -/

theorem holds_same {rk' vl' : Nat → Int} {h : Heap} : ∀ {t : T} {fa : Option Nat}, (∀ p ∈ t.keys, rk' p = rk p ∧ vl' p = vl p) →
    Holds rk vl h t fa → Holds rk' vl' h t fa := by
  intro t
  induction t with
  | nil => intro _ _ _; trivial
  | node l p r ihl ihr =>
    intro fa he hs
    refine ⟨?_, ihl (fun q hq => he q (by simp [T.keys, hq])) hs.2.1, ihr (fun q hq => he q (by simp [T.keys, hq])) hs.2.2⟩
    rw [(he p (by simp [T.keys])).1, (he p (by simp [T.keys])).2]
    exact hs.1

theorem isTree_same {rk' vl' : Nat → Int} {s : St} {ks : List Nat} (he : ∀ p ∈ ks, rk' p = rk p ∧ vl' p = vl p)
    (H : IsTree rk vl s ks) : IsTree rk' vl' s ks := by
  obtain ⟨t, hs, hr, hk, hn, ho⟩ := H
  subst hk
  refine ⟨t, holds_same he hs, hr, rfl, hn, ?_⟩
  refine List.Pairwise.imp_of_mem ?_ ho
  intro a b ha hb hab
  rw [(he a ha).1, (he b hb).1]
  exact hab

/-- the state is what the client knows -/
structure Known (w : Plan) (s : St) : Prop where
  tree : IsTree w.rk w.vl s w.ks
  ready : ∀ p ∈ w.ready, s.heap p = some (mkNode (w.rk p) (w.vl p)) ∧ p ∉ w.ks

theorem Known.make {w : Plan} {s : St} {p : Nat} {k v : Int} (K : Known w s) (hp : p ∉ w.ks) :
    Known ⟨w.ks, put w.rk p k, put w.vl p v, p :: w.ready⟩ ⟨store s.heap p (mkNode k v), s.root⟩ := by
  have hne : ∀ q ∈ w.ks, q ≠ p := fun q hq e => hp (e ▸ hq)
  refine ⟨?_, fun q hq => ?_⟩
  · have H : IsTree w.rk w.vl ⟨store s.heap p (mkNode k v), s.root⟩ w.ks := by
      obtain ⟨t, hs, hr, hk, hn, ho⟩ := K.tree
      exact ⟨t, hs.congr fun q hq => store_ne _ _ (hne q (hk ▸ hq)), hr, hk, hn, ho⟩
    exact isTree_same (fun q hq => by simp [put, hne q hq]) H
  · dsimp only at hq ⊢
    by_cases e : q = p
    · subst e; exact ⟨by simp [store_self, put], hp⟩
    · have := K.ready q (by simpa [e] using hq)
      exact ⟨by rw [store_ne _ _ e, this.1]; simp [put, e], this.2⟩

theorem runRe_known {fuel : Nat} : ∀ {cs : List Re} {w w' : Plan} {s : St}, Known w s → w.ks.length + cs.length + 1 < fuel →
    plan w cs = some w' → ∃ s', runRe fuel s cs = .ok s' ∧ Known w' s' ∧ w'.ks.length ≤ w.ks.length + cs.length := by
  intro cs
  induction cs with
  | nil => intro w w' s K _ e; simp [plan] at e; subst e; exact ⟨s, rfl, K, by simp⟩
  | cons c cs ih =>
    intro w w' s K hf e
    simp only [List.length_cons] at hf ⊢
    cases c with
    | make p k v =>
      simp only [plan] at e
      split at e
      · cases e
      · rename_i hp
        obtain ⟨s', e', K', hl⟩ := ih (K.make hp) (by dsimp only; omega) e
        exact ⟨s', e', K', by dsimp only at hl; omega⟩
    | insert p =>
      simp only [plan] at e
      split at e
      · rename_i hp
        obtain ⟨h1, h2⟩ := K.ready p hp
        obtain ⟨s1, ls, rs, e1, hr, hks, b1, b2, H1, F⟩ := insert_tree (fuel := fuel) K.tree h1 h2 (by omega)
        rw [hks, place_eq b1 b2] at e
        have hlen : (ls ++ p :: rs).length = w.ks.length + 1 := by rw [hks]; simp; omega
        obtain ⟨s', e', K', hl⟩ := ih (s := s1) ⟨H1, fun q hq => by
            simp only [List.mem_filter, decide_eq_true_eq] at hq
            obtain ⟨q1, q2⟩ := K.ready q hq.1
            refine ⟨by rw [F q hq.2 q2]; exact q1, fun hm => ?_⟩
            rw [hks, List.mem_append] at q2
            simp only [List.mem_append, List.mem_cons] at hm
            rcases hm with hm | hm | hm
            · exact q2 (.inl hm)
            · exact hq.2 hm
            · exact q2 (.inr hm)⟩ (by dsimp only; omega) e
        exact ⟨s', by rw [runRe, e1, Out.ok_bind]; exact e', K', by dsimp only at hl; omega⟩
      · cases e
    | erase p =>
      simp only [plan] at e
      cases hw : w.ks with
      | nil => rw [hw] at e; cases e
      | cons k ks =>
        rw [hw] at e
        dsimp only at e
        split at e
        · rename_i hk
          subst hk
          have H := K.tree
          rw [hw] at H
          rw [hw, List.length_cons] at hf
          obtain ⟨s1, e1, H1, F⟩ := erase_first (fuel := fuel) H (by omega)
          have hrest : ∀ q ∈ w.ready, s1.heap q = some (mkNode (w.rk q) (w.vl q)) ∧ q ∉ ks := by
            intro q hq
            obtain ⟨q1, q2⟩ := K.ready q hq
            rw [hw] at q2
            exact ⟨by rw [F q q2]; exact q1, fun h => q2 (by simp [h])⟩
          obtain ⟨s', e', K', hl⟩ := ih (s := s1) ⟨H1, fun q hq => by
              dsimp only at hq ⊢
              split at hq
              · rename_i hnil
                rcases List.mem_cons.1 hq with hq | hq
                · subst hq hnil
                  refine ⟨?_, by simp⟩
                  -- the only node of a tree has no links
                  obtain ⟨t, hs, hr, htk, -, -⟩ := H
                  cases t with
                  | nil => simp [T.keys] at htk
                  | node l z r =>
                    have hl : l = .nil := by
                      cases l with
                      | nil => rfl
                      | node _ _ _ => have := congrArg List.length htk; simp [T.keys] at this; omega
                    have hr' : r = .nil := by
                      cases r with
                      | nil => rfl
                      | node _ _ _ => have := congrArg List.length htk; simp [T.keys] at this; omega
                    subst hl hr'
                    simp [T.keys] at htk
                    subst htk
                    have hz := hs.1
                    obtain ⟨fuel, rfl⟩ : ∃ f, fuel = f + 1 := ⟨fuel - 1, by omega⟩
                    rw [erase, splay, ld_ok hz, Out.ok_bind] at e1
                    dsimp only [T.ptr] at e1
                    rw [Out.ok_bind, ld_ok hz, Out.ok_bind] at e1
                    injection e1 with e1
                    rw [← e1]
                    exact hz
                · exact hrest q hq
              · exact hrest q hq⟩ (by dsimp only; omega) e
          exact ⟨s', by rw [runRe, e1, Out.ok_bind]; exact e', K', by dsimp only at hl; simp only [List.length_cons]; omega⟩
        · cases e

/-- a node that was erased from a tree of two and is inserted again -/
theorem pair_again {s : St} {k v k' v' : Int} (hk : k < k') (h0 : s.heap 0 = some ⟨none, some 1, none, k, v⟩)
    (h1 : s.heap 1 = some ⟨none, none, none, k', v'⟩) (hr : s.root = some 1) : ∀ fuel, insert fuel s 0 = .diverge := by
  intro fuel
  cases fuel with
  | zero => unfold insert; rw [hr]; rfl
  | succ fuel =>
    unfold insert
    rw [hr]
    dsimp only
    rw [descend, ld_ok h0, Out.ok_bind, ld_ok h1, Out.ok_bind]
    dsimp only [Nd.ch]
    rw [if_pos hk]
    simp only [Bool.false_eq_true, if_false]
    rw [Out.ok_bind, setFa_ok h0, Out.ok_bind, ld_ok (store_self _ _ _), Out.ok_bind,
      ld_ok ((store_ne _ _ (by decide)).trans h1), Out.ok_bind]
    dsimp only
    rw [decide_eq_false (by omega), setCh_ok ((store_ne _ _ (by decide)).trans h1), Out.ok_bind]
    -- the first rotation
    have e0 : (store (store s.heap 0 ⟨none, some 1, some 1, k, v⟩) 1 ((⟨none, none, none, k', v'⟩ : Nd).setCh false (some 0))) 0 =
        some ⟨none, some 1, some 1, k, v⟩ := by rw [store_ne _ _ (by decide), store_self]
    have e1 : (store (store s.heap 0 ⟨none, some 1, some 1, k, v⟩) 1 ((⟨none, none, none, k', v'⟩ : Nd).setCh false (some 0))) 1 =
        some ⟨some 0, none, none, k', v'⟩ := by rw [store_self]; rfl
    generalize store (store s.heap 0 ⟨none, some 1, some 1, k, v⟩) 1 ((⟨none, none, none, k', v'⟩ : Nd).setCh false (some 0)) = h
      at e0 e1
    rw [splay, ld_ok e0, Out.ok_bind]
    dsimp only
    rw [ld_ok e1, Out.ok_bind]
    dsimp only [Nd.ch]
    simp only [Bool.false_eq_true, if_false, if_true]
    have rot : ∃ h', rotate ⟨h, some 1⟩ 0 true = .ok ⟨h', some 0⟩ ∧ h' 0 = some ⟨none, some 1, some 1, k, v⟩ ∧
        h' 1 = some ⟨some 0, none, some 0, k', v'⟩ := by
      refine ⟨_, by simp [rotate, relink, setCh, setFa, ld, nonNull, store, e0, e1, Nd.ch, Nd.setCh]; rfl, ?_, ?_⟩
      · rfl
      · rfl
    obtain ⟨h', er, g0, g1⟩ := rot
    rw [er, Out.ok_bind]
    refine splay_trapped (ks := [0, 1]) (S := fun p => p ∈ [0, 1]) (by decide) (fun _ h => h) (by decide) (s := ⟨h', some 0⟩) ?_ ?_
    · intro p hp
      simp at hp
      rcases hp with rfl | rfl
      · exact ⟨⟨_, g0⟩, fun c q hq => by cases c <;> simp [chOf, g0, Nd.ch] at hq; simp [← hq], fun q hq => by
          simp [faOf, g0] at hq; simp [← hq]⟩
      · exact ⟨⟨_, g1⟩, fun c q hq => by cases c <;> simp [chOf, g1, Nd.ch] at hq; simp [← hq], fun q hq => by
          simp [faOf, g1] at hq; simp [← hq]⟩
    · intro p hp
      simp at hp
      rcases hp with rfl | rfl
      · exact ⟨1, by simp [faOf, g0], by simp⟩
      · exact ⟨0, by simp [faOf, g1], by simp⟩

end BST

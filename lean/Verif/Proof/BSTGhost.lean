import Verif.Proof.BST

/-! # What erasing an inner node leaves behind

After `erase` of a node `x` with nodes on both sides, `root` is the node `m` before `x`; `m` has the children of `x`,
but the parent links of these still lead to `x`.  All nodes other than `m` still form a tree with `x` on top, here
called the ghost tree. -/

namespace BST
open Cpp Spec
variable {rk vl : Nat → Int}

/-- `rotate` does not look at `root` other than comparing it with the parent -/
theorem rotate_root {h : Heap} {r : Option Nat} {x m : Nat} {c : Bool} {s' : St} {nx : Nd} (hx : h x = some nx)
    (hm : nx.fa ≠ some m) (e : rotate ⟨h, r⟩ x c = .ok s') : rotate ⟨h, some m⟩ x c = .ok ⟨s'.heap, some m⟩ := by
  unfold rotate at e ⊢
  dsimp only at e ⊢
  rw [ld_ok hx, Out.ok_bind] at e ⊢
  cases hf : nx.fa with
  | none => rw [hf] at e; simp only [nonNull] at e; cases e
  | some y =>
    rw [hf] at e hm
    simp only [nonNull, Out.ok_bind] at e ⊢
    obtain ⟨h1, e1, e⟩ := Out.bind_eq_ok.1 e
    obtain ⟨n2, e2, e⟩ := Out.bind_eq_ok.1 e
    obtain ⟨h3, e3, e⟩ := Out.bind_eq_ok.1 e
    obtain ⟨n4, e4, e⟩ := Out.bind_eq_ok.1 e
    obtain ⟨h5, e5, e⟩ := Out.bind_eq_ok.1 e
    obtain ⟨n6, e6, e⟩ := Out.bind_eq_ok.1 e
    obtain ⟨h7, e7, e⟩ := Out.bind_eq_ok.1 e
    obtain ⟨h8, e8, e⟩ := Out.bind_eq_ok.1 e
    obtain ⟨h9, e9, e⟩ := Out.bind_eq_ok.1 e
    injection e with e
    subst e
    rw [e1, Out.ok_bind, e2, Out.ok_bind, e3, Out.ok_bind, e4, Out.ok_bind, e5, Out.ok_bind, e6, Out.ok_bind, e7,
      Out.ok_bind, e8, Out.ok_bind, e9, Out.ok_bind, if_neg hm]

theorem Zip.rotateG {s : St} {d : Bool} {y x m : Nat} {sib a b : T} {k : List Fr}
    (H : Zip rk vl s (⟨d, y, sib⟩ :: k) (.node a x b))
    (hm : m ∉ leftOf (⟨d, y, sib⟩ :: k) ++ ((T.node a x b).keys ++ rightOf (⟨d, y, sib⟩ :: k))) :
    ∃ s', BST.rotate ⟨s.heap, some m⟩ x (!d) = .ok ⟨s'.heap, some m⟩ ∧
      Zip rk vl s' k (if d then .node (.node sib y a) x b else .node a x (.node b y sib)) ∧
      ∀ q, q ∉ leftOf (⟨d, y, sib⟩ :: k) ++ ((T.node a x b).keys ++ rightOf (⟨d, y, sib⟩ :: k)) →
        s'.heap q = s.heap q := by
  obtain ⟨s', e, Z, F⟩ := H.rotate
  refine ⟨s', rotate_root (r := s.root) H.sub.1 ?_ e, Z, F⟩
  intro e'
  simp only [upPtr] at e'
  injection e' with e'
  subst e'
  cases d <;> simp [leftOf, rightOf] at hm

/-- `splay` in the ghost tree -/
theorem Zip.splayG {m : Nat} : ∀ (n : Nat) {fuel : Nat} {s : St} {k : List Fr} {a b : T} {x : Nat}, k.length ≤ n → n < fuel →
    Zip rk vl s k (.node a x b) → m ∉ leftOf k ++ ((T.node a x b).keys ++ rightOf k) →
    ∃ s' a' b', BST.splay fuel ⟨s.heap, some m⟩ x = .ok ⟨s'.heap, some m⟩ ∧ Zip rk vl s' [] (.node a' x b') ∧
      (T.node a' x b').keys = leftOf k ++ ((T.node a x b).keys ++ rightOf k) ∧
      ∀ q, q ∉ leftOf k ++ ((T.node a x b).keys ++ rightOf k) → s'.heap q = s.heap q := by
  intro n
  induction n using Nat.strong_induction_on with
  | _ n ih =>
    intro fuel s k a b x hk hf H hm
    obtain ⟨fuel, rfl⟩ : ∃ m, fuel = m + 1 := ⟨fuel - 1, by omega⟩
    rw [BST.splay, ld_ok H.sub.1, Out.ok_bind]
    cases k with
    | nil => exact ⟨s, a, b, rfl, H, by simp [leftOf, rightOf], fun _ _ => rfl⟩
    | cons f k =>
      obtain ⟨d, y, sib⟩ := f
      simp only [upPtr]
      obtain ⟨ny, hy, hyf, hy0, hy1⟩ := H.side
      rw [ld_ok hy, Out.ok_bind]
      cases k with
      | nil =>
        rw [hyf]
        simp only [upPtr]
        obtain ⟨s1, e1, H1, F1⟩ := H.rotateG (by simpa [leftOf, rightOf, T.keys] using hm)
        have hstep : (if ny.ch false = some x then BST.rotate ⟨s.heap, some m⟩ x true else BST.rotate ⟨s.heap, some m⟩ x false) = .ok ⟨s1.heap, some m⟩ := by
          cases d
          · rw [if_pos (hy0.2 rfl)]; exact e1
          · rw [if_neg (fun e => by have := hy0.1 e; cases this)]; exact e1
        rw [hstep, Out.ok_bind]
        have hlen : 0 < n := by simp at hk; omega
        cases d
        · obtain ⟨s', a', b', e, Z, ek, F⟩ := ih 0 hlen (fuel := fuel) (k := []) (Nat.zero_le 0) (by omega) H1 (by simpa [leftOf, rightOf, T.keys] using hm)
          refine ⟨s', a', b', e, Z, by rw [ek]; simp [leftOf, rightOf, T.keys], fun q hq => ?_⟩
          rw [F q, F1 q]
          all_goals simpa [leftOf, rightOf, T.keys] using hq
        · obtain ⟨s', a', b', e, Z, ek, F⟩ := ih 0 hlen (fuel := fuel) (k := []) (Nat.zero_le 0) (by omega) H1 (by simpa [leftOf, rightOf, T.keys] using hm)
          refine ⟨s', a', b', e, Z, by rw [ek]; simp [leftOf, rightOf, T.keys], fun q hq => ?_⟩
          rw [F q, F1 q]
          all_goals simpa [leftOf, rightOf, T.keys] using hq
      | cons g k =>
        obtain ⟨d2, z, sib2⟩ := g
        rw [hyf]
        simp only [upPtr]
        simp only [List.length_cons] at hk
        have hlt : k.length < n := by omega
        cases d with
        | false =>
          have Hy := H.up
          simp only [Bool.false_eq_true, if_false] at Hy
          obtain ⟨nz, hz, -, hz0, hz1⟩ := Hy.side
          rw [ld_ok hz, Out.ok_bind]
          cases d2 with
          | false =>
            rw [if_pos (hz0.2 rfl), if_pos (hy0.2 rfl)]
            obtain ⟨s1, e1, H1, F1⟩ := Hy.rotateG (by simpa [leftOf, rightOf, T.keys] using hm)
            simp only [Bool.not_false, Bool.false_eq_true, if_false] at e1 H1
            rw [e1, Out.ok_bind]
            obtain ⟨s2, e2, H2, F2⟩ := H1.left.rotateG (by simpa [leftOf, rightOf, T.keys] using hm)
            simp only [Bool.not_false, Bool.false_eq_true, if_false] at e2 H2
            rw [e2, Out.ok_bind]
            obtain ⟨s', a', b', e, Z, ek, F⟩ := ih _ hlt (fuel := fuel) le_rfl (by omega) H2 (by simpa [leftOf, rightOf, T.keys] using hm)
            refine ⟨s', a', b', e, Z, by rw [ek]; simp [leftOf, rightOf, T.keys], fun q hq => ?_⟩
            rw [F q, F2 q, F1 q]
            all_goals simpa [leftOf, rightOf, T.keys] using hq
          | true =>
            rw [if_neg (fun e => by have := hz0.1 e; cases this), if_neg (fun e => by have := hy1.1 e; cases this)]
            obtain ⟨s1, e1, H1, F1⟩ := H.rotateG (by simpa [leftOf, rightOf, T.keys] using hm)
            simp only [Bool.not_false, Bool.false_eq_true, if_false] at e1 H1
            rw [e1, Out.ok_bind]
            obtain ⟨s2, e2, H2, F2⟩ := H1.rotateG (by simpa [leftOf, rightOf, T.keys] using hm)
            simp only [Bool.not_true, if_true] at e2 H2
            rw [e2, Out.ok_bind]
            obtain ⟨s', a', b', e, Z, ek, F⟩ := ih _ hlt (fuel := fuel) le_rfl (by omega) H2 (by simpa [leftOf, rightOf, T.keys] using hm)
            refine ⟨s', a', b', e, Z, by rw [ek]; simp [leftOf, rightOf, T.keys], fun q hq => ?_⟩
            rw [F q, F2 q, F1 q]
            all_goals simpa [leftOf, rightOf, T.keys] using hq
        | true =>
          have Hy := H.up
          simp only [if_true] at Hy
          obtain ⟨nz, hz, -, hz0, hz1⟩ := Hy.side
          rw [ld_ok hz, Out.ok_bind]
          cases d2 with
          | false =>
            rw [if_pos (hz0.2 rfl), if_neg (fun e => by have := hy0.1 e; cases this)]
            obtain ⟨s1, e1, H1, F1⟩ := H.rotateG (by simpa [leftOf, rightOf, T.keys] using hm)
            simp only [Bool.not_true, if_true] at e1 H1
            rw [e1, Out.ok_bind]
            obtain ⟨s2, e2, H2, F2⟩ := H1.rotateG (by simpa [leftOf, rightOf, T.keys] using hm)
            simp only [Bool.not_false, Bool.false_eq_true, if_false] at e2 H2
            rw [e2, Out.ok_bind]
            obtain ⟨s', a', b', e, Z, ek, F⟩ := ih _ hlt (fuel := fuel) le_rfl (by omega) H2 (by simpa [leftOf, rightOf, T.keys] using hm)
            refine ⟨s', a', b', e, Z, by rw [ek]; simp [leftOf, rightOf, T.keys], fun q hq => ?_⟩
            rw [F q, F2 q, F1 q]
            all_goals simpa [leftOf, rightOf, T.keys] using hq
          | true =>
            rw [if_neg (fun e => by have := hz0.1 e; cases this), if_pos (hy1.2 rfl)]
            obtain ⟨s1, e1, H1, F1⟩ := Hy.rotateG (by simpa [leftOf, rightOf, T.keys] using hm)
            simp only [Bool.not_true, if_true] at e1 H1
            rw [e1, Out.ok_bind]
            obtain ⟨s2, e2, H2, F2⟩ := H1.right.rotateG (by simpa [leftOf, rightOf, T.keys] using hm)
            simp only [Bool.not_true, if_true] at e2 H2
            rw [e2, Out.ok_bind]
            obtain ⟨s', a', b', e, Z, ek, F⟩ := ih _ hlt (fuel := fuel) le_rfl (by omega) H2 (by simpa [leftOf, rightOf, T.keys] using hm)
            refine ⟨s', a', b', e, Z, by rw [ek]; simp [leftOf, rightOf, T.keys], fun q hq => ?_⟩
            rw [F q, F2 q, F1 q]
            all_goals simpa [leftOf, rightOf, T.keys] using hq

/-- the descent of `insert` in a tree that need not be ordered -/
theorem Zip.descendG {s : St} {x : Nat} {nx : Nd} (hx : s.heap x = some nx) : ∀ {t : T} {k : List Fr} {q fuel : Nat},
    t.ptr = some q → Zip rk vl s k t → t.keys.length < fuel →
    ∃ d y sib k', BST.descend s.heap x fuel q = .ok y ∧ Zip rk vl s (⟨d, y, sib⟩ :: k') .nil ∧
      d = decide (nx.rank ≥ rk y) ∧
      leftOf (⟨d, y, sib⟩ :: k') ++ rightOf (⟨d, y, sib⟩ :: k') = leftOf k ++ (t.keys ++ rightOf k) := by
  intro t
  induction t with
  | nil => intro k q fuel h; cases h
  | node l p r ihl ihr =>
    intro k q fuel hq H hf
    injection hq with hq
    subst hq
    obtain ⟨fuel, rfl⟩ : ∃ m, fuel = m + 1 := ⟨fuel - 1, by omega⟩
    rw [BST.descend, ld_ok hx, Out.ok_bind, ld_ok H.sub.1, Out.ok_bind]
    dsimp only
    simp only [T.keys, List.length_append, List.length_cons] at hf
    by_cases hc : nx.rank < rk p
    · rw [if_pos hc]
      have key : leftOf (⟨false, p, r⟩ :: k) ++ (l.keys ++ rightOf (⟨false, p, r⟩ :: k)) =
          leftOf k ++ ((T.node l p r).keys ++ rightOf k) := by simp [leftOf, rightOf, T.keys]
      cases l with
      | nil =>
        refine ⟨false, p, r, k, rfl, H.left, ?_, ?_⟩
        · symm; rw [decide_eq_false_iff_not]; omega
        · rw [← key]; simp [T.keys]
      | node l1 lp l2 =>
        obtain ⟨d, y, sib, k', e, Z, hd, hk⟩ := ihl (fuel := fuel) rfl H.left (by omega)
        exact ⟨d, y, sib, k', e, Z, hd, hk.trans key⟩
    · rw [if_neg hc]
      have key : leftOf (⟨true, p, l⟩ :: k) ++ (r.keys ++ rightOf (⟨true, p, l⟩ :: k)) =
          leftOf k ++ ((T.node l p r).keys ++ rightOf k) := by simp [leftOf, rightOf, T.keys]
      cases r with
      | nil =>
        refine ⟨true, p, l, k, rfl, H.right, ?_, ?_⟩
        · symm; rw [decide_eq_true_eq]; omega
        · rw [← key]; simp [T.keys]
      | node r1 rp r2 =>
        obtain ⟨d, y, sib, k', e, Z, hd, hk⟩ := ihr (fuel := fuel) rfl H.right (by omega)
        exact ⟨d, y, sib, k', e, Z, hd, hk.trans key⟩

/-- `root` is `m`, which is not in the ghost tree `t` but has nodes of it as children. -/
structure Ghost (rk vl : Nat → Int) (s : St) (m : Nat) (c0 : Option Nat) (c1 : Nat) (t : T) : Prop where
  held : Holds rk vl s.heap t none
  nodup : t.keys.Nodup
  out : m ∉ t.keys
  root : s.root = some m
  top : s.heap m = some ⟨c0, some c1, none, rk m, vl m⟩
  left : ∀ q, c0 = some q → q ∈ t.keys
  right : c1 ∈ t.keys

/-- every insertion ends on top of the ghost tree -/
theorem Ghost.insert {s : St} {m : Nat} {c0 : Option Nat} {c1 : Nat} {t : T} {y fuel : Nat}
    (G : Ghost rk vl s m c0 c1 t) (hy : s.heap y = some (mkNode (rk y) (vl y))) (hnew : y ∉ t.keys) (hym : y ≠ m)
    (hside : c0 ≠ none ∨ rk m ≤ rk y) (hf : t.keys.length + 2 < fuel) :
    ∃ s' a b, BST.insert fuel s y = .ok s' ∧ Ghost rk vl s' m c0 c1 (.node a y b) ∧
      (T.node a y b).keys.Perm (y :: t.keys) ∧ ∀ q, q ≠ y → q ∉ t.keys → s'.heap q = s.heap q := by
  have htop := G.top
  have Z : Zip rk vl ⟨s.heap, t.ptr⟩ [] t := ⟨G.held, trivial, by simpa [leftOf, rightOf] using G.nodup, rfl⟩
  -- the child of `m` at which the descent goes on
  obtain ⟨c, hc, hcm⟩ : ∃ c, (if rk y < rk m then c0 else some c1) = some c ∧ c ∈ t.keys := by
    by_cases h : rk y < rk m
    · rw [if_pos h]
      cases hc0 : c0 with
      | none => rcases hside with h' | h'
                · exact absurd hc0 h'
                · omega
      | some c => exact ⟨c, rfl, G.left c hc0⟩
    · rw [if_neg h]; exact ⟨c1, rfl, G.right⟩
  obtain ⟨k, a, b, Z1, ek⟩ := Z.reach hcm
  simp only [leftOf, rightOf, List.nil_append, List.append_nil] at ek
  have hlen1 : (T.node a c b).keys.length ≤ t.keys.length := by rw [← ek]; simp; omega
  obtain ⟨fuel, rfl⟩ : ∃ f, fuel = f + 1 := ⟨fuel - 1, by omega⟩
  obtain ⟨d, z, sib, k', e, Z2, hd, hk⟩ := Zip.descendG (s := ⟨s.heap, t.ptr⟩) hy (t := .node a c b) (q := c) (fuel := fuel) rfl Z1 (by omega)
  rw [ek] at hk
  have hnew' : y ∉ leftOf (⟨d, z, sib⟩ :: k') ∧ y ∉ rightOf (⟨d, z, sib⟩ :: k') := by
    rw [← hk] at hnew; simpa using hnew
  obtain ⟨g1, g2, nz, f1, f2, f3, f4, f5, Z3, F3⟩ := Z2.attach hy hnew'
  have hlen : (⟨d, z, sib⟩ :: k' : List Fr).length ≤ t.keys.length := by
    rw [← hk]; exact length_ctx _
  have hmk : m ∉ leftOf (⟨d, z, sib⟩ :: k') ++ ((T.node .nil y .nil).keys ++ rightOf (⟨d, z, sib⟩ :: k')) := by
    have := G.out
    rw [← hk] at this
    simp only [List.mem_append, not_or, T.keys, List.nil_append, List.mem_cons, List.not_mem_nil, or_false] at this ⊢
    exact ⟨this.1, hym.symm, this.2⟩
  obtain ⟨s', a', b', e', Z4, hk4, F4⟩ := Zip.splayG (m := m) _ (fuel := fuel + 1) le_rfl (by omega) Z3 hmk
  have hd' : decide ((mkNode (rk y) (vl y)).rank ≥ nz.rank) = d := by rw [hd, f3]
  have hzm : z ∈ t.keys := by rw [← hk]; cases d <;> simp [leftOf, rightOf]
  have run : BST.insert (fuel + 1) s y = .ok ⟨s'.heap, some m⟩ := by
    unfold BST.insert
    rw [G.root]
    dsimp only
    rw [BST.descend, ld_ok hy, Out.ok_bind, ld_ok htop, Out.ok_bind]
    dsimp only [mkNode, Nd.ch]
    simp only [Bool.false_eq_true, if_false, if_true]
    rw [hc]
    dsimp only
    rw [e, Out.ok_bind, f1, Out.ok_bind, ld_ok f4, Out.ok_bind, ld_ok f2, Out.ok_bind]
    dsimp only
    rw [hd', f5, Out.ok_bind]
    exact e'
  have hperm : (T.node a' y b').keys.Perm (y :: t.keys) := by
    rw [hk4, ← hk]
    simp only [T.keys, List.nil_append, List.singleton_append]
    exact List.perm_middle
  have frame : ∀ q, q ≠ y → q ∉ t.keys → s'.heap q = s.heap q := by
    intro q hqy hq
    rw [F4 q]
    · exact F3 q hqy (by rintro rfl; exact hq hzm)
    · rw [← hk] at hq
      simp only [List.mem_append, T.keys, List.nil_append, List.mem_cons, List.not_mem_nil, or_false, not_or] at hq ⊢
      exact ⟨hq.1, hqy, hq.2⟩
  refine ⟨_, a', b', run, ⟨Z4.sub, by simpa [leftOf, rightOf] using Z4.nodup, ?_, rfl, ?_, fun q hq => ?_, ?_⟩, hperm,
    frame⟩
  · intro h
    rcases List.mem_cons.1 (hperm.mem_iff.1 h) with h | h
    · exact hym h.symm
    · exact G.out h
  · exact (frame m hym.symm G.out).trans htop
  · exact hperm.mem_iff.2 (List.mem_cons_of_mem _ (G.left q hq))
  · exact hperm.mem_iff.2 (List.mem_cons_of_mem _ G.right)

/-- searching a tree that need not be ordered -/
theorem search_in {h : Heap} {v : Int} : ∀ {t : T} {fuel : Nat}, HoldsDown rk vl h t → t.keys.length < fuel →
    ∃ r, search h v fuel t.ptr = .ok r ∧ ∀ p, r = some p → p ∈ t.keys := by
  intro t
  induction t with
  | nil =>
    intro fuel _ hf
    obtain ⟨fuel, rfl⟩ : ∃ m, fuel = m + 1 := ⟨fuel - 1, by omega⟩
    exact ⟨none, rfl, by simp⟩
  | node l p r ihl ihr =>
    intro fuel hs hf
    obtain ⟨fuel, rfl⟩ : ∃ m, fuel = m + 1 := ⟨fuel - 1, by omega⟩
    obtain ⟨⟨fa, hp⟩, hl, hr⟩ := hs
    simp only [T.keys, List.length_append, List.length_cons] at hf
    simp only [T.ptr]
    rw [search, ld_ok hp, Out.ok_bind]
    dsimp only
    by_cases h1 : rk p = v
    · rw [if_pos h1]
      exact ⟨some p, rfl, by rintro q e; injection e with e; subst e; simp [T.keys]⟩
    · rw [if_neg h1]
      by_cases h2 : rk p < v
      · rw [if_pos h2]
        obtain ⟨res, e, a1⟩ := ihr (fuel := fuel) hr (by omega)
        exact ⟨res, e, fun q hq => by simp [T.keys, a1 q hq]⟩
      · rw [if_neg h2]
        obtain ⟨res, e, a1⟩ := ihl (fuel := fuel) hl (by omega)
        exact ⟨res, e, fun q hq => by simp [T.keys, a1 q hq]⟩

/-- every node is the top of a subtree -/
theorem subtree_at {h : Heap} {p : Nat} : ∀ {t : T}, HoldsDown rk vl h t → p ∈ t.keys →
    ∃ u : T, HoldsDown rk vl h u ∧ u.ptr = some p ∧ (∀ q ∈ u.keys, q ∈ t.keys) ∧ u.keys.length ≤ t.keys.length := by
  intro t
  induction t with
  | nil => intro _ hp; simp [T.keys] at hp
  | node l q r ihl ihr =>
    intro hs hp
    simp [T.keys] at hp
    rcases hp with hp | hp | hp
    · obtain ⟨u, a1, a2, a3, a4⟩ := ihl hs.2.1 hp
      exact ⟨u, a1, a2, fun z hz => by simp [T.keys, a3 z hz], by simp [T.keys]; omega⟩
    · subst hp; exact ⟨_, hs, rfl, fun z hz => hz, le_rfl⟩
    · obtain ⟨u, a1, a2, a3, a4⟩ := ihr hs.2.2 hp
      exact ⟨u, a1, a2, fun z hz => by simp [T.keys, a3 z hz], by simp [T.keys]; omega⟩

/-- the node on top of the ghost tree is never found -/
theorem Ghost.find {s : St} {m : Nat} {c0 : Option Nat} {c1 : Nat} {a b : T} {y fuel : Nat}
    (G : Ghost rk vl s m c0 c1 (.node a y b)) (h0 : ∀ q, c0 = some q → q ≠ y) (h1 : c1 ≠ y)
    (hf : (T.node a y b).keys.length + 1 < fuel) (v : Int) : ∃ r, BST.find fuel s v = .ok r ∧ r ≠ some y := by
  have htop := G.top
  have hym : y ≠ m := by rintro rfl; exact G.out (by simp [T.keys])
  obtain ⟨fuel, rfl⟩ : ∃ f, fuel = f + 1 := ⟨fuel - 1, by omega⟩
  have hn := G.nodup
  simp only [T.keys, List.nodup_append, List.nodup_cons] at hn
  have hya : y ∉ a.keys := fun h => hn.2.2 y h y (by simp) rfl
  have hyb : y ∉ b.keys := hn.2.1.1
  simp only [T.keys, List.length_append, List.length_cons] at hf
  -- from a child of `m`
  have go : ∀ q, q ∈ (T.node a y b).keys → q ≠ y → ∃ r, search s.heap v fuel (some q) = .ok r ∧ r ≠ some y := by
    intro q hq hqy
    simp [T.keys] at hq
    rcases hq with hq | hq | hq
    · obtain ⟨u, a1, a2, a3, a4⟩ := subtree_at (G.held.2.1.down) hq
      obtain ⟨r, e, a5⟩ := search_in (v := v) (fuel := fuel) a1 (by omega)
      rw [a2] at e
      exact ⟨r, e, fun h => hya (a3 y (a5 y h))⟩
    · exact absurd hq hqy
    · obtain ⟨u, a1, a2, a3, a4⟩ := subtree_at (G.held.2.2.down) hq
      obtain ⟨r, e, a5⟩ := search_in (v := v) (fuel := fuel) a1 (by omega)
      rw [a2] at e
      exact ⟨r, e, fun h => hyb (a3 y (a5 y h))⟩
  unfold BST.find
  rw [G.root, search, ld_ok htop, Out.ok_bind]
  dsimp only [Nd.ch]
  by_cases hv : rk m = v
  · rw [if_pos hv]; exact ⟨_, rfl, fun e => by injection e with e; exact hym e.symm⟩
  · rw [if_neg hv]
    by_cases hlt : rk m < v
    · rw [if_pos hlt, if_pos rfl]; exact go c1 G.right h1
    · rw [if_neg hlt]
      simp only [Bool.false_eq_true, if_false]
      cases hc : c0 with
      | none =>
        obtain ⟨fuel, rfl⟩ : ∃ f, fuel = f + 1 := ⟨fuel - 1, by omega⟩
        exact ⟨none, rfl, by simp⟩
      | some q => exact go q (G.left q hc) (h0 q hc)

/-- the node inserted last is lost -/
theorem Ghost.insertAll {m : Nat} {c0 : Option Nat} {c1 fuel : Nat} : ∀ {ys : List Nat} {y : Nat} {s : St} {t : T},
    Ghost rk vl s m c0 c1 t → (∀ p ∈ ys ++ [y], s.heap p = some (mkNode (rk p) (vl p))) → (ys ++ [y]).Nodup →
    (∀ p ∈ ys ++ [y], p ∉ t.keys ∧ p ≠ m) → (∀ p ∈ ys ++ [y], c0 ≠ none ∨ rk m ≤ rk p) →
    t.keys.length + ys.length + 2 < fuel →
    ∃ s', Spec.insertAll fuel s (ys ++ [y]) = .ok s' ∧ ∀ v, ∃ r, BST.find fuel s' v = .ok r ∧ r ≠ some y := by
  intro ys
  induction ys with
  | nil =>
    intro y s t G hx _ hnew hside hf
    simp only [List.length_nil] at hf
    obtain ⟨s', a, b, e, G', hp, -⟩ := G.insert (fuel := fuel) (hx y (by simp)) (hnew y (by simp)).1 (hnew y (by simp)).2
      (hside y (by simp)) (by omega)
    refine ⟨s', ?_, fun v => G'.find (fun q hq => ?_) ?_ ?_ v⟩
    · simp only [List.nil_append, Spec.insertAll]; rw [e]; rfl
    · rintro rfl; exact (hnew q (by simp)).1 (G.left q hq)
    · intro h; exact (hnew y (by simp)).1 (h ▸ G.right)
    · have := hp.length_eq; simp only [List.length_cons] at this; omega
  | cons z ys ih =>
    intro y s t G hx hn hnew hside hf
    simp only [List.cons_append, List.nodup_cons] at hn
    simp only [List.length_cons] at hf
    obtain ⟨s1, a, b, e, G', hp, F⟩ := G.insert (fuel := fuel) (hx z (by simp)) (hnew z (by simp)).1 (hnew z (by simp)).2
      (hside z (by simp)) (by omega)
    have hlen := hp.length_eq
    simp only [List.length_cons] at hlen
    obtain ⟨s', e', hfind⟩ := ih (y := y) G' (fun p hp' => by
        rw [F p (by rintro rfl; exact hn.1 hp') (hnew p (List.mem_cons_of_mem _ hp')).1]
        exact hx p (List.mem_cons_of_mem _ hp')) hn.2
      (fun p hp' => ⟨fun h => by
        rcases List.mem_cons.1 (hp.mem_iff.1 h) with h | h
        · subst h; exact hn.1 hp'
        · exact (hnew p (List.mem_cons_of_mem _ hp')).1 h, (hnew p (List.mem_cons_of_mem _ hp')).2⟩)
      (fun p hp' => hside p (List.mem_cons_of_mem _ hp')) (by omega)
    refine ⟨s', ?_, hfind⟩
    simp only [List.cons_append, Spec.insertAll]
    rw [e, Out.ok_bind]
    exact e'

/-! ### erasing an inner node -/

/-- the rightmost node and what remains when it is cut out -/
theorem max_cut {h : Heap} : ∀ {t : T} {fa : Option Nat} {m : Nat}, Holds rk vl h t fa → t.keys.Nodup →
    t.keys.getLast? = some m →
    ∃ (lt : T) (f : Option Nat), h m = some ⟨lt.ptr, none, f, rk m, vl m⟩ ∧ (∀ q ∈ lt.keys, q ∈ t.keys.dropLast) ∧
      ((f = fa ∧ t = .node lt m .nil) ∨ (∃ w nw, f = some w ∧ w ∈ t.keys.dropLast ∧ h w = some nw ∧ nw.ch0 ≠ some m ∧
        lt.ptr ≠ some w ∧ t.dropMax.ptr = t.ptr ∧
        ∀ h' : Heap, h' w = some { nw with ch1 := lt.ptr } →
          (∀ q ∈ t.keys.dropLast, q ≠ w → h' q = if lt.ptr = some q then (h q).map fun n => { n with fa := some w } else h q) →
          Holds rk vl h' t.dropMax fa))
  | .nil, fa, m => by intro _ _ e; simp [T.keys] at e
  | .node l p .nil, fa, m => by
    intro hs hn e
    simp [T.keys] at e
    subst e
    refine ⟨l, fa, hs.1, fun q hq => by simpa [T.keys] using hq, .inl ⟨rfl, rfl⟩⟩
  | .node l p (.node a q b), fa, m => by
    intro hs hn e
    have hdl : (T.node l p (.node a q b)).keys.dropLast = l.keys ++ p :: (T.node a q b).keys.dropLast := by
      rw [T.keys, List.dropLast_append_of_ne_nil (by simp), List.dropLast_cons_of_ne_nil (by simp [T.keys])]
    have e' : (T.node a q b).keys.getLast? = some m := by
      rw [T.keys, List.getLast?_append, List.getLast?_cons] at e
      cases hh : (T.node a q b).keys.getLast? with
      | none => simp [T.keys] at hh
      | some z => rw [hh] at e; simpa using e
    have hn1 : l.keys.Nodup ∧ (p ∉ (T.node a q b).keys ∧ (T.node a q b).keys.Nodup) ∧
        ∀ z ∈ l.keys, z ≠ p ∧ z ∉ (T.node a q b).keys := by
      rw [T.keys, List.nodup_append, List.nodup_cons] at hn
      exact ⟨hn.1, hn.2.1, fun z hz => ⟨hn.2.2 z hz p (by simp), fun hz' => hn.2.2 z hz z (by simp [hz']) rfl⟩⟩
    have hmm : m ∈ (T.node a q b).keys := List.mem_of_getLast? e'
    obtain ⟨lt, f, hm, hlt, hcase⟩ := max_cut hs.2.2 hn1.2.1.2 e'
    have hltin : ∀ z ∈ lt.keys, z ∈ (T.node a q b).keys := fun z hz => List.dropLast_subset _ (hlt z hz)
    have hltl : ∀ z ∈ l.keys, lt.ptr ≠ some z := fun z hz e => (hn1.2.2 z hz).2 (hltin z (ptr_mem e))
    have hltp : lt.ptr ≠ some p := fun e => hn1.2.1.1 (hltin p (ptr_mem e))
    refine ⟨lt, f, hm, fun z hz => by rw [hdl]; simp [hlt z hz], .inr ?_⟩
    rcases hcase with ⟨hf, ht⟩ | ⟨w, nw, hf, hwm, hw, hw0, hltw, hdp, hall⟩
    · injection ht with h1 h2 h3
      subst h1 h2 h3
      have : l.ptr ≠ some q := fun e => (hn1.2.2 q (ptr_mem e)).2 hmm
      refine ⟨p, _, hf, by rw [hdl]; simp, hs.1, this, hltp, rfl, ?_⟩
      intro h' hw' hoth
      refine ⟨hw', ?_, ?_⟩
      · refine hs.2.1.congr fun z hz => ?_
        rw [hoth z (by rw [hdl]; simp [hz]) (hn1.2.2 z hz).1, if_neg (hltl z hz)]
      · refine hs.2.2.2.1.refa ?_ fun z hz => ?_
        · have := hn1.2.1.2
          simp only [T.keys, List.nodup_append] at this
          exact this.1
        · have hz' : z ∈ a.keys := hz
          rw [hoth z (by rw [hdl]; simp [hlt z hz']) (by rintro rfl; exact hn1.2.1.1 (hltin _ hz'))]
          rfl
    · have hwp : w ∈ (T.node a q b).keys := List.dropLast_subset _ hwm
      refine ⟨w, nw, hf, by rw [hdl]; simp [hwm], hw, hw0, hltw, rfl, ?_⟩
      intro h' hw' hoth
      rw [T.dropMax]
      refine ⟨?_, ?_, hall h' hw' fun z hz hzw => hoth z (by rw [hdl]; simp [hz]) hzw⟩
      · rw [hoth p (by rw [hdl]; simp) (by rintro rfl; exact hn1.2.1.1 hwp), if_neg hltp, hs.1, hdp]
      · refine hs.2.1.congr fun z hz => ?_
        rw [hoth z (by rw [hdl]; simp [hz]) (by rintro rfl; exact (hn1.2.2 z hz).2 hwp), if_neg (hltl z hz)]

/-- the state after erasing a node that has nodes on both sides -/
theorem erase_ghost {s : St} {ls rs : List Nat} {x fuel : Nat} (H : IsTree rk vl s (ls ++ x :: rs)) (hl : ls ≠ [])
    (hr : rs ≠ []) (hf : (ls ++ x :: rs).length < fuel) :
    ∃ s' m c0 c1 t, erase fuel s x = .ok s' ∧ ls.getLast? = some m ∧ Ghost rk vl s' m c0 c1 t ∧
      t.keys = ls.dropLast ++ x :: rs ∧ (2 ≤ ls.length → c0 ≠ none) ∧
      ∀ q, q ∉ ls ++ x :: rs → s'.heap q = s.heap q := by
  obtain ⟨s1, a, b, e, hs, hroot, hk, F⟩ := splay_tree H (x := x) (by simp) (fuel := fuel) hf
  obtain ⟨-, -, -, -, hn, ho⟩ := H
  obtain ⟨h1, h2⟩ := split_unique hn hk.symm
  subst h1 h2
  simp only [List.length_append, List.length_cons] at hf
  have hn0 := hn
  rw [List.nodup_append, List.nodup_cons] at hn
  obtain ⟨hna, ⟨hxb, hnb⟩, hdis⟩ := hn
  have hxa : x ∉ a.keys := fun hm => hdis x hm x (by simp) rfl
  have hab : ∀ q ∈ a.keys, q ∉ b.keys := fun q hq hq' => hdis q hq q (by simp [hq']) rfl
  obtain ⟨aq, haq⟩ : ∃ q, a.ptr = some q := by
    cases a with
    | nil => exact absurd rfl hl
    | node l p r => exact ⟨p, rfl⟩
  obtain ⟨bq, hbq⟩ : ∃ q, b.ptr = some q := by
    cases b with
    | nil => exact absurd rfl hr
    | node l p r => exact ⟨p, rfl⟩
  obtain ⟨m, hfar, hm⟩ := last_right (fuel := fuel) hs.2.1.down haq (by omega)
  have hma : m ∈ a.keys := List.mem_of_getLast? hm
  have hakeys : a.keys.dropLast ++ [m] = a.keys := List.dropLast_append_getLast? m hm
  have hmd : m ∉ a.keys.dropLast := by
    intro hm'
    rw [← hakeys, List.nodup_append] at hna
    exact hna.2.2 m hm' m (by simp) rfl
  have hxm : x ≠ m := fun e => hxa (e ▸ hma)
  obtain ⟨lt, f, hmn, hlt, hcase⟩ := max_cut hs.2.1 hna hm
  have hpre : pre fuel s1.heap x = .ok (some m) := by
    rw [pre, ld_ok hs.1, Out.ok_bind]
    simp only [Nd.ch, Bool.false_eq_true, if_false]
    rw [haq]
    dsimp only
    rw [hfar]; rfl
  have hltm : lt.ptr ≠ some m := fun e => hmd (hlt m (ptr_mem e))
  have hltx : lt.ptr ≠ some x := fun e => hxa (List.dropLast_subset _ (hlt x (ptr_mem e)))
  -- the final steps, from the heap in which the parent of `m` has been changed
  have fin : ∀ (g : Heap) (f' : Option Nat) (xa : Option Nat),
      g m = some ⟨lt.ptr, none, f', rk m, vl m⟩ → g x = some ⟨xa, b.ptr, none, rk x, vl x⟩ →
      (∀ q, lt.ptr = some q → ∃ nq, g q = some nq) →
      ∃ h' : Heap, (do
        let nr ← ld g m
        let h ← (match nr.ch false with | none => .ok g | some q => setFa g q nr.fa)
        let h ← setFa h m none
        let h ← setCh h m false ((← ld h x).ch false)
        let h ← setCh h m true ((← ld h x).ch true)
        Out.ok (⟨h, some m⟩ : St)) = .ok ⟨h', some m⟩ ∧
        h' m = some ⟨xa, b.ptr, none, rk m, vl m⟩ ∧
        (∀ q, q ≠ m → h' q = if lt.ptr = some q then (g q).map fun n => { n with fa := f' } else g q) := by
    intro g f' xa gm gx galt
    rw [ld_ok gm, Out.ok_bind]
    simp only [Nd.ch, Bool.false_eq_true, if_false]
    have step : ∃ g1 : Heap, (match lt.ptr with | none => Out.ok g | some q => setFa g q f') = .ok g1 ∧
        g1 m = some ⟨lt.ptr, none, f', rk m, vl m⟩ ∧ g1 x = some ⟨xa, b.ptr, none, rk x, vl x⟩ ∧
        (∀ q, g1 q = if lt.ptr = some q then (g q).map fun n => { n with fa := f' } else g q) := by
      cases hlp : lt.ptr with
      | none => exact ⟨g, rfl, by rw [gm, hlp], gx, fun q => by simp⟩
      | some q =>
        obtain ⟨nq, hq⟩ := galt q hlp
        have hqm : m ≠ q := fun e => hltm (e ▸ hlp)
        have hqx : x ≠ q := fun e => hltx (e ▸ hlp)
        refine ⟨_, setFa_ok hq f', ?_, ?_, fun z => ?_⟩
        · rw [store_ne _ _ hqm, gm, hlp]
        · rw [store_ne _ _ hqx, gx]
        · by_cases ez : z = q
          · subst ez
            rw [if_pos rfl, hq, store_self]; rfl
          · rw [store_ne _ _ ez, if_neg]
            intro h; injection h with h; exact ez h.symm
    obtain ⟨g1, e1, gm1, gx1, gall⟩ := step
    rw [e1, Out.ok_bind, setFa_ok gm1, Out.ok_bind, ld_ok ((store_ne _ _ hxm).trans gx1), Out.ok_bind,
      setCh_ok (store_self _ _ _), Out.ok_bind,
      ld_ok ((store_ne _ _ hxm).trans ((store_ne _ _ hxm).trans gx1)), Out.ok_bind,
      setCh_ok (store_self _ _ _), Out.ok_bind]
    refine ⟨_, rfl, ?_, fun q hq => ?_⟩
    · rw [store_self]; rfl
    · rw [store_ne _ _ hq, store_ne _ _ hq, store_ne _ _ hq, gall]
  have hbm : bq ∈ b.keys := ptr_mem hbq
  have hout : ∀ (t1 : T), t1.keys = a.keys.dropLast → m ∉ (T.node t1 x b).keys := by
    intro t1 h hm'
    simp only [T.keys, h, List.mem_append, List.mem_cons] at hm'
    rcases hm' with h | h | h
    · exact hmd h
    · exact hxm h.symm
    · exact hab m hma h
  have hnd : ∀ (t1 : T), t1.keys = a.keys.dropLast → (T.node t1 x b).keys.Nodup := by
    intro t1 h
    simp only [T.keys, h]
    exact hn0.sublist (List.Sublist.append_right (List.dropLast_sublist _) _)
  rw [erase, e, Out.ok_bind, ld_ok hs.1, Out.ok_bind]
  simp only [haq, hbq]
  rw [hpre, Out.ok_bind]
  simp only [nonNull, Out.ok_bind]
  rw [ld_ok hmn, Out.ok_bind]
  simp only [show (⟨lt.ptr, none, f, rk m, vl m⟩ : Nd).ch false = lt.ptr from rfl]
  rcases hcase with ⟨hf1, ht⟩ | ⟨w, nw, hfw, hwm, hw, hw0, hltw, hdp, hall⟩
  · -- `m` is the left child of `x`
    subst hf1
    subst ht
    dsimp only
    rw [Out.ok_bind, ld_ok hs.1, Out.ok_bind, if_pos (show (Nd.ch _ false) = some m from rfl), setCh_ok hs.1, Out.ok_bind]
    have gm : store s1.heap x ((⟨(T.node lt m .nil).ptr, b.ptr, none, rk x, vl x⟩ : Nd).setCh false lt.ptr) m =
        some ⟨lt.ptr, none, some x, rk m, vl m⟩ := by rw [store_ne _ _ hxm.symm, hmn]
    have galt : ∀ q, lt.ptr = some q → ∃ nq,
        store s1.heap x ((⟨(T.node lt m .nil).ptr, b.ptr, none, rk x, vl x⟩ : Nd).setCh false lt.ptr) q = some nq := by
      intro q hq
      obtain ⟨nq, h⟩ := hs.2.1.2.1.alive q (ptr_mem hq)
      exact ⟨nq, by rw [store_ne _ _ (show q ≠ x from fun e => hltx (e ▸ hq)), h]⟩
    obtain ⟨h', e', hm', hoth⟩ := fin _ (some x) lt.ptr gm (by rw [store_self]; rfl) galt
    have hdk : lt.keys = (T.node lt m .nil).keys.dropLast := by simp [T.keys]
    rw [hbq] at hm'
    refine ⟨_, m, lt.ptr, bq, .node lt x b, e', hm, ⟨⟨?_, ?_, ?_⟩, hnd lt hdk, hout lt hdk, rfl, hm',
      fun q hq => ?_, ?_⟩, by rw [T.keys, hdk], fun h2 => ?_, fun q hq => ?_⟩
    · show h' x = _
      rw [hoth x hxm, if_neg hltx, store_self]; rfl
    · refine hs.2.1.2.1.refa ?_ fun q hq => ?_
      · simp only [T.keys, List.nodup_append] at hna; exact hna.1
      · show h' q = _
        rw [hoth q (by rintro rfl; exact hmd (hlt q hq)), store_ne _ _ (by rintro rfl; exact hxa (by simp [T.keys, hq]))]
    · refine hs.2.2.congr fun q hq => ?_
      show h' q = _
      rw [hoth q (by rintro rfl; exact hab q hma hq), store_ne _ _ (by rintro rfl; exact hxb hq), if_neg]
      intro h; exact hab q (by simp [T.keys, ptr_mem h]) hq
    · simp [T.keys, ptr_mem hq]
    · simp [T.keys, hbm]
    · intro h
      cases lt with
      | nil => simp [T.keys] at h2
      | node _ _ _ => cases h
    · simp only [List.mem_append, List.mem_cons, not_or] at hq
      show h' q = _
      rw [hoth q (by rintro rfl; exact hq.1 hma), store_ne _ _ hq.2.1, if_neg, F q (by simp [hq])]
      intro h; exact hq.1 (by simp [T.keys, ptr_mem h])
  · subst hfw
    dsimp only
    have hwa : w ∈ a.keys := List.dropLast_subset _ hwm
    have hwm' : w ≠ m := by rintro rfl; exact hmd hwm
    have hwx : w ≠ x := by rintro rfl; exact hxa hwa
    rw [Out.ok_bind, ld_ok hw, Out.ok_bind, if_neg (show ¬ (nw.ch false = some m) from hw0), setCh_ok hw, Out.ok_bind]
    have galt : ∀ q, lt.ptr = some q → ∃ nq, store s1.heap w (nw.setCh true lt.ptr) q = some nq := by
      intro q hq
      obtain ⟨nq, h⟩ := hs.2.1.alive q (List.dropLast_subset _ (hlt q (ptr_mem hq)))
      by_cases ew : q = w
      · subst ew; exact ⟨_, store_self _ _ _⟩
      · exact ⟨nq, by rw [store_ne _ _ ew, h]⟩
    obtain ⟨h', e', hm', hoth⟩ := fin _ (some w) a.ptr (by rw [store_ne _ _ hwm'.symm, hmn])
      (by rw [store_ne _ _ hwx.symm, hs.1]) galt
    have hdk := dropMax_keys a
    rw [hbq] at hm'
    have hltb : ∀ q ∈ b.keys, lt.ptr ≠ some q := fun q hq h =>
      hab q (List.dropLast_subset _ (hlt q (ptr_mem h))) hq
    refine ⟨_, m, a.ptr, bq, .node a.dropMax x b, e', hm, ⟨⟨?_, ?_, ?_⟩, hnd _ hdk, hout _ hdk, rfl, hm',
      fun q hq => ?_, ?_⟩, by rw [T.keys, hdk], fun _ => by rw [haq]; simp, fun q hq => ?_⟩
    · show h' x = _
      rw [hoth x hxm, if_neg hltx, store_ne _ _ hwx.symm, hs.1, hdp]
    · refine hall h' ?_ fun q hq hqw => ?_
      · rw [hoth w hwm', if_neg hltw, store_self]; rfl
      · rw [hoth q (by rintro rfl; exact hmd hq), store_ne _ _ hqw]
    · refine hs.2.2.congr fun q hq => ?_
      show h' q = _
      rw [hoth q (by rintro rfl; exact hab q hma hq), if_neg (hltb q hq), store_ne _ _ (by rintro rfl; exact hab q hwa hq)]
    · have : q ∈ a.dropMax.keys := ptr_mem (hdp.trans hq)
      simp [T.keys, this]
    · simp [T.keys, hbm]
    · simp only [List.mem_append, List.mem_cons, not_or] at hq
      show h' q = _
      rw [hoth q (by rintro rfl; exact hq.1 hma), store_ne _ _ (by rintro rfl; exact hq.1 hwa), if_neg, F q (by simp [hq])]
      intro h; exact hq.1 (List.dropLast_subset _ (hlt q (ptr_mem h)))

end BST

import Verif.Proof.Threads
import Verif.Model.Mersenne

/-! # Threads: property C170 -/

namespace Threads
open Cpp Spec

/-- **C170.**  If no two calls of different threads conflict, then, in whatever order the threads proceed, there is no data race,
and every thread is always where it would be had it alone made as many steps: the same results, whatever the others do. -/
theorem C170_apart_partial {E : Rand.Engine} (m : Mem E) (calls : Nat → List Call) (own : Nat → Objects E) (h : Apart calls)
    (order : List Nat) :
    ¬ Race ((start m calls own).run order).accesses ∧
    ∀ i, ((start m calls own).run order).todo i = ((start m (only i calls) own).run (order.filter (· = i))).todo i := by
  have hUW : ∀ i j, i ≠ j → ∀ l, (∃ c ∈ calls i, written c l) → ¬ ∃ c ∈ calls j, touched c l := by
    rintro i j hij l ⟨c, hc, hw⟩ ⟨d, hd, hu⟩
    exact h i j hij c hc d hd ⟨l, .inl ⟨hw, .inl hu⟩⟩
  have A : Agree (fun i l => ∃ c ∈ calls i, touched c l) (fun i l => ∃ c ∈ calls i, written c l) (start m calls own)
      (fun i => start m (only i calls) own) := by
    refine ⟨fun i => ?_, fun i => thread_within _ _, fun i l _ => rfl, fun a ha => by cases ha⟩
    simp only [start, only, if_pos]
  have R := A.run hUW order
  refine ⟨?_, R.todo⟩
  rintro ⟨a, ha, b, hb, hab, hv, hw⟩
  have key : ∀ a b : Access, a.thread ≠ b.thread → a.var = b.var → (∃ c ∈ calls a.thread, written c a.var) →
      ((∃ c ∈ calls b.thread, touched c b.var) ∨ ∃ c ∈ calls b.thread, written c b.var) → False := by
    rintro a b hab hv ⟨c, hc, hw⟩ (⟨d, hd, hu⟩ | ⟨d, hd, hu⟩)
    · exact h _ _ hab c hc d hd ⟨a.var, .inl ⟨hw, .inl (hv ▸ hu)⟩⟩
    · exact h _ _ hab c hc d hd ⟨a.var, .inl ⟨hw, .inr (hv ▸ hu)⟩⟩
  rcases hw with hw | hw
  · exact key a b hab hv ((R.accesses a ha).2 hw) (R.accesses b hb).1
  · exact key b a hab.symm hv.symm ((R.accesses b hb).2 hw) (R.accesses a ha).1

/-- three threads: one makes vertices and calls `randomInt(6)`, one makes edges and uses its own generator, one multiplies -/
def mixed : Nat → List Call
  | 0 => [.vertex, .global 1700000000 (.int1 6), .vertex]
  | 1 => [.edge, .random .int0, .edge]
  | 2 => [.times 8 (BigNum.zero 8) (BigNum.zero 8), .random .bool]
  | _ => []

theorem mixed_apart : Apart mixed := by
  intro i j hij c hc d hd h
  match i, j with
  | 0, 0 => exact hij rfl
  | 1, 1 => exact hij rfl
  | 2, 2 => exact hij rfl
  | 0, 1 | 0, 2 | 1, 0 | 1, 2 | 2, 0 | 2, 1 =>
    simp only [mixed, List.mem_cons, List.not_mem_nil, or_false] at hc hd
    obtain ⟨l, h⟩ := h
    revert h
    rcases hc with rfl | rfl | rfl <;> rcases hd with rfl | rfl | rfl <;> cases l <;> simp [reads, writes]
  | _ + 3, _ => cases hc
  | 0, _ + 3 | 1, _ + 3 | 2, _ + 3 => cases hd

example (own : Nat → Objects Rand.Mersenne.engine) (order : List Nat) :
    ¬ Race ((start (.init _) mixed own).run order).accesses := (C170_apart_partial _ _ own mixed_apart order).1

/-- **C170.**  Without conflicts the vertices of a thread are numbered 0, 1, 2, … in the order of their construction, and so are
its edges, in whatever order the threads proceed.  (Only one thread can construct vertices then.) -/
theorem C170_ids_partial {E : Rand.Engine} (calls : Nat → List Call) (own : Nat → Objects E) (h : Apart calls)
    (order : List Nat) (i : Nat) (rs : List Result) (hr : ((start (.init E) calls own).run order).todo i = .ret (.ok rs)) :
    vertexIDs (calls i) rs = (List.range (vertices (calls i))).map (fun k : Nat => (k : Int)) ∧
    edgeIDs (calls i) rs = (List.range (edges (calls i))).map (fun k : Nat => (k : Int)) := by
  rw [(C170_apart_partial (.init E) calls own h order).2 i, show order.filter (· = i) = List.replicate (order.count i) i from ?_] at hr
  · have e := run_exec _ _ i _ rfl _ hr
    have e' : (start (.init E) (only i calls) own).todo i = thread (calls i) (own i) := by simp only [start, only, if_pos]
    rw [e'] at e
    have z : nextV (Mem.init E) = 0 := rfl
    have z' : nextE (Mem.init E) = 0 := rfl
    have v := vertex_ids _ _ _ _ e
    have w := edge_ids _ _ _ _ e
    simp only [start, z, z', Int.zero_add] at v w
    exact ⟨v, w⟩
  · rw [← List.filter_eq]

example : Apart mixed ∧ vertexIDs (mixed 0) [.id 0, .random (.int 3), .id 1] = [0, 1] ∧ vertices (mixed 0) = 2 :=
  ⟨mixed_apart, rfl, rfl⟩

/-- **C170.**  No thread ever waits for another one: a thread has ended after at most five steps for each call, whatever the
others do, even if calls conflict. -/
theorem C170_ends_partial {E : Rand.Engine} (m : Mem E) (calls : Nat → List Call) (own : Nat → Objects E) (order : List Nat)
    (i : Nat) (h : 5 * (calls i).length ≤ order.count i) : ∃ o, ((start m calls own).run order).todo i = .ret o :=
  run_ends order i _ _ (thread_atMost _ _) h

example (own : Nat → Objects Rand.Mersenne.engine) (order : List Nat) (h : 15 ≤ order.count 0) :
    ∃ o, ((start (.init _) mixed own).run order).todo 0 = .ret o := C170_ends_partial _ mixed own order 0 h

/-- **C170.**  If the first calls of two threads conflict, there is a data race: one thread makes three steps, then the other one
makes one. -/
theorem C170_race_partial {E : Rand.Engine} (calls : Nat → List Call) (own : Nat → Objects E) (i j : Nat) (hij : i ≠ j)
    (c d : Call) (cs ds : List Call) (hi : calls i = c :: cs) (hj : calls j = d :: ds) (hc : Ready (own i) c)
    (hd : Ready (own j) d) (h : Conflict c d) :
    Race ((start (.init E) calls own).run [i, i, i, j]).accesses ∨ Race ((start (.init E) calls own).run [j, j, j, i]).accesses := by
  obtain ⟨l, ⟨hw, hu⟩ | ⟨hw, hu⟩⟩ := h
  · exact .inl (race calls own i j hij c d cs ds hi hj hd hw hu)
  · exact .inr (race calls own j i hij.symm d c ds cs hj hi hc hw hu)

/-- **C170.**  Exactly these pairs of calls can run at the same time: there is an order with a data race if and only if the calls
conflict. -/
theorem C170_pairs_partial {E : Rand.Engine} (own : Nat → Objects E) (c d : Call) (hc : Ready (own 0) c) (hd : Ready (own 1) d) :
    (∃ order, Race ((start (.init E) (two c d) own).run order).accesses) ↔ Conflict c d := by
  constructor
  · rintro ⟨order, hr⟩
    by_contra hn
    refine (C170_apart_partial (.init E) (two c d) own ?_ order).1 hr
    intro i j hij x hx y hy hxy
    match i, j, hij, hx, hy with
    | 0, 0, h, _, _ => exact h rfl
    | 0, 1, _, hx, hy => rw [List.mem_singleton.1 hx, List.mem_singleton.1 hy] at hxy; exact hn hxy
    | 1, 0, _, hx, hy =>
      rw [List.mem_singleton.1 hx, List.mem_singleton.1 hy] at hxy
      obtain ⟨l, h⟩ := hxy
      exact hn ⟨l, h.symm⟩
    | 1, 1, h, _, _ => exact h rfl
    | 0, _ + 2, _, _, hy => cases hy
    | 1, _ + 2, _, _, hy => cases hy
    | _ + 2, _, _, hx, _ => cases hx
  · intro h
    rcases C170_race_partial (two c d) own 0 1 (by decide) c d [] [] rfl rfl hc hd h with h | h
    · exact ⟨_, h⟩
    · exact ⟨_, h⟩

/-- a thread without tries -/
def noTries {E : Rand.Engine} (g : E.σ) : Objects E := ⟨fun _ => none, g⟩

example {E : Rand.Engine} (g : E.σ) : Ready (noTries g) .vertex ∧ Conflict .vertex .vertex ∧
    ¬ Conflict (.plus 8 9 (BigNum.zero 8) (BigNum.zero 8)) (.plus 8 9 (BigNum.zero 8) (BigNum.zero 8)) :=
  ⟨trivial, ⟨.nextVertexID, by simp [writes, reads]⟩, by simp [Conflict, writes]⟩

/-- The property as stated: threads with objects of their own are free of data races, and different vertices have different
identities. -/
def C170 : Prop :=
  ∀ (E : Rand.Engine) (calls : Nat → List Call) (own : Nat → Objects E) (order : List Nat),
    ¬ Race ((start (.init E) calls own).run order).accesses ∧
    ∀ i j rs rs', i ≠ j → ((start (.init E) calls own).run order).todo i = .ret (.ok rs) →
      ((start (.init E) calls own).run order).todo j = .ret (.ok rs') →
      List.Disjoint (vertexIDs (calls i) rs) (vertexIDs (calls j) rs')

/-- **C170 is refuted: vertices.**  Two threads construct a vertex each; in one order of the accesses both get the identity 0. -/
theorem C170_vertex_refuted {E : Rand.Engine} (own : Nat → Objects E) :
    let s := (start (.init E) (two .vertex .vertex) own).run [0, 1, 0, 1]
    Race s.accesses ∧ s.todo 0 = .ret (.ok [.id 0]) ∧ s.todo 1 = .ret (.ok [.id 0]) := by
  refine ⟨⟨⟨0, .nextVertexID, true⟩, ?_, ⟨1, .nextVertexID, true⟩, ?_, by decide, rfl, .inl rfl⟩, rfl, rfl⟩
  · exact List.mem_cons_of_mem _ (List.mem_cons_of_mem _ List.mem_cons_self)
  · exact List.mem_cons_of_mem _ (List.mem_cons_of_mem _ (List.mem_cons_of_mem _ List.mem_cons_self))

theorem C170_refuted : ¬ C170 := by
  intro h
  obtain ⟨hr, h0, h1⟩ := C170_vertex_refuted (E := Rand.Mersenne.engine) (fun _ => noTries [])
  have := (h _ _ _ _).2 0 1 _ _ (by decide) h0 h1
  exact this (a := 0) (by decide) (by decide)

/-- a mapper for the digits -/
def digits : Trie.Mapper := fun ch => if ch = 1 then .ok 1 else .ok ((ch.toNat : Int) - 46)

/-- **C170 is refuted: tries.**  A thread constructs a trie for digits and inserts "5" into it.  Alone this works; if another
thread constructs a trie of its own for letters in between, the program ends with an error. -/
theorem C170_trie_refuted {E : Rand.Engine} (own : Nat → Objects E) :
    let calls : Nat → List Call := fun
      | 0 => [.trie 0 digits, .insert 0 (bytes ['5'])]
      | 1 => [.trie 0 Trie.mapChar]
      | _ => []
    ((start (.init E) calls own).run [0, 0]).todo 0 = .ret (.ok [.done, .done]) ∧
    ((start (.init E) calls own).run [0, 1, 0]).todo 0 = .ret .exit := by
  refine ⟨rfl, rfl⟩

/-- **C170 is refuted: random numbers.**  Two threads call `randomInt()`, or another one of the functions; in one order of the
accesses both get the same number. -/
theorem C170_random_refuted {E : Rand.Engine} (own : Nat → Objects E) (time time' : Int) (c : Rand.Call Dbl) (r : Rand.Ret Dbl)
    (g : Rand.Global E) (h : c.global time (some (Rand.newAt E time)) = .ok (r, g)) :
    let s := (start (.init E) (two (.global time c) (.global time' c)) own).run [0, 0, 0, 0, 1, 1, 0, 1]
    s.todo 0 = .ret (.ok [.random r]) ∧ s.todo 1 = .ret (.ok [.random r]) := by
  have h' : c.global time' (some (Rand.newAt E time)) = .ok (r, g) := by rw [← h]; cases c <;> rfl
  let P : Nat → Out (Rand.Ret Dbl × Rand.Global E) → Prog E (List Result) := fun i o =>
    ((match o with
      | .ok (r, g') => .store .generator g' (.ret (.ok r))
      | .exit => .ret .exit
      | .ub => .ret .ub
      | .diverge => .ret .diverge : Prog E (Rand.Ret Dbl)).bind fun r => .ret (.ok (.random r, own i))).bind fun (r, s) =>
        (thread [] s).bind fun rs => .ret (.ok (r :: rs))
  let s1 := (start (.init E) (two (.global time c) (.global time' c)) own).run [0, 0, 0, 0, 1, 1]
  have e0 : s1.todo 0 = P 0 (c.global time (some (Rand.newAt E time))) := rfl
  have e1 : s1.todo 1 = P 1 (c.global time' (some (Rand.newAt E time))) := rfl
  rw [h] at e0
  rw [h'] at e1
  have e0' : s1.todo 0 = .store .generator g (.ret (.ok [.random r])) := e0
  have e1' : s1.todo 1 = .store .generator g (.ret (.ok [.random r])) := e1
  have t0 : (s1.step 0).todo 0 = .ret (.ok [.random r]) := by rw [step_store e0']; rfl
  have t1 : (s1.step 0).todo 1 = .store .generator g (.ret (.ok [.random r])) := by rw [step_other (by decide), e1']
  refine ⟨?_, ?_⟩
  · show ((s1.step 0).step 1).todo 0 = _
    rw [step_other (by decide), t0]
  · show ((s1.step 0).step 1).todo 1 = _
    rw [step_store t1]
    rfl

/-- a generator that counts -/
def counting : Rand.Engine := ⟨Nat, fun s => s.val, fun n => (Fin.ofNat _ n, n + 1)⟩

example : ∃ r g, (Rand.Call.bool : Rand.Call Dbl).global 5 (some (Rand.newAt counting 5)) = .ok (r, g) := ⟨_, _, rfl⟩

end Threads

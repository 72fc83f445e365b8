import Verif.Proof.KeyTypes

/-! # Property C162: numbers, points and vertices as keys of Set and Map, and sorted lists of them -/

namespace Cont.By.Props
open Cpp
open Cont.Spec (SmallFrac)

/-! ### Fraction -/

/-- **C162, what holds for Fractions.**  A Set of Fractions with numerators and denominators up to 46340 works as a set,
and its elements are iterated in increasing order of their values.  Missing: larger numerators and denominators. -/
theorem C162_fraction_set_partial (calls : List (Set.Call Fraction.Frac)) (hc : ∀ c ∈ calls, Spec.setArg SmallFrac c) :
    ∃ s, setRun Fraction.lt calls = .ok s ∧ s.Pairwise (fun x y => Fraction.Spec.val x < Fraction.Spec.val y) ∧
      (∀ f, SmallFrac f → (f ∈ s ↔ Spec.mem f calls.reverse = true)) ∧
      (∀ f, SmallFrac f → setFind Fraction.lt f s = .ok (Spec.mem f calls.reverse)) := by
  obtain ⟨s, e, h1, h2, h3⟩ := set_by' agrees_fraction calls hc
  have hc' : ∀ c ∈ calls.reverse, Spec.setArg SmallFrac c := fun c h => hc c (List.mem_reverse.1 h)
  refine ⟨s, e, h1, fun f hf => ?_, fun f hf => ?_⟩
  · rw [h2, kept_inj small_inj hf _ hc']
    by_cases m : Spec.mem f calls.reverse = true <;> simp [m]
  · rw [h3 f hf, kept_inj small_inj hf _ hc']
    by_cases m : Spec.mem f calls.reverse = true <;> simp [m]

/-- **C162, what holds for Fractions.**  A Map with such Fractions as keys keeps the last value set for each of them. -/
theorem C162_fraction_map_partial {ν : Type} (dflt : ν) (calls : List (Map.Call Fraction.Frac ν))
    (hc : ∀ c ∈ calls, Spec.mapArg SmallFrac c) :
    ∃ m, mapRun Fraction.lt dflt calls = .ok m ∧ m.Pairwise (fun p q => Fraction.Spec.val p.1 < Fraction.Spec.val q.1) ∧
      (∀ f v, SmallFrac f → Spec.valueBy dflt id f calls.reverse = some v → mapGet Fraction.lt m f = .ok v) ∧
      (∀ f, SmallFrac f → Spec.valueBy dflt id f calls.reverse = none → mapGet Fraction.lt m f = .exit) := by
  obtain ⟨m, e, h1, h2, _⟩ := map_by agrees_fraction dflt calls hc
  have key : ∀ f, SmallFrac f → ∀ h : List (Map.Call Fraction.Frac ν), (∀ c ∈ h, Spec.mapArg SmallFrac c) →
      Spec.valueBy dflt Fraction.Spec.val (Fraction.Spec.val f) h = Spec.valueBy dflt id f h := by
    intro f hf h
    induction h with
    | nil => intro _; rfl
    | cons c h ih =>
      intro hh
      have ih := ih fun c hc => hh c (by simp [hc])
      have ha := hh c (by simp)
      have iff : ∀ g, SmallFrac g → (Fraction.Spec.val g = Fraction.Spec.val f ↔ id g = f) :=
        fun g hg => ⟨fun e => small_inj g f hg hf e, fun e => by rw [show g = f from e]⟩
      match c, ha with
      | .set g v, ha => simp only [Spec.valueBy, iff g ha, ih]
      | .index g, ha => simp only [Spec.valueBy, iff g ha, ih]
      | .erase g, ha => simp only [Spec.valueBy, iff g ha, ih]
      | .clear, _ => rfl
  have hc' : ∀ c ∈ calls.reverse, Spec.mapArg SmallFrac c := fun c h => hc c (List.mem_reverse.1 h)
  refine ⟨m, e, h1, fun f v hf hv => ?_, fun f hf hv => ?_⟩
  · rw [mapGet, h2 f hf, key f hf _ hc', hv]; rfl
  · rw [mapGet, h2 f hf, key f hf _ hc', hv]; rfl

/-- **C162, what holds for Fractions.**  Sorting a List of such Fractions puts them in increasing order of their values. -/
theorem C162_fraction_sort_partial (l : List Fraction.Frac) (hl : ∀ f ∈ l, SmallFrac f) :
    ∃ l', sort Fraction.lt (l.length + 1) l = .ok l' ∧ l'.Perm l ∧
      l'.Pairwise (fun x y => Fraction.Spec.val x ≤ Fraction.Spec.val y) := by
  obtain ⟨l', e, p, s, _⟩ := sort_by agrees_fraction (l.length + 1) l (by omega) hl
  exact ⟨l', e, p, s⟩

example : ∀ c ∈ [Set.Call.insert ⟨1, 2⟩, .insert ⟨-2, 3⟩, .insert ⟨46340, 46339⟩, .erase ⟨1, 2⟩], Spec.setArg SmallFrac c := by
  intro c hc
  simp only [List.mem_cons, List.not_mem_nil, or_false] at hc
  rcases hc with rfl | rfl | rfl | rfl
  exacts [small_half.1, small_half.2.1, small_half.2.2, small_half.1]
example : setRun Fraction.lt [.insert ⟨1, 2⟩, .insert ⟨-2, 3⟩, .insert ⟨46340, 46339⟩, .insert ⟨1, 2⟩] =
    .ok [⟨-2, 3⟩, ⟨1, 2⟩, ⟨46340, 46339⟩] := by decide +kernel
example : sort Fraction.lt 4 [⟨1, 2⟩, ⟨46340, 46339⟩, ⟨-2, 3⟩] = .ok [⟨-2, 3⟩, ⟨1, 2⟩, ⟨46340, 46339⟩] := by decide +kernel

/-- **C162, refuted.**  Without a bound the comparison overflows: inserting 65537/65536 into a Set with 65536/65537 is
undefined, and so are a Map with these two keys and sorting a List of them. -/
theorem C162_fraction_refuted :
    Fraction.Spec.Canonical ⟨65536, 65537⟩ ∧ Fraction.Spec.Canonical ⟨65537, 65536⟩ ∧
    setRun Fraction.lt [.insert ⟨65536, 65537⟩, .insert ⟨65537, 65536⟩] = .ub ∧
    mapRun Fraction.lt (0 : Int) [.set ⟨65536, 65537⟩ 1, .set ⟨65537, 65536⟩ 2] = .ub ∧
    sort Fraction.lt 3 [⟨65536, 65537⟩, ⟨65537, 65536⟩] = .ub :=
  ⟨⟨by decide, by decide, by decide, by decide⟩, ⟨by decide, by decide, by decide, by decide⟩,
    by decide +kernel, by decide +kernel, by decide +kernel⟩

/-! ### BigNum -/

/-- **C162, what holds for BigNums.**  A Set of BigNums none of which is the negative zero works as a set of integers.
Missing: -0. -/
theorem C162_bigNum_set_partial (N : Nat) (calls : List (Set.Call BigNum.Big))
    (hc : ∀ c ∈ calls, Spec.setArg (fun b => BigNum.Spec.Valid N b ∧ BigNum.Spec.PosZero b) c) :
    ∃ s, setRun BigNum.lt calls = .ok s ∧ s.Pairwise (fun x y => BigNum.Spec.val x < BigNum.Spec.val y) ∧
      (∀ b, b ∈ s ↔ Spec.kept BigNum.Spec.val (BigNum.Spec.val b) calls.reverse = some b) ∧
      ∀ b, BigNum.Spec.Valid N b → BigNum.Spec.PosZero b →
        setFind BigNum.lt b s = .ok (Spec.kept BigNum.Spec.val (BigNum.Spec.val b) calls.reverse).isSome := by
  obtain ⟨s, e, h1, h2, h3⟩ := set_by' (agrees_bigNum N) calls hc
  exact ⟨s, e, h1, h2, fun b hv hz => h3 b ⟨hv, hz⟩⟩

example : ∀ c ∈ [Set.Call.insert (BigNum.zero 8)], Spec.setArg (fun b => BigNum.Spec.Valid 8 b ∧ BigNum.Spec.PosZero b) c := by
  intro c hc
  rw [List.mem_singleton.1 hc]
  exact ⟨(BigNum.zero_clean 8).toValid, fun _ => rfl⟩

/-- **C162, what holds for BigNums.**  Sorting a List of BigNums puts them in increasing order of their values. -/
theorem C162_bigNum_sort_partial (N : Nat) (l : List BigNum.Big)
    (hl : ∀ b ∈ l, BigNum.Spec.Valid N b ∧ BigNum.Spec.PosZero b) :
    ∃ l', sort BigNum.lt (l.length + 1) l = .ok l' ∧ l'.Perm l ∧
      l'.Pairwise (fun x y => BigNum.Spec.val x ≤ BigNum.Spec.val y) := by
  obtain ⟨l', e, p, s, _⟩ := sort_by (agrees_bigNum N) (l.length + 1) l (by omega) hl
  exact ⟨l', e, p, s⟩

example : (do
    let a ← BigNum.ofInt 8 12
    let b ← BigNum.ofInt 8 (-3)
    let s ← setRun BigNum.lt [.insert a, .insert b, .insert a, .insert (BigNum.neg b)]
    Out.ok (s.map BigNum.Spec.val)) = .ok [-3, 3, 12] := by decide +kernel

/-- **C162, refuted.**  A Set may contain zero twice, as 0 and as -0. -/
theorem C162_bigNum_refuted :
    (do
      let z ← BigNum.ofInt 8 0
      let s ← setRun BigNum.lt [.insert z, .insert (BigNum.neg z)]
      Out.ok (s.map BigNum.Spec.val)) = .ok [0, 0] := by decide +kernel

/-! ### Point -/

/-- **C162, what holds for Points.**  A Set of Points without NaN works as a set (of exact points, whatever `==` says),
iterated in lexicographic order of the coordinates.  Missing: NaN. -/
theorem C162_point_set_partial (N : Nat) (calls : List (Set.Call (Geo.Point N Dbl)))
    (hc : ∀ c ∈ calls, Spec.setArg (fun p => ∀ i, p i ≠ .nan) c) :
    ∃ s, setRun ltPoint calls = .ok s ∧ s.Pairwise (fun p q => ∃ i, p i < q i ∧ ∀ j < i, p j = q j) ∧
      (∀ p, (∀ i, p i ≠ .nan) → (p ∈ s ↔ Spec.mem p calls.reverse = true)) ∧
      (∀ p, (∀ i, p i ≠ .nan) → setFind ltPoint p s = .ok (Spec.mem p calls.reverse)) := by
  obtain ⟨s, e, h0, h1, h3⟩ := set_by (agrees_point N) calls hc
  obtain ⟨s', e', h1', h2, h3'⟩ := set_by' (agrees_point N) calls hc
  rw [e] at e'
  cases e'
  have hc' : ∀ c ∈ calls.reverse, Spec.setArg (fun p : Geo.Point N Dbl => ∀ i, p i ≠ .nan) c :=
    fun c h => hc c (List.mem_reverse.1 h)
  refine ⟨s, e, ?_, fun f hf => ?_, fun f hf => ?_⟩
  · refine h1'.imp_of_mem fun {p q} hp hq h => ?_
    have a := agrees_point N p q (h0 p hp) (h0 q hq)
    rw [decide_eq_true h] at a
    exact (Geo.Props.C65_order_partial N p q p (h0 p hp) (h0 q hq) (h0 p hp)).1.1 (Out.ok.inj a)
  · rw [h2, kept_inj (point_inj N) hf _ hc']
    by_cases m : Spec.mem f calls.reverse = true <;> simp [m]
  · rw [h3' f hf, kept_inj (point_inj N) hf _ hc']
    by_cases m : Spec.mem f calls.reverse = true <;> simp [m]

example : ∀ c ∈ [Set.Call.insert (fun _ : Fin 2 => Dbl.fin 1), .insert fun _ => .inf true],
    Spec.setArg (fun p : Geo.Point 2 Dbl => ∀ i, p i ≠ .nan) c := by
  intro c hc
  simp only [List.mem_cons, List.not_mem_nil, or_false] at hc
  rcases hc with rfl | rfl <;> intro i <;> exact nofun

/-- **C162, refuted.**  In a Set with the point NaN every other point of the line seems to be contained, so that it cannot
be inserted. -/
theorem C162_point_refuted (x : Dbl) :
    setRun ltPoint [.insert (fun _ : Fin 1 => .nan), .insert (fun _ => x)] = .ok [fun _ => .nan] ∧
    setFind ltPoint (fun _ : Fin 1 => x) [fun _ => .nan] = .ok true := by
  have e : ∀ y z : Dbl, (y = .nan ∨ z = .nan) → Geo.lt Geo.Fp.dbl (fun _ : Fin 1 => y) (fun _ => z) = false := by
    intro y z hyz
    simp only [Geo.lt, Geo.cmpLoop, List.finRange_succ, List.finRange_zero, List.map_nil]
    split
    · rcases hyz with rfl | rfl
      · rfl
      · cases y <;> rfl
    · rfl
  constructor
  · simp [setRun, List.foldlM_cons, setCall, setInsert, Out.ok_bind, ltPoint, e x .nan (.inr rfl), e .nan x (.inl rfl)]
  · simp [setFind, ltPoint, e x .nan (.inr rfl), e .nan x (.inl rfl), Out.ok_bind]

/-! ### Vertex -/

/-- **C162, what holds for vertices.**  A Set of vertices keeps one vertex of each value: the first one inserted; `contains`
tells whether a vertex of the same value is there.  Missing: that vertices with the same value are different (`!=`). -/
theorem C162_vertex_set_partial (w : Graph.World) (value : Nat → Int)
    (hv : ∀ v x, Graph.readV w v = .ok x → value v = x.val)
    (calls : List (Set.Call Nat)) (hc : ∀ c ∈ calls, Spec.setArg (fun v => ∃ x, Graph.readV w v = .ok x) c) :
    ∃ s, setRun (Graph.ltV w) calls = .ok s ∧ s.Pairwise (fun a b => value a < value b) ∧
      (∀ v, v ∈ s ↔ Spec.kept value (value v) calls.reverse = some v) ∧
      ∀ v x, Graph.readV w v = .ok x → setFind (Graph.ltV w) v s = .ok (Spec.kept value (value v) calls.reverse).isSome := by
  have H : Agrees (Graph.ltV w) (fun v => ∃ x, Graph.readV w v = .ok x) value := by
    rintro a b ⟨x, hx⟩ ⟨y, hy⟩
    simp only [Graph.ltV, hx, hy, Out.ok_bind, hv a x hx, hv b y hy]
  obtain ⟨s, e, h1, h2, h3⟩ := set_by' H calls hc
  exact ⟨s, e, h1, h2, fun v x hx => h3 v ⟨x, hx⟩⟩

-- two vertices of value 5 and one of value 3: the first of value 5 is kept
example : ∃ w, Graph.run [.newV 5, .newV 3, .newV 5] = .ok w ∧
    setRun (Graph.ltV w) [.insert 0, .insert 1, .insert 2] = .ok [1, 0] ∧
    Spec.kept (fun v : Nat => if v = 1 then (3 : Int) else 5) 5 [.insert 2, .insert 1, .insert 0] = some 0 :=
  ⟨_, rfl, by decide +kernel, by decide +kernel⟩

/-- **C162, refuted.**  Two different vertices (`!=`) with the same value: after inserting the first, the Set contains the
second as well, and a Map with vertices as keys gives both of them the same entry. -/
theorem C162_vertex_refuted : ∃ w, Graph.run [.newV 7, .newV 7] = .ok w ∧ Graph.neV w 0 1 = .ok true ∧
    setRun (Graph.ltV w) [.insert 0, .insert 1] = .ok [0] ∧ setFind (Graph.ltV w) 1 [0] = .ok true ∧
    mapRun (Graph.ltV w) (0 : Int) [.set 0 10, .set 1 20] = .ok [(0, 20)] ∧
    mapGet (Graph.ltV w) [(0, (20 : Int))] 0 = .ok 20 :=
  ⟨_, rfl, by decide +kernel, by decide +kernel, by decide +kernel, by decide +kernel, by decide +kernel⟩

/-! ### All of them -/

/-- **C162.**  Whatever the type, when `<` is defined on the elements and compares by some key, `List::sort` is a stable
sort: it gives a permutation in increasing order in which elements with the same key keep their order. -/
theorem C162_sort {α κ : Type} [LinearOrder κ] (lt : α → α → Out Bool) (key : α → κ) (l : List α)
    (h : ∀ a ∈ l, ∀ b ∈ l, lt a b = .ok (decide (key a < key b))) :
    ∃ l', sort lt (l.length + 1) l = .ok l' ∧ l'.Perm l ∧ l'.Pairwise (fun x y => key x ≤ key y) ∧
      ∀ k, l'.filter (fun x => key x = k) = l.filter (fun x => key x = k) :=
  sort_by (P := fun a => a ∈ l) (fun a b ha hb => h a ha b hb) (l.length + 1) l (by omega) (fun _ h => h)

-- two vertices of value 5 keep their order
example : ∃ w, Graph.run [.newV 9, .newV 5, .newV 7, .newV 5] = .ok w ∧
    sort (Graph.ltV w) 5 [0, 1, 2, 3] = .ok [1, 3, 2, 0] := ⟨_, rfl, by decide +kernel⟩

end Cont.By.Props

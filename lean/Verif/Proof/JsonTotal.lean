import Verif.Proof.JsonText

/-! # Helper lemmas for JSON: the loader ends, and what it returns is well formed -/

namespace Json
open Cpp Spec

theorem nd_bind {α β : Type} {x : Out α} {f : α → Out β} (h : x ≠ .diverge) (hf : ∀ a, x = .ok a → f a ≠ .diverge) :
    (x >>= f) ≠ .diverge := by
  cases x with
  | ok a => simpa using hf a rfl
  | exit => simp
  | ub => simp
  | diverge => exact absurd rfl h

theorem strAt_nd (s : Str) (i : Int) : strAt s i ≠ .diverge := by
  unfold strAt; split
  · simp
  · split <;> simp

theorem strAt_le {s : Str} {i : Nat} {c : Byte} (h : strAt s i = .ok c) : i ≤ s.length := by
  unfold strAt at h
  split at h
  · omega
  · split at h
    · omega
    · cases h

theorem isspace_nd (c : Byte) : isspace c ≠ .diverge := by
  unfold isspace; split <;> simp

theorem notEnd_nd (c : Byte) : notEnd c ≠ .diverge := by
  unfold notEnd
  exact nd_bind (isspace_nd c) (by simp)

theorem skipGo_nd {str : Str} : ∀ {f off : Nat}, str.length + 2 ≤ f + off → 0 < f → skipGo str f off ≠ .diverge := by
  intro f
  induction f with
  | zero => intro off h h0; omega
  | succ f ih =>
    intro off h _
    unfold skipGo
    refine nd_bind (strAt_nd _ _) fun c hc => nd_bind (isspace_nd c) fun b _ => ?_
    have := strAt_le hc
    split
    · exact ih (by omega) (by omega)
    · simp

theorem skipGo_le {str : Str} : ∀ {f off o : Nat}, skipGo str f off = .ok o → off ≤ o := by
  intro f
  induction f with
  | zero => intro off o h; cases h
  | succ f ih =>
    intro off o h
    unfold skipGo at h
    obtain ⟨c, -, h⟩ := Out.bind_eq_ok.1 h
    obtain ⟨b, -, h⟩ := Out.bind_eq_ok.1 h
    split at h
    · have := ih h; omega
    · cases h; omega

theorem skip_nd (str : Str) (off : Nat) : skip str off ≠ .diverge := skipGo_nd (by omega) (by omega)

theorem skip_le {str : Str} {off o : Nat} (h : skip str off = .ok o) : off ≤ o := skipGo_le h

theorem hexGo_nd (str : Str) : ∀ n off, hexGo str n off ≠ .diverge := by
  intro n
  induction n with
  | zero => intro off; simp [hexGo]
  | succ n ih =>
    intro off
    unfold hexGo
    refine nd_bind (strAt_nd _ _) fun c _ => ?_
    split
    · exact nd_bind (ih _) (by simp)
    · simp

theorem stringGo_nd {str : Str} : ∀ {f off : Nat} {val : Str}, str.length + 2 ≤ f + off → 0 < f →
    stringGo str f off val ≠ .diverge := by
  intro f
  induction f with
  | zero => intro off val h h0; omega
  | succ f ih =>
    intro off val h _
    unfold stringGo
    refine nd_bind (strAt_nd _ _) fun c hc => ?_
    have := strAt_le hc
    split
    · simp
    · split
      · refine nd_bind (strAt_nd _ _) fun e he => ?_
        split
        · exact nd_bind (hexGo_nd _ _ _) fun _ _ => ih (by omega) (by omega)
        · exact ih (by omega) (by omega)
      · exact ih (by omega) (by omega)

theorem stringGo_le {str : Str} : ∀ {f off : Nat} {val : Str} {s : Str} {o : Nat}, stringGo str f off val = .ok (s, o) →
    off ≤ o := by
  intro f
  induction f with
  | zero => intro off val s o h; cases h
  | succ f ih =>
    intro off val s o h
    unfold stringGo at h
    obtain ⟨c, -, h⟩ := Out.bind_eq_ok.1 h
    split at h
    · cases h; omega
    · split at h
      · obtain ⟨e, -, h⟩ := Out.bind_eq_ok.1 h
        split at h
        · obtain ⟨_, -, h⟩ := Out.bind_eq_ok.1 h
          have := ih h; omega
        · have := ih h; omega
      · have := ih h; omega

theorem numGo_nd {str : Str} : ∀ {f off : Nat} {val : Str} {d : Bool}, str.length + 2 ≤ f + off → 0 < f →
    numGo str f off val d ≠ .diverge := by
  intro f
  induction f with
  | zero => intro off val d h h0; omega
  | succ f ih =>
    intro off val d h _
    unfold numGo
    refine nd_bind (strAt_nd _ _) fun c hc => ?_
    have := strAt_le hc
    split
    · exact ih (by omega) (by omega)
    · split
      · exact ih (by omega) (by omega)
      · simp

theorem numGo_le {str : Str} : ∀ {f off : Nat} {val : Str} {d : Bool} {r : Str × Bool × Byte × Nat},
    numGo str f off val d = .ok r → off + 1 + r.1.length ≤ r.2.2.2 + val.length ∧ val.length ≤ r.1.length := by
  intro f
  induction f with
  | zero => intro off val d r h; cases h
  | succ f ih =>
    intro off val d r h
    unfold numGo at h
    obtain ⟨c, -, h⟩ := Out.bind_eq_ok.1 h
    split at h
    · have := ih h; simp at this; omega
    · split at h
      · have := ih h; simp at this; omega
      · cases h; simp

theorem numGo_first {str : Str} {f off : Nat} {c : Byte} (hc : strAt str off = .ok c) (hd : isDigit c = true ∨ c = byte '-')
    {r : Str × Bool × Byte × Nat} (h : numGo str f off [] false = .ok r) : off + 2 ≤ r.2.2.2 ∧ r.1 ≠ [] := by
  cases f with
  | zero => cases h
  | succ f =>
    unfold numGo at h
    rw [hc] at h
    simp only [Out.ok_bind] at h
    rw [if_pos hd.symm] at h
    have := numGo_le h
    refine ⟨by simp at this; omega, ?_⟩
    rintro e
    rw [e] at this
    simp at this

theorem expGo_nd {str : Str} : ∀ {f off : Nat} {e : Str}, str.length + 2 ≤ f + off → 0 < f →
    expGo str f off e ≠ .diverge := by
  intro f
  induction f with
  | zero => intro off e h h0; omega
  | succ f ih =>
    intro off e h _
    unfold expGo
    refine nd_bind (strAt_nd _ _) fun c hc => ?_
    have := strAt_le hc
    split
    · exact ih (by omega) (by omega)
    · refine nd_bind (notEnd_nd c) fun b _ => ?_
      split <;> simp

theorem expGo_le {str : Str} : ∀ {f off : Nat} {e : Str} {r : Str × Byte × Nat}, expGo str f off e = .ok r →
    off ≤ r.2.2 := by
  intro f
  induction f with
  | zero => intro off e r h; cases h
  | succ f ih =>
    intro off e r h
    unfold expGo at h
    obtain ⟨c, -, h⟩ := Out.bind_eq_ok.1 h
    split at h
    · have := ih h; omega
    · obtain ⟨b, -, h⟩ := Out.bind_eq_ok.1 h
      split at h
      · cases h
      · cases h; simp

theorem castDouble_nd (s : Str) : castDouble s ≠ .diverge := by unfold castDouble; split <;> simp

theorem castInt_nd (s : Str) : castInt s ≠ .diverge := by unfold castInt; split <;> simp

theorem castInt_range {s : Str} {i : Int} (h : castInt s = .ok i) : IsInt i := by
  unfold castInt at h
  split at h
  · cases h
  · cases h
    unfold IsInt INT_MIN INT_MAX
    omega

theorem int_nd (i : Int) : Cpp.int i ≠ .diverge := by unfold Cpp.int; split <;> simp

theorem parseNumber_nd (str : Str) (off : Nat) : parseNumber str off ≠ .diverge := by
  unfold parseNumber
  refine nd_bind (numGo_nd (by omega) (by omega)) fun r _ => ?_
  refine nd_bind ?_ fun r' _ => ?_
  · split
    · split
      · simp
      · refine nd_bind (strAt_nd _ _) fun s _ => ?_
        refine nd_bind (expGo_nd (by omega) (by omega)) fun e _ => ?_
        refine nd_bind (castDouble_nd _) fun q _ => ?_
        exact nd_bind (int_nd _) (by simp)
    · refine nd_bind (notEnd_nd _) fun b _ => ?_
      split <;> simp
  · dsimp only
    split
    · exact nd_bind (castDouble_nd _) (by simp)
    · exact nd_bind (castInt_nd _) (by simp)

theorem parseNumber_prog {str : Str} {off : Nat} {c : Byte} (hc : strAt str off = .ok c)
    (hd : isDigit c = true ∨ c = byte '-') {v : Value} {o : Nat} (h : parseNumber str off = .ok (v, o)) :
    off < o ∧ Fine v := by
  unfold parseNumber at h
  obtain ⟨⟨a, b, c1, o1⟩, hr, h⟩ := Out.bind_eq_ok.1 h
  obtain ⟨⟨a', b', c', o2⟩, hr', h⟩ := Out.bind_eq_ok.1 h
  have h1 : off + 2 ≤ o1 := (numGo_first hc hd hr).1
  have h2 : off + 2 ≤ o2 := by
    dsimp only at hr'
    split at hr'
    · split at hr'
      · cases hr'
      · obtain ⟨s, -, hr'⟩ := Out.bind_eq_ok.1 hr'
        obtain ⟨⟨e1, e2, e3⟩, he, hr'⟩ := Out.bind_eq_ok.1 hr'
        obtain ⟨q, -, hr'⟩ := Out.bind_eq_ok.1 hr'
        obtain ⟨i, -, hr'⟩ := Out.bind_eq_ok.1 hr'
        cases hr'
        have := expGo_le he
        dsimp only at this
        show off + 2 ≤ e3; omega
    · obtain ⟨b, -, hr'⟩ := Out.bind_eq_ok.1 hr'
      split at hr'
      · cases hr'
      · cases hr'; exact h1
  dsimp only at h
  split at h
  · obtain ⟨q, -, h⟩ := Out.bind_eq_ok.1 h
    cases h
    refine ⟨?_, .float _⟩
    split <;> omega
  · obtain ⟨i, hi, h⟩ := Out.bind_eq_ok.1 h
    cases h
    refine ⟨?_, .int _ (castInt_range hi)⟩
    split <;> omega

theorem parseString_prog {str : Str} {off : Nat} {v : Value} {o : Nat} (h : parseString str off = .ok (v, o)) :
    off < o ∧ Fine v := by
  unfold parseString at h
  obtain ⟨r, hr, h⟩ := Out.bind_eq_ok.1 h
  cases h
  have := stringGo_le (s := r.1) (o := r.2) hr
  exact ⟨by omega, .str _⟩

theorem parseString_nd (str : Str) (off : Nat) : parseString str off ≠ .diverge := by
  unfold parseString
  exact nd_bind (stringGo_nd (by omega) (by omega)) (by simp)

theorem toString_escape (v : Value) : ∃ s, v.toString = jsonEscape s := by
  cases v with
  | str s => exact ⟨s, rfl⟩
  | _ => exact ⟨[], rfl⟩

/-- an object so far -/
def FineObj (m : List (Str × Value)) : Prop :=
  m.Pairwise (fun a b => a.1 < b.1) ∧ (∀ p ∈ m, ∃ s, p.1 = jsonEscape s) ∧ ∀ p ∈ m, Fine p.2

theorem FineObj.put {m : List (Str × Value)} (h : FineObj m) {k : Str} (hk : ∃ s, k = jsonEscape s) {v : Value} (hv : Fine v) :
    FineObj (put k v m) := by
  refine ⟨put_sorted k v h.1, fun p hp => ?_, fun p hp => ?_⟩
  · rcases (put_mem k v h.1 p.1 p.2).1 hp with ⟨e, -⟩ | ⟨-, hp⟩
    · rw [e]; exact hk
    · exact h.2.1 p hp
  · rcases (put_mem k v h.1 p.1 p.2).1 hp with ⟨-, e⟩ | ⟨-, hp⟩
    · rw [e]; exact hv
    · exact h.2.2 p hp

/-- what a run of the loader returns is fine, and it makes progress -/
theorem parse_prog (str : Str) : ∀ f : Nat,
    (∀ off v o, parseNext str f off = .ok (v, o) → off < o ∧ Fine v) ∧
    (∀ off l o, arrLoop str f off = .ok (l, o) → off < o ∧ ∀ v ∈ l, Fine v) ∧
    (∀ off m m' o, FineObj m → objLoop str f off m = .ok (m', o) → off < o ∧ FineObj m') := by
  intro f
  induction f with
  | zero =>
    refine ⟨fun off v o h => ?_, fun off v o h => ?_, fun off m m' o _ h => ?_⟩ <;> cases h
  | succ f ih =>
    obtain ⟨ih1, ih2, ih3⟩ := ih
    refine ⟨fun off v o h => ?_, fun off l o h => ?_, fun off m m' o hm h => ?_⟩
    · unfold parseNext at h
      obtain ⟨o1, h1, h⟩ := Out.bind_eq_ok.1 h
      obtain ⟨c, hc, h⟩ := Out.bind_eq_ok.1 h
      have l1 := skip_le h1
      split at h
      · obtain ⟨o2, h2, h⟩ := Out.bind_eq_ok.1 h
        obtain ⟨c2, hc2, h⟩ := Out.bind_eq_ok.1 h
        have l2 := skip_le h2
        split at h
        · cases h
          exact ⟨by omega, .arr [] (by simp)⟩
        · obtain ⟨r, hr, h⟩ := Out.bind_eq_ok.1 h
          cases h
          have := ih2 _ r.1 r.2 hr
          exact ⟨by omega, .arr _ this.2⟩
      · split at h
        · obtain ⟨o2, h2, h⟩ := Out.bind_eq_ok.1 h
          obtain ⟨c2, hc2, h⟩ := Out.bind_eq_ok.1 h
          have l2 := skip_le h2
          split at h
          · cases h
            exact ⟨by omega, .obj [] (by simp) (by simp) (by simp)⟩
          · obtain ⟨r, hr, h⟩ := Out.bind_eq_ok.1 h
            cases h
            have := ih3 _ [] r.1 r.2 ⟨by simp, by simp, by simp⟩ hr
            exact ⟨by omega, .obj _ this.2.1 this.2.2.1 this.2.2.2⟩
        · split at h
          · have := parseString_prog h
            exact ⟨by omega, this.2⟩
          · split at h
            · unfold parseBool at h
              split at h
              · cases h; exact ⟨by omega, .bool _⟩
              · split at h
                · cases h; exact ⟨by omega, .bool _⟩
                · cases h
            · split at h
              · unfold parseNull at h
                split at h
                · cases h; exact ⟨by omega, .null⟩
                · cases h
              · split at h
                · rename_i hd
                  have := parseNumber_prog hc hd h
                  exact ⟨by omega, this.2⟩
                · cases h
    · unfold arrLoop at h
      obtain ⟨r, h1, h⟩ := Out.bind_eq_ok.1 h
      obtain ⟨o2, h2, h⟩ := Out.bind_eq_ok.1 h
      obtain ⟨c, hc, h⟩ := Out.bind_eq_ok.1 h
      have l1 := ih1 _ r.1 r.2 h1
      have l2 := skip_le h2
      split at h
      · obtain ⟨r', hr', h⟩ := Out.bind_eq_ok.1 h
        cases h
        have := ih2 _ r'.1 r'.2 hr'
        refine ⟨by omega, fun v hv => ?_⟩
        rcases List.mem_cons.1 hv with rfl | hv
        · exact l1.2
        · exact this.2 v hv
      · split at h
        · cases h
          exact ⟨by omega, by simpa using l1.2⟩
        · cases h
    · unfold objLoop at h
      obtain ⟨r, h1, h⟩ := Out.bind_eq_ok.1 h
      obtain ⟨o2, h2, h⟩ := Out.bind_eq_ok.1 h
      obtain ⟨c, hc, h⟩ := Out.bind_eq_ok.1 h
      have l1 := ih1 _ r.1 r.2 h1
      have l2 := skip_le h2
      split at h
      · cases h
      · obtain ⟨o3, h3, h⟩ := Out.bind_eq_ok.1 h
        obtain ⟨r4, h4, h⟩ := Out.bind_eq_ok.1 h
        obtain ⟨o5, h5, h⟩ := Out.bind_eq_ok.1 h
        obtain ⟨c6, h6, h⟩ := Out.bind_eq_ok.1 h
        have l3 := skip_le h3
        have l4 := ih1 _ r4.1 r4.2 h4
        have l5 := skip_le h5
        have hput := hm.put (toString_escape r.1) l4.2
        split at h
        · have := ih3 _ _ m' o hput h
          exact ⟨by omega, this.2⟩
        · split at h
          · cases h
            exact ⟨by omega, hput⟩
          · cases h

/-- with enough fuel the loader ends -/
theorem parse_nd (str : Str) : ∀ f : Nat,
    (∀ off, 2 * (str.length + 1) + 1 ≤ f + 2 * off → 0 < f → parseNext str f off ≠ .diverge) ∧
    (∀ off, 2 * (str.length + 1) + 2 ≤ f + 2 * off → off ≤ str.length + 1 → arrLoop str f off ≠ .diverge) ∧
    (∀ off m, 2 * (str.length + 1) + 2 ≤ f + 2 * off → off ≤ str.length + 1 → objLoop str f off m ≠ .diverge) := by
  intro f
  induction f with
  | zero => exact ⟨fun _ _ h => absurd h (by omega), fun _ h h' => absurd h' (by omega), fun _ _ h h' => absurd h' (by omega)⟩
  | succ f ih =>
    obtain ⟨ih1, ih2, ih3⟩ := ih
    refine ⟨fun off hf _ => ?_, fun off hf ho => ?_, fun off m hf ho => ?_⟩
    · unfold parseNext
      refine nd_bind (skip_nd _ _) fun o1 h1 => nd_bind (strAt_nd _ _) fun c hc => ?_
      have l1 := skip_le h1
      have l1' := strAt_le hc
      split
      · refine nd_bind (skip_nd _ _) fun o2 h2 => nd_bind (strAt_nd _ _) fun c2 hc2 => ?_
        have l2 := skip_le h2
        have l2' := strAt_le hc2
        split
        · simp
        · exact nd_bind (ih2 _ (by omega) (by omega)) (by simp)
      · split
        · refine nd_bind (skip_nd _ _) fun o2 h2 => nd_bind (strAt_nd _ _) fun c2 hc2 => ?_
          have l2 := skip_le h2
          have l2' := strAt_le hc2
          split
          · simp
          · exact nd_bind (ih3 _ _ (by omega) (by omega)) (by simp)
        · split
          · exact parseString_nd _ _
          · split
            · unfold parseBool
              split
              · simp
              · split <;> simp
            · split
              · unfold parseNull
                split <;> simp
              · split
                · exact parseNumber_nd _ _
                · simp
    · unfold arrLoop
      refine nd_bind ?_ fun r h1 => nd_bind (skip_nd _ _) fun o2 h2 => nd_bind (strAt_nd _ _) fun c hc => ?_
      · exact ih1 _ (by omega) (by omega)
      have l1 := ((parse_prog str f).1 _ r.1 r.2 h1).1
      have l2 := skip_le h2
      have l2' := strAt_le hc
      split
      · exact nd_bind (ih2 _ (by omega) (by omega)) (by simp)
      · split <;> simp
    · unfold objLoop
      refine nd_bind ?_ fun r h1 => nd_bind (skip_nd _ _) fun o2 h2 => nd_bind (strAt_nd _ _) fun c hc => ?_
      · exact ih1 _ (by omega) (by omega)
      have l1 := ((parse_prog str f).1 _ r.1 r.2 h1).1
      have l2 := skip_le h2
      have l2' := strAt_le hc
      split
      · simp
      · refine nd_bind (skip_nd _ _) fun o3 h3 => nd_bind ?_ fun r4 h4 => nd_bind (skip_nd _ _) fun o5 h5 =>
          nd_bind (strAt_nd _ _) fun c6 h6 => ?_
        · have := skip_le h3
          exact ih1 _ (by omega) (by omega)
        have l3 := skip_le h3
        have l4 := ((parse_prog str f).1 _ r4.1 r4.2 h4).1
        have l5 := skip_le h5
        have l6 := strAt_le h6
        split
        · exact ih3 _ _ (by omega) (by omega)
        · split <;> simp

theorem load_nd (str : Str) : loadJSON str ≠ .diverge := by
  unfold loadJSON
  exact nd_bind ((parse_nd str _).1 0 (by omega) (by omega)) (by simp)

theorem load_fine {str : Str} {v : Value} (h : loadJSON str = .ok v) : Fine v := by
  unfold loadJSON at h
  obtain ⟨r, hr, h⟩ := Out.bind_eq_ok.1 h
  cases h
  exact ((parse_prog str _).1 0 r.1 r.2 hr).2

end Json

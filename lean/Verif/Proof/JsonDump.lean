import Verif.Proof.JsonLoad
import Mathlib.Data.Nat.Digits.Lemmas
import Mathlib.Tactic.Linarith
import Mathlib.Tactic.Positivity

/-! # Helper lemmas for JSON: dumped texts are texts of the grammar -/

namespace Json
open Cpp Spec

/-! ## decimal numbers -/

theorem digit_byte {d : Nat} (h : d < 10) : (48 + UInt8.ofNat d).toNat = 48 + d ∧ (48 : Byte) ≤ 48 + UInt8.ofNat d ∧
    48 + UInt8.ofNat d ≤ (57 : Byte) := by
  have : ∀ d : Fin 10, (48 + UInt8.ofNat d.val).toNat = 48 + d.val ∧ (48 : Byte) ≤ 48 + UInt8.ofNat d.val ∧
    48 + UInt8.ofNat d.val ≤ (57 : Byte) := by decide
  exact this ⟨d, h⟩

theorem decNat_digits (n : Nat) : Digits (decNat n) := by
  unfold decNat
  split
  · decide
  · rename_i h
    refine ⟨by simp [Nat.digits_ne_nil_iff_ne_zero.2 h], fun c hc => ?_⟩
    simp only [List.mem_reverse, List.mem_map] at hc
    obtain ⟨d, hd, rfl⟩ := hc
    exact (digit_byte (Nat.digits_lt_base (by omega) hd)).2

theorem decNat_nat (n : Nat) : nat (decNat n) = n := by
  unfold decNat
  split
  · rename_i h; rw [h]; decide
  · rename_i h
    unfold nat
    rw [List.reverse_reverse, List.map_map]
    have : (Nat.digits 10 n).map ((fun c : Byte => c.toNat - 48) ∘ fun d => 48 + UInt8.ofNat d) = Nat.digits 10 n := by
      conv_rhs => rw [← List.map_id (Nat.digits 10 n)]
      refine List.map_congr_left fun d hd => ?_
      simp [Function.comp, (digit_byte (Nat.digits_lt_base (b := 10) (by omega) hd)).1]
    rw [this, Nat.ofDigits_digits]

theorem dec6_digits (n : Nat) : Digits (dec6 n) := by
  refine ⟨by simp [dec6], fun c hc => ?_⟩
  unfold dec6 at hc
  simp only [List.mem_map] at hc
  obtain ⟨i, -, rfl⟩ := hc
  exact (digit_byte (Nat.mod_lt _ (by omega))).2

theorem dec6_nat {n : Nat} (h : n < 1000000) : nat (dec6 n) = n := by
  have e : dec6 n = [48 + UInt8.ofNat (n / 100000 % 10), 48 + UInt8.ofNat (n / 10000 % 10), 48 + UInt8.ofNat (n / 1000 % 10),
      48 + UInt8.ofNat (n / 100 % 10), 48 + UInt8.ofNat (n / 10 % 10), 48 + UInt8.ofNat (n % 10)] := by
    simp [dec6, List.range_succ]
  rw [e]
  unfold nat
  have hd : ∀ m : Nat, (48 + UInt8.ofNat (m % 10)).toNat - 48 = m % 10 := by
    intro m; rw [(digit_byte (Nat.mod_lt m (by omega))).1]; omega
  simp only [List.reverse_cons, List.reverse_nil, List.nil_append, List.cons_append, List.map_cons, List.map_nil, hd,
    Nat.ofDigits_cons, Nat.ofDigits_nil]
  omega

/-- the literal of an int -/
def numInt (i : Int) : Number := ⟨decide (i < 0), decNat i.natAbs, none, none⟩

theorem numInt_ok (i : Int) : (numInt i).Ok := ⟨decNat_digits _, by simp [numInt], by simp [numInt]⟩

theorem numInt_text (i : Int) : (numInt i).text = decInt i := by
  unfold Number.text numInt decInt
  by_cases h : i < 0 <;> simp [h]

theorem numInt_value (i : Int) : (numInt i).value = i := by
  unfold Number.value numInt
  simp only [decNat_nat]
  by_cases h : i < 0
  · have e : ((i.natAbs : Int) : ℚ) = -(i : ℚ) := by
      rw [Int.ofNat_natAbs_of_nonpos (by omega)]; push_cast; ring
    have e' : ((i.natAbs : ℕ) : ℚ) = -(i : ℚ) := by rw [← e, Int.cast_natCast]
    simp [h, e']
  · have e : ((i.natAbs : Int) : ℚ) = (i : ℚ) := by
      rw [Int.natAbs_of_nonneg (by omega)]
    have e' : ((i.natAbs : ℕ) : ℚ) = (i : ℚ) := by rw [← e, Int.cast_natCast]
    simp [h, e']

/-- the literal of a floating-point number -/
def numFloat (q : ℚ) : Number :=
  let n := (roundEven (|q| * 1000000)).toNat
  ⟨decide (q < 0), decNat (n / 1000000), some (dec6 (n % 1000000)), none⟩

theorem numFloat_ok (q : ℚ) : (numFloat q).Ok :=
  ⟨decNat_digits _, by simp [numFloat, dec6_digits], by simp [numFloat]⟩

theorem numFloat_text (q : ℚ) : (numFloat q).text = decFloat q := by
  unfold Number.text numFloat decFloat
  by_cases h : q < 0 <;> simp [h]

theorem roundEven_close (q : ℚ) : |q - roundEven q| ≤ 1 / 2 := by
  unfold roundEven
  have h1 := Int.floor_le q
  have h2 := Int.lt_floor_add_one q
  rw [abs_le]
  dsimp only
  split
  · constructor <;> linarith
  · split
    · push_cast; constructor <;> linarith
    · split
      · constructor <;> linarith
      · push_cast; constructor <;> linarith

theorem roundEven_nonneg {q : ℚ} (h : 0 ≤ q) : 0 ≤ roundEven q := by
  have hf : 0 ≤ ⌊q⌋ := Int.floor_nonneg.2 h
  unfold roundEven
  dsimp only
  split
  · exact hf
  · split
    · omega
    · split <;> omega

theorem numFloat_value (q : ℚ) : |q - (numFloat q).value| ≤ 1 / 2000000 := by
  set n := (roundEven (|q| * 1000000)).toNat with hn
  have hv : (numFloat q).value = (if q < 0 then -1 else 1) * ((n : ℚ) / 1000000) := by
    unfold Number.value numFloat
    simp only [← hn, decNat_nat, dec6_nat (Nat.mod_lt n (show 0 < 1000000 by omega)), decide_eq_true_eq, mul_one]
    congr 1
    have hl : (dec6 (n % 1000000)).length = 6 := by simp [dec6]
    rw [hl]
    have := Nat.div_add_mod n 1000000
    have h2 : (n : ℚ) = 1000000 * ((n / 1000000 : Nat) : ℚ) + ((n % 1000000 : Nat) : ℚ) := by exact_mod_cast this.symm
    rw [h2]
    ring
  have h0 : 0 ≤ |q| * 1000000 := by positivity
  have hc := roundEven_close (|q| * 1000000)
  have hni : ((roundEven (|q| * 1000000)) : ℚ) = (n : ℚ) := by
    have : ((roundEven (|q| * 1000000)).toNat : Int) = roundEven (|q| * 1000000) := Int.toNat_of_nonneg (roundEven_nonneg h0)
    rw [hn]
    exact_mod_cast this.symm
  rw [hni, abs_le] at hc
  rw [hv]
  by_cases hq : q < 0
  · rw [if_pos hq]
    rw [abs_of_neg hq] at hc
    rw [abs_le]
    constructor <;> linarith [hc.1, hc.2]
  · rw [if_neg hq]
    rw [abs_of_nonneg (not_lt.1 hq)] at hc
    rw [abs_le]
    constructor <;> linarith [hc.1, hc.2]

/-! ## dumping -/

theorem padding_ws {tab : Str} (h : Ws tab) (depth : Int) : Ws (padding depth tab) := by
  intro c hc
  unfold padding at hc
  rw [List.mem_flatten] at hc
  obtain ⟨l, hl, hc⟩ := hc
  rw [List.mem_replicate] at hl
  rw [hl.2] at hc
  exact h c hc

theorem ws_drop {w : Str} (h : Ws w) (n : Nat) : Ws (w.drop n) := fun c hc => h c (List.mem_of_mem_drop hc)

theorem ws_append {w w' : Str} (h : Ws w) (h' : Ws w') : Ws (w ++ w') := by
  intro c hc
  rcases List.mem_append.1 hc with hc | hc
  · exact h c hc
  · exact h' c hc

theorem dumpArr_items {tab : Str} {depth : Int} (l : List Value) (hne : l ≠ [])
    (h : ∀ v ∈ l, ∃ v', Doc EscKey (dump tab (depth + 1) v) v' ∧ Close v v') :
    ∀ pre : Str, Ws pre → ∃ xs : List Item, xs ≠ [] ∧ (∀ x ∈ xs, Ws x.pre ∧ Ws x.post) ∧
      (∀ x ∈ xs, Doc EscKey x.text x.value) ∧ commas (xs.map Item.full) = pre ++ dumpArr tab depth l ∧
      l.length = (xs.map Item.value).length ∧ ∀ p ∈ l.zip (xs.map Item.value), Close p.1 p.2 := by
  induction l with
  | nil => exact absurd rfl hne
  | cons v l ih =>
    intro pre hpre
    obtain ⟨v', hd, hc⟩ := h v (by simp)
    by_cases hl : l = []
    · subst hl
      refine ⟨[⟨pre, dump tab (depth + 1) v, [], v'⟩], by simp, ?_, ?_, ?_, rfl, ?_⟩
      · simp [Ws]; exact hpre
      · simp [hd]
      · simp [commas, Item.full, dumpArr]
      · simp [hc]
    · obtain ⟨xs, hne', hw, hds, he, hlen, hcl⟩ := ih hl (fun u hu => h u (by simp [hu])) [32] (by simp [Ws])
      refine ⟨⟨pre, dump tab (depth + 1) v, [], v'⟩ :: xs, by simp, ?_, ?_, ?_, by simp [hlen], ?_⟩
      · intro x hx
        rcases List.mem_cons.1 hx with rfl | hx
        · exact ⟨hpre, by simp [Ws]⟩
        · exact hw x hx
      · intro x hx
        rcases List.mem_cons.1 hx with rfl | hx
        · exact hd
        · exact hds x hx
      · rw [List.map_cons, commas_cons _ (by simpa using hne'), he]
        have : dumpArr tab depth (v :: l) = dump tab (depth + 1) v ++ bytes [',', ' '] ++ dumpArr tab depth l := by
          cases l with
          | nil => exact absurd rfl hl
          | cons u l => rfl
        rw [this]
        simp [Item.full, bytes, show byte ' ' = 32 by decide]
      · simp only [List.map_cons, List.zip_cons_cons, List.mem_cons]
        rintro p (rfl | hp)
        · exact hc
        · exact hcl p hp

theorem dumpObj_members {tab : Str} (htab : Ws tab) {depth : Int} {post : Str} (hpost : Ws post) (m : List (Str × Value))
    (hne : m ≠ []) (hk : ∀ p ∈ m, ∃ s, p.1 = jsonEscape s)
    (h : ∀ p ∈ m, ∃ v', Doc EscKey (dump tab (depth + 1) p.2) v' ∧ Close p.2 v') :
    ∀ pre : Str, Ws pre → ∃ (xs : List Member) (m' : List (Str × Value)), xs ≠ [] ∧
      (∀ x ∈ xs, Ws x.pre ∧ Ws x.mid ∧ Ws x.mid' ∧ Ws x.post ∧ Body x.ktext x.key) ∧
      (∀ x ∈ xs, Doc EscKey x.text x.value) ∧ List.Forall₂ (fun x p => EscKey x.key p.1 ∧ p.2 = x.value) xs m' ∧
      commas (xs.map Member.full) = pre ++ dumpObj tab depth m ++ post ∧ m.map Prod.fst = m'.map Prod.fst ∧
      ∀ p ∈ (m.map Prod.snd).zip (m'.map Prod.snd), Close p.1 p.2 := by
  induction m with
  | nil => exact absurd rfl hne
  | cons q m ih =>
    intro pre hpre
    obtain ⟨k, v⟩ := q
    obtain ⟨v', hd, hc⟩ := h (k, v) (by simp)
    obtain ⟨s, hs⟩ := hk (k, v) (by simp)
    dsimp only at hs
    subst hs
    have hpad := padding_ws htab depth
    by_cases hl : m = []
    · subst hl
      refine ⟨[⟨pre ++ padding depth tab, jsonEscape s, s, [32], [32], dump tab (depth + 1) v, post, v'⟩],
        [(jsonEscape s, v')], by simp, ?_, ?_, ?_, ?_, rfl, ?_⟩
      · simp only [List.mem_singleton]
        rintro x rfl
        exact ⟨ws_append hpre hpad, by simp [Ws], by simp [Ws], hpost, escape_body s⟩
      · simp [hd]
      · exact .cons ⟨rfl, rfl⟩ .nil
      · simp [commas, Member.full, dumpObj, bytes, show byte ' ' = 32 by decide]
      · simp [hc]
    · obtain ⟨xs, m', hne', hw, hds, hf, he, hkey, hcl⟩ := ih hl (fun u hu => hk u (by simp [hu])) (fun u hu => h u (by simp [hu]))
        [10] (by simp [Ws])
      refine ⟨⟨pre ++ padding depth tab, jsonEscape s, s, [32], [32], dump tab (depth + 1) v, [], v'⟩ :: xs,
        (jsonEscape s, v') :: m', by simp, ?_, ?_, ?_, ?_, by simp [hkey], ?_⟩
      · intro x hx
        rcases List.mem_cons.1 hx with rfl | hx
        · exact ⟨ws_append hpre hpad, by simp [Ws], by simp [Ws], by simp [Ws], escape_body s⟩
        · exact hw x hx
      · intro x hx
        rcases List.mem_cons.1 hx with rfl | hx
        · exact hd
        · exact hds x hx
      · exact .cons ⟨rfl, rfl⟩ hf
      · rw [List.map_cons, commas_cons _ (by simpa using hne'), he]
        have : dumpObj tab depth ((jsonEscape s, v) :: m) = padding depth tab ++ bytes ['"'] ++ jsonEscape s ++
            bytes ['"', ' ', ':', ' '] ++ dump tab (depth + 1) v ++ bytes [',', '\n'] ++ dumpObj tab depth m := by
          cases m with
          | nil => exact absurd rfl hl
          | cons u m => rfl
        rw [this]
        simp [Member.full, bytes, show byte ' ' = 32 by decide, show byte '\n' = 10 by decide]
      · simp only [List.map_cons, List.zip_cons_cons, List.mem_cons]
        rintro p (rfl | hp)
        · exact hc
        · exact hcl p hp

theorem sorted_of_keys {m m' : List (Str × Value)} (h : m.map Prod.fst = m'.map Prod.fst)
    (hs : m.Pairwise (fun a b => a.1 < b.1)) : m'.Pairwise (fun a b => a.1 < b.1) := by
  have h1 : (m.map Prod.fst).Pairwise (· < ·) := List.pairwise_map.2 hs
  rw [h] at h1
  exact List.pairwise_map.1 h1

theorem dump_doc {tab : Str} (htab : Ws tab) {v : Value} (hv : Fine v) :
    ∀ depth : Int, ∃ v', Doc EscKey (dump tab depth v) v' ∧ Close v v' := by
  induction hv with
  | null => exact fun depth => ⟨_, .null, .null⟩
  | bool b =>
    intro depth
    cases b
    · exact ⟨_, .false, .bool _⟩
    · exact ⟨_, .true, .bool _⟩
  | int i h =>
    intro depth
    refine ⟨_, ?_, .int i⟩
    have := Doc.int (K := EscKey) (numInt i) (numInt_ok i) rfl rfl i h (numInt_value i)
    rwa [numInt_text] at this
  | float q =>
    intro depth
    refine ⟨.float (numFloat q).value, ?_, .float q _ (numFloat_value q)⟩
    have := Doc.float (K := EscKey) (numFloat q) (numFloat_ok q) (by simp [numFloat]) rfl
    rwa [numFloat_text] at this
  | str s =>
    intro depth
    exact ⟨_, .str _ s (escape_body s), .str s⟩
  | arr l h ih =>
    intro depth
    by_cases hl : l = []
    · subst hl
      exact ⟨_, .arr0 [] (by simp [Ws]), .arr [] [] rfl (by simp)⟩
    · obtain ⟨xs, hne, hw, hd, he, hlen, hc⟩ := dumpArr_items l hl (fun v hv => ih v hv (depth + 1)) [] (by simp [Ws])
      refine ⟨_, ?_, .arr l _ hlen hc⟩
      have := Doc.arr xs hne hw hd
      rwa [he] at this
  | obj m hs hk h ih =>
    intro depth
    have hpost : Ws (bytes ['\n'] ++ (padding depth tab).drop 2) :=
      ws_append (by decide) (ws_drop (padding_ws htab depth) 2)
    by_cases hm : m = []
    · subst hm
      refine ⟨.obj [], ?_, .obj [] [] rfl (by simp)⟩
      have := Doc.obj0 (K := EscKey) (bytes ['\n'] ++ (bytes ['\n'] ++ (padding depth tab).drop 2)) (ws_append (by decide) hpost)
      simpa [dump, dumpObj, bytes] using this
    · obtain ⟨xs, m', hne, hw, hd, hf, he, hkey, hc⟩ := dumpObj_members htab (depth := depth) hpost m hm hk
        (fun p hp => ih p hp (depth + 1)) (bytes ['\n']) (by decide)
      refine ⟨_, ?_, .obj m m' hkey hc⟩
      have := Doc.obj xs m' m' hne hw hd hf (mapOf_self (sorted_of_keys hkey hs))
      rw [he] at this
      simpa [dump, bytes] using this

theorem close_noFloat {v v' : Value} (h : Close v v') (hn : NoFloat v) : v = v' := by
  induction h with
  | null => rfl
  | bool => rfl
  | int => rfl
  | float => cases hn
  | str => rfl
  | arr l l' hl h ih =>
    cases hn with
    | arr _ hn =>
      congr 1
      refine List.ext_getElem hl fun i h1 h2 => ?_
      exact ih (l[i], l'[i]) (List.mem_iff_getElem.2 ⟨i, by simp; omega, by simp⟩) (hn _ (List.getElem_mem h1))
  | obj m m' hk h ih =>
    cases hn with
    | obj _ hn =>
      congr 1
      have hl : m.length = m'.length := by simpa using congrArg List.length hk
      refine List.ext_getElem hl fun i h1 h2 => ?_
      have e1 : m[i].1 = m'[i].1 := by
        have := congrArg (fun l => l[i]?) hk
        simpa [h1, h2] using this
      have e2 : m[i].2 = m'[i].2 :=
        ih (m[i].2, m'[i].2) (List.mem_iff_getElem.2 ⟨i, by simp; omega, by simp⟩) (hn _ (List.getElem_mem h1))
      exact Prod.ext e1 e2

theorem load_dump {tab : Str} (htab : Ws tab) (depth : Int) {v : Value} (hv : Fine v) :
    ∃ v', loadJSON (dump tab depth v) = .ok v' ∧ Close v v' := by
  obtain ⟨v', hd, hc⟩ := dump_doc htab hv depth
  exact ⟨v', load_text ⟨[], [], _, by simp [Ws], by simp [Ws], by simp, hd⟩, hc⟩

end Json

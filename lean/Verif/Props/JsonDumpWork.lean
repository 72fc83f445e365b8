import Verif.Proof.JsonDumpWork

/-!
# Property C182: the work of `dump`

Dumping a value takes time in proportion to the text that is written.  It does not: every value writes the text of everything
inside it again.
-/

namespace Json.DumpWork
open Cpp Json.DumpWork.Spec

/-- **C182.**  The characters written by `dump()` are proportional to the text. -/
def C182 (lib : Lib) : Prop :=
  ∃ K, ∀ v, (dump lib (bytes [' ', ' ']) 1 v).writes ≤ K * (Json.dumpDefault v).length

/-- The counted function returns what the one of Model/Json.lean returns. -/
theorem C182_same (lib : Lib) (tab : Str) (depth : Int) (v : Value) : (dump lib tab depth v).out = Json.dump tab depth v :=
  dump_out lib tab depth v

/-- **C182, the work.**  Whatever the library: the characters written are at least those of the texts of the value and of all
values in it together, at most five times as many and the indentations of all these values, scalars and elements of arrays
included. -/
theorem C182_volume_partial (lib : Lib) (hlib : lib.Sound) (tab : Str) (depth : Int) (v : Value) :
    volume tab depth v ≤ (dump lib tab depth v).writes ∧
    (dump lib tab depth v).writes ≤ 5 * volume tab depth v + indents tab depth v := work_vol hlib tab depth v

/-- **C182, bound.**  So the work is proportional to the text if nesting, depth and tab are bounded. -/
theorem C182_bound_partial (lib : Lib) (hlib : lib.Sound) (tab : Str) (depth : Int) (v : Value) :
    (dump lib tab depth v).writes ≤
      (5 * (nesting v + 1) + (depth.toNat + nesting v + 1) * tab.length) * (Json.dump tab depth v).length := by
  have h := (work_vol hlib tab depth v).2
  have h1 := vol_le tab depth v
  have h2 := ind_le tab depth v _ (Nat.le_refl _)
  have h3 := Nat.mul_le_mul_right ((depth.toNat + nesting v + 1) * tab.length) (parts_le tab depth depth v)
  rw [Nat.add_mul, Nat.mul_assoc 5, Nat.mul_comm _ (Json.dump tab depth v).length]
  rw [Nat.mul_comm (nesting v + 1)] at *
  rw [Nat.mul_comm ((depth.toNat + nesting v + 1) * tab.length)]
  omega

/-- **C182, any value.**  `dump()` never writes more than `7 n² + 9 n` characters for a text of `n`. -/
theorem C182_square_partial (lib : Lib) (hlib : lib.Sound) (v : Value) :
    (dump lib (bytes [' ', ' ']) 1 v).writes ≤ 7 * (Json.dumpDefault v).length ^ 2 + 9 * (Json.dumpDefault v).length := by
  have h := C182_bound_partial lib hlib (bytes [' ', ' ']) 1 v
  have h1 := Nat.le_trans (nesting_le 1 v) (parts_le (bytes [' ', ' ']) 1 1 v)
  have e : (bytes [' ', ' ']).length = 2 := rfl
  have e' : (1 : Int).toNat = 1 := rfl
  rw [e, e'] at h
  change _ ≤ _ * (Json.dumpDefault v).length at h
  change _ ≤ (Json.dumpDefault v).length at h1
  generalize (Json.dumpDefault v).length = L at *
  nlinarith [Nat.mul_le_mul_right L h1]

/-- **C182, arrays.**  `n + 1` arrays in each other make `2 n + 2` characters; writing them takes more than `n²`, for every tab and
depth. -/
theorem C182_arrays (lib : Lib) (hlib : lib.Sound) (tab : Str) (depth : Int) (n : Nat) :
    (Json.dump tab depth (arrays n)).length = 2 * n + 2 ∧ (n + 1) * (n + 2) ≤ (dump lib tab depth (arrays n)).writes :=
  ⟨arrays_length tab n depth, by rw [← arrays_vol tab n depth]; exact (work_vol hlib tab depth _).1⟩

/-- **C182, refuted.** -/
theorem C182_refuted (lib : Lib) (hlib : lib.Sound) : ¬ C182 lib := by
  rintro ⟨K, h⟩
  have h1 := h (arrays (2 * K))
  obtain ⟨h2, h3⟩ := C182_arrays lib hlib (bytes [' ', ' ']) 1 (2 * K)
  unfold Json.dumpDefault at h1
  rw [h2] at h1
  nlinarith

/-- **C182, objects.**  `n` objects in each other around a `null` make a text of `2 n² + 10 n + 4` characters; writing it takes at
least `2 n³ / 3`. -/
theorem C182_objects (lib : Lib) (hlib : lib.Sound) (n : Nat) :
    (parts 1 (objects n)).length = n + 1 ∧ (Json.dumpDefault (objects n)).length = 2 * n * n + 10 * n + 4 ∧
    2 * n ^ 3 ≤ 3 * (dump lib (bytes [' ', ' ']) 1 (objects n)).writes := by
  refine ⟨objects_parts n 1, ?_, ?_⟩
  · have := objects_length (bytes [' ', ' ']) rfl n 1 (Int.le_refl 1)
    simp only [Json.dumpDefault, this]
    simp
    ring
  · exact Nat.le_trans (objects_vol (bytes [' ', ' ']) rfl n 1 (Int.le_refl 1))
      (Nat.mul_le_mul_left 3 (work_vol hlib _ 1 _).1)

/-- **C182, refuted.**  Not even the square of the number of values bounds the work. -/
theorem C182_values_refuted (lib : Lib) (hlib : lib.Sound) :
    ¬ ∃ K, ∀ n, (dump lib (bytes [' ', ' ']) 1 (objects n)).writes ≤ K * (parts 1 (objects n)).length ^ 2 := by
  rintro ⟨K, h⟩
  obtain ⟨h1, -, h3⟩ := C182_objects lib hlib (8 * K + 8)
  have h2 := h (8 * K + 8)
  rw [h1] at h2
  nlinarith [Nat.zero_le (K ^ 3), Nat.zero_le (K ^ 2)]

/-- Both ways to add to a temporary are possible. -/
example : Lib.Sound (fun _ b => b) ∧ Lib.Sound (fun a b => a + b) := ⟨fun a b => by simp, fun a b => by simp⟩

/-! Tests -/

example : (dump (fun _ b => b) (bytes [' ', ' ']) 1 (.arr [.int 7, .obj [(bytes ['k'], .bool true)]])).writes = 94 := by
  decide +kernel

example : volume (bytes [' ', ' ']) 1 (.arr [.int 7, .obj [(bytes ['k'], .bool true)]]) = 50 := by
  decide +kernel

end Json.DumpWork

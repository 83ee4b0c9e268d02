import Mathlib.Algebra.Order.Field.Basic
import Mathlib.Algebra.Order.Floor.Ring
import Mathlib.Data.Rat.Floor
import Mathlib.Tactic.Ring
import Mathlib.Tactic.Linarith
import Mathlib.Tactic.NormNum
import Mathlib.Tactic.FieldSimp
import Mathlib.Tactic.Positivity
import Mathlib.Data.List.Basic

/-!
# Python primitives shared by the models

Small total models of the Python / numpy primitives that the NEORL code calls.  They are not models of NEORL code
themselves; every NEORL function model that uses them cites the NEORL lines.
-/

set_option linter.unusedSectionVars false
set_option linter.unusedVariables false

namespace Neorl

/-- Python exceptions the modelled code can raise. -/
inductive PyErr
  | valueError | indexError | keyError | assertion | zeroDivision | unboundLocal | typeError | recursion | attributeError | runtimeError
  deriving DecidableEq, Repr

/-- A Python call: a value or an exception. -/
abbrev Py (α : Type _) := Except PyErr α

section Num
variable {K : Type} [Field K] [LinearOrder K] [IsStrictOrderedRing K] [FloorRing K]

/-- Python `int(x)` on a float: truncation toward zero. -/
def truncZ (x : K) : ℤ := if 0 ≤ x then ⌊x⌋ else ⌈x⌉

theorem truncZ_intCast (n : ℤ) : truncZ (n : K) = n := by
  unfold truncZ; split <;> simp

theorem truncZ_of_nonneg {x : K} (h : 0 ≤ x) : truncZ x = ⌊x⌋ := by simp [truncZ, h]
theorem truncZ_of_neg {x : K} (h : x < 0) : truncZ x = ⌈x⌉ := by simp [truncZ, not_le.2 h]

/-- Truncation is monotone. -/
theorem truncZ_mono {x y : K} (h : x ≤ y) : truncZ x ≤ truncZ y := by
  unfold truncZ
  split_ifs with h1 h2 h2
  · exact Int.floor_mono h
  · exact absurd (h1.trans h) h2
  · have : ⌈x⌉ ≤ 0 := Int.ceil_le.2 (by push_cast; exact (not_le.1 h1).le)
    exact this.trans (Int.floor_nonneg.2 h2)
  · exact Int.ceil_mono h

/-- Truncation moves a value by less than one. -/
theorem abs_truncZ_sub_lt (x : K) : |(truncZ x : K) - x| < 1 := by
  unfold truncZ
  split_ifs with h
  · have h1 := Int.floor_le x
    have h2 := Int.lt_floor_add_one x
    rw [abs_lt]; constructor <;> linarith
  · have h1 := Int.le_ceil x
    have h2 := Int.ceil_lt_add_one x
    rw [abs_lt]; constructor <;> linarith

theorem abs_truncZ_le (x : K) : |(truncZ x : K)| ≤ |x| := by
  unfold truncZ
  split_ifs with h
  · rw [abs_of_nonneg h, abs_of_nonneg (by exact_mod_cast Int.floor_nonneg.2 h)]
    exact Int.floor_le x
  · have h' := (not_le.1 h)
    have h0 : ((⌈x⌉ : ℤ) : K) ≤ 0 := by
      have : ⌈x⌉ ≤ 0 := Int.ceil_le.2 (by push_cast; exact h'.le)
      exact_mod_cast this
    rw [abs_of_neg h', abs_of_nonpos h0]
    linarith [Int.le_ceil x]

theorem truncZ_bounds {lb ub : ℤ} {x : K} (h1 : (lb : K) ≤ x) (h2 : x ≤ ub) :
    lb ≤ truncZ x ∧ truncZ x ≤ ub := by
  constructor
  · have := truncZ_mono h1; rwa [truncZ_intCast] at this
  · have := truncZ_mono h2; rwa [truncZ_intCast] at this

end Num

/-- Python `range(a, b)` as a list of integers. -/
def pyRange (a b : ℤ) : List ℤ := (List.range (b - a).toNat).map (fun i : ℕ => a + (i : ℤ))

theorem mem_pyRange {a b x : ℤ} : x ∈ pyRange a b ↔ a ≤ x ∧ x < b := by
  simp only [pyRange, List.mem_map, List.mem_range]
  constructor
  · rintro ⟨i, hi, rfl⟩; omega
  · rintro ⟨h1, h2⟩; exact ⟨(x - a).toNat, by omega, by omega⟩

theorem pyRange_nodup (a b : ℤ) : (pyRange a b).Nodup := by
  unfold pyRange
  refine List.Nodup.map ?_ List.nodup_range
  intro i j h; simpa using h

theorem length_pyRange (a b : ℤ) : (pyRange a b).length = (b - a).toNat := by simp [pyRange]

end Neorl

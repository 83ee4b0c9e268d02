import Verif.Py

/-!
# Python `round`

`round(x)` on floats rounds to the nearest integer, ties to even.
-/

set_option linter.unusedSectionVars false
set_option linter.unusedVariables false

namespace Neorl

section
variable {K : Type} [Field K] [LinearOrder K] [IsStrictOrderedRing K] [FloorRing K]

/-- Python `round(x)` (and `np.rint`): nearest integer, ties to even. -/
def roundHE (x : K) : ℤ :=
  if x - ⌊x⌋ < 1 / 2 then ⌊x⌋ else if x - ⌊x⌋ > 1 / 2 then ⌊x⌋ + 1 else if 2 ∣ ⌊x⌋ then ⌊x⌋ else ⌊x⌋ + 1

theorem roundHE_cases (x : K) : roundHE x = ⌊x⌋ ∨ roundHE x = ⌊x⌋ + 1 := by
  unfold roundHE; split_ifs <;> simp

theorem roundHE_intCast (z : ℤ) : roundHE (z : K) = z := by
  unfold roundHE; simp

theorem roundHE_near (x : K) : |(roundHE x : K) - x| ≤ 1 / 2 := by
  unfold roundHE
  have h1 := Int.floor_le x
  have h2 := Int.lt_floor_add_one x
  rw [abs_le]
  split_ifs <;> push_cast <;> constructor <;> linarith

theorem roundHE_mono {x y : K} (h : x ≤ y) : roundHE x ≤ roundHE y := by
  have hf := Int.floor_le_floor h
  rcases hf.lt_or_eq with hlt | heq
  · rcases roundHE_cases x with h1 | h1 <;> rcases roundHE_cases y with h2 | h2 <;> omega
  · unfold roundHE
    rw [heq]
    split_ifs <;> first | omega | (exfalso; linarith)

theorem roundHE_mem {x : K} {a b : ℤ} (h1 : (a : K) ≤ x) (h2 : x ≤ b) : a ≤ roundHE x ∧ roundHE x ≤ b := by
  constructor
  · have := roundHE_mono h1; rwa [roundHE_intCast] at this
  · have := roundHE_mono h2; rwa [roundHE_intCast] at this

end
end Neorl

import Verif.Refs

/-!
# C32: the reference points of NSGA-III
-/

set_option linter.unusedSectionVars false
set_option linter.unusedVariables false

namespace Neorl.ND

section
variable {K : Type} [Field K] [LinearOrder K] [IsStrictOrderedRing K]

theorem refPoints_eq {nobj p : ℕ} (hn : nobj ≠ 0) (hp : p ≠ 0) :
    refPoints (K := K) nobj p none = .ok ((comps (nobj - 1) p).map fun c => c.map fun n : ℕ => (n : K) / (p : K)) := by
  obtain ⟨m, rfl⟩ : ∃ m, nobj = m + 1 := ⟨nobj - 1, by omega⟩
  rw [refPoints, if_neg hp]
  simp only
  rw [genRefs_eq _ _ _ _ _ (by simp)]
  simp

/-- The points are exactly the vectors of `nobj` multiples of `1/p` with sum one, each listed once; there are `C(p + nobj - 1, nobj - 1)`. -/
theorem C32_points {nobj p : ℕ} (hn : nobj ≠ 0) (hp : p ≠ 0) : ∃ pts : List (List K), refPoints nobj p none = .ok pts ∧ pts.Nodup ∧
    pts.length = (p + nobj - 1).choose (nobj - 1) ∧
    ∀ v, v ∈ pts ↔ ∃ c : List ℕ, c.length = nobj ∧ c.sum = p ∧ v = c.map fun n : ℕ => (n : K) / (p : K) := by
  have hp' : (p : K) ≠ 0 := by exact_mod_cast hp
  refine ⟨_, refPoints_eq hn hp, ?_, ?_, ?_⟩
  · refine (comps_nodup _ _).map ?_
    intro a b hab
    refine List.map_injective_iff.2 ?_ hab
    intro x y hxy
    have : (x : K) = (y : K) := by
      have h := congrArg (fun z => z * (p : K)) hxy
      simpa [hp'] using h
    exact_mod_cast this
  · rw [List.length_map, length_comps, show p + (nobj - 1) = p + nobj - 1 by omega]
  · intro v
    rw [List.mem_map]
    constructor
    · rintro ⟨c, hc, rfl⟩
      obtain ⟨h1, h2⟩ := mem_comps.1 hc
      exact ⟨c, by omega, h2, rfl⟩
    · rintro ⟨c, h1, h2, rfl⟩
      exact ⟨c, mem_comps.2 ⟨by omega, h2⟩, rfl⟩

theorem sum_map_affine (l : List K) (s b : K) : (l.map fun x => x * s + b).sum = l.sum * s + (l.length : K) * b := by
  induction l with
  | nil => simp
  | cons a l ih => rw [List.map_cons, List.sum_cons, ih, List.sum_cons, List.length_cons]; push_cast; ring

theorem comp_simplex {c : List ℕ} {p : ℕ} (hp : p ≠ 0) (h : c.sum = p) :
    (c.map fun n : ℕ => (n : K) / (p : K)).sum = 1 ∧ ∀ x ∈ c.map (fun n : ℕ => (n : K) / (p : K)), 0 ≤ x := by
  have hp' : (p : K) ≠ 0 := by exact_mod_cast hp
  constructor
  · have : ∀ c : List ℕ, (c.map fun n : ℕ => (n : K) / (p : K)).sum = (c.sum : K) / (p : K) := by
      intro c
      induction c with
      | nil => simp
      | cons a c ih => rw [List.map_cons, List.sum_cons, ih, List.sum_cons]; push_cast; ring
    rw [this, h, div_self hp']
  · intro x hx
    obtain ⟨n, _, rfl⟩ := List.mem_map.1 hx
    exact div_nonneg (Nat.cast_nonneg n) (Nat.cast_nonneg p)

/-- Every point has `nobj` non-negative coordinates with sum one. -/
theorem C32_simplex {nobj p : ℕ} {pts : List (List K)} (h : refPoints nobj p none = .ok pts) :
    ∀ v ∈ pts, v.length = nobj ∧ v.sum = 1 ∧ ∀ x ∈ v, 0 ≤ x := by
  by_cases hp : p = 0
  · rw [refPoints.eq_def, if_pos hp] at h; cases h
  by_cases hn : nobj = 0
  · subst hn; rw [refPoints.eq_def, if_neg hp] at h; cases h
  rw [refPoints_eq hn hp] at h
  cases h
  intro v hv
  obtain ⟨c, hc, rfl⟩ := List.mem_map.1 hv
  obtain ⟨h1, h2⟩ := mem_comps.1 hc
  obtain ⟨h3, h4⟩ := comp_simplex (K := K) hp h2
  exact ⟨by rw [List.length_map]; omega, h3, h4⟩

/-- With a scaling factor the points stay on the plane of sum one, and in the simplex when the factor is between 0 and 1. -/
theorem C32_scaling {nobj p : ℕ} {s : K} {pts : List (List K)} (h : refPoints nobj p (some s) = .ok pts) :
    ∀ v ∈ pts, v.length = nobj ∧ v.sum = 1 ∧ (0 ≤ s → s ≤ 1 → ∀ x ∈ v, 0 ≤ x) := by
  by_cases hp : p = 0
  · rw [refPoints.eq_def, if_pos hp] at h; cases h
  rw [refPoints.eq_def, if_neg hp] at h
  cases nobj with
  | zero => cases h
  | succ m =>
    simp only at h
    rw [genRefs_eq _ _ _ _ _ (by simp)] at h
    cases h
    intro v hv
    simp only [List.map_map, List.mem_map, Function.comp] at hv
    obtain ⟨c, hc, rfl⟩ := hv
    obtain ⟨h1, h2⟩ := mem_comps.1 hc
    obtain ⟨h3, h4⟩ := comp_simplex (K := K) hp h2
    simp only [List.take_zero, List.nil_append]
    refine ⟨by rw [List.length_map, List.length_map]; omega, ?_, ?_⟩
    · rw [sum_map_affine, h3, List.length_map, h1]
      have : ((m + 1 : ℕ) : K) ≠ 0 := by exact_mod_cast Nat.succ_ne_zero m
      field_simp
      ring
    · intro hs0 hs1 x hx
      obtain ⟨y, hy, rfl⟩ := List.mem_map.1 hx
      have a := mul_nonneg (h4 y hy) hs0
      have b : 0 ≤ (1 - s) / ((m + 1 : ℕ) : K) := div_nonneg (by linarith) (Nat.cast_nonneg _)
      linarith

/-- `p = 0` divides by zero. -/
theorem C32_zero (nobj : ℕ) (s : Option K) : refPoints nobj 0 s = .error .zeroDivision := by rw [refPoints.eq_def, if_pos rfl]

end

/-! ### Example -/

example : refPoints (K := ℚ) 3 2 none = .ok [[0, 0, 1], [0, 1/2, 1/2], [0, 1, 0], [1/2, 0, 1/2], [1/2, 1/2, 0], [1, 0, 0]] := by decide +kernel

example : (2 + 3 - 1).choose (3 - 1) = 6 := by decide

example : refPoints (K := ℚ) 2 2 (some (1/2)) = .ok [[1/4, 3/4], [1/2, 1/2], [3/4, 1/4]] := by decide +kernel

end Neorl.ND

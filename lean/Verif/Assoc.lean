import Verif.Niche
import Mathlib.Algebra.BigOperators.Fin
import Mathlib.Algebra.Order.BigOperators.Group.Finset
import Mathlib.Algebra.BigOperators.Ring.Finset
import Mathlib.Tactic.FieldSimp
import Mathlib.Tactic.Positivity
import Mathlib.Tactic.Linarith
import Mathlib.Tactic.NormNum
import Mathlib.Tactic.FinCases

/-!
# Normalisation and association of NSGA-III

Model of `find_extreme_points`, `find_intercepts` and `associate_to_niche`, `neorl/multi/tools.py` lines 375-462, and of their use in
`NSGAIII.select`, `neorl/multi/nsgaIII.py` lines 132-147.  The fitness vectors have `m` entries.  `np.linalg.solve` is a parameter (`none` for
`LinAlgError`), so is the square root in `np.linalg.norm`.  The arguments `best_point`, `worst_point`, `extreme_points` of `select` are never passed
(line 291), so they are `None` here.
-/

set_option linter.unusedSectionVars false
set_option linter.unusedVariables false

namespace Neorl.ND

section
variable {K : Type} [Field K] [LinearOrder K] [IsStrictOrderedRing K] {m : ℕ}

/-- `np.min(fitnesses, axis=0)`, nsgaIII.py line 141. -/
def colMin (pop : List (Fin m → K)) (j : Fin m) : K := ((pop.map fun f => f j).min?).getD 0

/-- `np.max(fitnesses, axis=0)`, line 142; `front_worst` (line 145) is the maximum over the same rows. -/
def colMax (pop : List (Fin m → K)) (j : Fin m) : K := ((pop.map fun f => f j).max?).getD 0

/-- The achievement scalarising function of axis `j`, tools.py lines 390-395. -/
def asf (best : Fin m → K) (j : Fin m) (f : Fin m → K) : K :=
  (((List.finRange m).map fun i => (f i - best i) * if i = j then 1 else 1000000).max?).getD 0

/-- `find_extreme_points` for axis `j`, lines 397-399: the first row of least asf. -/
def extreme (pop : List (Fin m → K)) (best : Fin m → K) (j : Fin m) : Fin m → K :=
  match argminFirst (fun p => asf best j (pop.getD p 0)) (List.range pop.length) with
  | none => 0
  | some p => pop.getD p 0

/-- `find_intercepts`, lines 402-432; the first condition of the second `if` is `np.allclose(np.dot(A, x), b)` with `b = 1`. -/
def intercepts (solve : (Fin m → Fin m → K) → Option (Fin m → K)) (ext : Fin m → Fin m → K) (best worst : Fin m → K) : Fin m → K :=
  let A : Fin m → Fin m → K := fun i j => ext i j - best j
  match solve A with
  | none => worst
  | some x =>
    if ∃ j, x j = 0 then worst
    else if (¬ ∀ i, |(∑ j, A i j * x j) - 1| ≤ 1 / 100000000 + 1 / 100000) ∨ (∃ j, 1 / x j ≤ 1 / 1000000) ∨ ∃ j, worst j < 1 / x j + best j then worst
    else fun j => 1 / x j

/-- Line 449: `(fitnesses - best_point) / (intercepts - best_point)`; `none` if a denominator is zero: then every row of the distance matrix is `nan`
(0/0 in the rows with the best value; for the others the division gives `inf`, and `inf - inf` in the distances). -/
def normalise (best intr : Fin m → K) (f : Fin m → K) : Option (Fin m → K) :=
  if ∃ j, intr j = best j then none else some fun j => (f j - best j) / (intr j - best j)

/-- Lines 452-457, one entry of the distance matrix: the norm of `(fn · r / |r|) * r / |r| - fn`. -/
def perp (sqrt : K → K) (r fn : Fin m → K) : K :=
  let norm := sqrt (∑ j, r j * r j)
  sqrt (∑ j, ((∑ i, fn i * r i) / norm * r j / norm - fn j) * ((∑ i, fn i * r i) / norm * r j / norm - fn j))

/-- Lines 460-462, one individual: the first closest reference point and its distance.  On a row of `nan` `np.argmin` returns 0; the distance is `nan` for
everybody then, and `np.argmin` in `niching` takes the first individual, as it does for equal distances: the model puts 0. -/
def nearest (sqrt : K → K) (refs : List (Fin m → K)) (fn : Option (Fin m → K)) : ℕ × K :=
  match fn with
  | none => (0, 0)
  | some v =>
    match argminFirst (fun q => perp sqrt (refs.getD q 0) v) (List.range refs.length) with
    | none => (0, 0)
    | some q => (q, perp sqrt (refs.getD q 0) v)

/-- The intercepts used for a population (already multiplied by -1), lines 141-146 of nsgaIII.py. -/
def popIntercepts (solve : (Fin m → Fin m → K) → Option (Fin m → K)) (pop : List (Fin m → K)) : Fin m → K :=
  intercepts solve (extreme pop (colMin pop)) (colMin pop) (colMax pop)

/-- Lines 134-147: niche and distance of individual `p`; `vals` are the fitness vectors (maximised) in the order of the fronts. -/
def associate (m : ℕ) (solve : (Fin m → Fin m → K) → Option (Fin m → K)) (sqrt : K → K) (refs : List (Fin m → K)) (vals : List (List K)) (p : ℕ) : ℕ × K :=
  let pop : List (Fin m → K) := vals.map fun v j => v.getD j 0 * -1
  nearest sqrt refs (normalise (colMin pop) (popIntercepts solve pop) (pop.getD p 0))

/-! ### Lemmas -/

theorem min?_getD_spec {l : List K} (h : l ≠ []) : l.min?.getD 0 ∈ l ∧ ∀ x ∈ l, l.min?.getD 0 ≤ x := by
  cases e : l.min? with
  | none => exact absurd (List.min?_eq_none_iff.1 e) h
  | some a =>
    have := List.min?_eq_some_iff.1 e
    simpa using this

theorem max?_getD_spec {l : List K} (h : l ≠ []) : l.max?.getD 0 ∈ l ∧ ∀ x ∈ l, x ≤ l.max?.getD 0 := by
  cases e : l.max? with
  | none => exact absurd (List.max?_eq_none_iff.1 e) h
  | some a =>
    have := List.max?_eq_some_iff.1 e
    simpa using this

theorem colMin_spec {pop : List (Fin m → K)} (h : pop ≠ []) (j : Fin m) : (∃ f ∈ pop, f j = colMin pop j) ∧ ∀ f ∈ pop, colMin pop j ≤ f j := by
  have := min?_getD_spec (l := pop.map fun f => f j) (by simpa using h)
  refine ⟨List.mem_map.1 this.1, fun f hf => this.2 _ (List.mem_map.2 ⟨f, hf, rfl⟩)⟩

theorem colMax_spec {pop : List (Fin m → K)} (h : pop ≠ []) (j : Fin m) : (∃ f ∈ pop, f j = colMax pop j) ∧ ∀ f ∈ pop, f j ≤ colMax pop j := by
  have := max?_getD_spec (l := pop.map fun f => f j) (by simpa using h)
  refine ⟨List.mem_map.1 this.1, fun f hf => this.2 _ (List.mem_map.2 ⟨f, hf, rfl⟩)⟩

theorem asf_spec (best : Fin m → K) (j : Fin m) (f : Fin m → K) :
    (∃ i, (f i - best i) * (if i = j then 1 else 1000000) = asf best j f) ∧ ∀ i, (f i - best i) * (if i = j then 1 else 1000000) ≤ asf best j f := by
  have := max?_getD_spec (l := (List.finRange m).map fun i => (f i - best i) * if i = j then 1 else 1000000) (by
    intro h
    have h1 : j ∈ List.finRange m := List.mem_finRange j
    rw [List.map_eq_nil_iff] at h
    rw [h] at h1
    cases h1)
  refine ⟨?_, fun i => this.2 _ (List.mem_map.2 ⟨i, List.mem_finRange i, rfl⟩)⟩
  obtain ⟨i, _, hi⟩ := List.mem_map.1 this.1
  exact ⟨i, hi⟩

/-- `argminFirst` into a range is the first minimum. -/
theorem argminFirst_first {d : ℕ → K} {l : List ℕ} (hs : l.Pairwise (· < ·)) {x : ℕ} (h : argminFirst d l = some x) : ∀ y ∈ l, y < x → d x < d y := by
  induction l generalizing x with
  | nil => cases h
  | cons a l ih =>
    rw [List.pairwise_cons] at hs
    simp only [argminFirst] at h
    cases e : argminFirst d l with
    | none =>
      rw [e] at h
      simp only [Option.some.injEq] at h
      subst h
      intro y hy hlt
      rcases List.mem_cons.1 hy with rfl | hy
      · omega
      · exact absurd (hs.1 y hy) (by omega)
    | some b =>
      rw [e] at h
      simp only at h
      split_ifs at h with hb
      · simp only [Option.some.injEq] at h
        subst h
        intro y hy hlt
        rcases List.mem_cons.1 hy with rfl | hy
        · exact hb
        · exact ih hs.2 e y hy hlt
      · simp only [Option.some.injEq] at h
        subst h
        intro y hy hlt
        rcases List.mem_cons.1 hy with rfl | hy
        · omega
        · exact absurd (hs.1 y hy) (by omega)

theorem extreme_spec {pop : List (Fin m → K)} (h : pop ≠ []) (best : Fin m → K) (j : Fin m) :
    extreme pop best j ∈ pop ∧ ∀ f ∈ pop, asf best j (extreme pop best j) ≤ asf best j f := by
  obtain ⟨p, hp⟩ := argminFirst_isSome (d := fun p => asf best j (pop.getD p 0)) (l := List.range pop.length) (by
    intro h0
    rw [List.range_eq_nil] at h0
    exact h (List.length_eq_zero_iff.1 h0))
  obtain ⟨h1, h2⟩ := argminFirst_spec hp
  have hl := List.mem_range.1 h1
  unfold extreme
  rw [hp]
  refine ⟨?_, ?_⟩
  · show pop.getD p 0 ∈ pop
    rw [List.getD_eq_getElem?_getD, List.getElem?_eq_getElem hl]
    exact List.getElem_mem _
  · intro f hf
    obtain ⟨q, hq, rfl⟩ := List.mem_iff_getElem.1 hf
    have := h2 q (List.mem_range.2 hq)
    rw [List.getD_eq_getElem?_getD (i := q), List.getElem?_eq_getElem hq] at this
    exact this

end

end Neorl.ND

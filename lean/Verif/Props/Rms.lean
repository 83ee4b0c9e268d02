import Verif.Rms
import Mathlib.Tactic.LinearCombination

/-!
# C48: the running statistics are the statistics of everything seen

The state after any stream of batches is compared with the pooled stream `bs.flatten`, the initial pseudo-count `eps` acting as
`eps` data points of mean 0 and variance 1.
-/

set_option linter.unusedSectionVars false
set_option linter.unusedVariables false

namespace Neorl.Rms

section
variable {K : Type} [Field K] [LinearOrder K] [IsStrictOrderedRing K]

/-- The pooled first and second moments determine a state. -/
structure Pooled (eps : K) (data : List K) (s : State K) : Prop where
  count : s.count = eps + data.length
  mean : s.count * s.mean = data.sum
  var : s.count * (s.var + s.mean ^ 2) = eps + (data.map (fun x => x ^ 2)).sum

theorem pooled_update {eps : K} (he : 0 ≤ eps) {data l : List K} {s : State K} (hs : Pooled eps data s) (hl : l ≠ []) : Pooled eps (data ++ l) (update s l) := by
  have hlen : (0 : K) < l.length := by
    have := List.length_pos_iff.2 hl
    exact_mod_cast this
  have hc0 : 0 ≤ s.count := by
    rw [hs.count]
    positivity
  have ht : s.count + (l.length : K) ≠ 0 := by positivity
  have ht' : (l.length : K) + s.count ≠ 0 := by positivity
  have hm : (l.length : K) * npMean l = l.sum := by
    unfold npMean
    field_simp
  have hv : (l.length : K) * (npVar l + npMean l ^ 2) = (l.map (fun x => x ^ 2)).sum := by
    rw [npVar_eq hl]
    field_simp
    ring
  refine ⟨?_, ?_, ?_⟩
  · show (l.length : K) + s.count = _
    rw [hs.count]
    simp only [List.length_append, Nat.cast_add]
    ring
  · show ((l.length : K) + s.count) * (s.mean + (npMean l - s.mean) * l.length / (s.count + l.length)) = _
    rw [List.sum_append, ← hs.mean, ← hm]
    field_simp
    ring
  · show ((l.length : K) + s.count) * ((s.var * s.count + npVar l * l.length + (npMean l - s.mean) ^ 2 * s.count * l.length / (s.count + l.length)) / (s.count + l.length) +
        (s.mean + (npMean l - s.mean) * l.length / (s.count + l.length)) ^ 2) = _
    rw [List.map_append, List.sum_append, ← add_assoc, ← hs.var, ← hv]
    field_simp
    ring

theorem pooled_run {eps : K} (he : 0 ≤ eps) : ∀ (bs : List (List K)) (data : List K) (s : State K), Pooled eps data s → (∀ b ∈ bs, b ≠ []) →
    Pooled eps (data ++ bs.flatten) (bs.foldl update s)
  | [], data, s, hs, _ => by simpa using hs
  | b :: bs, data, s, hs, hne => by
    have := pooled_run he bs (data ++ b) (update s b) (pooled_update he hs (hne b List.mem_cons_self)) (fun x hx => hne x (List.mem_cons_of_mem _ hx))
    simpa [List.append_assoc] using this

theorem run_pooled {eps : K} (he : 0 ≤ eps) (bs : List (List K)) (hne : ∀ b ∈ bs, b ≠ []) : Pooled eps bs.flatten (run eps bs) := by
  have : Pooled eps [] (init eps) := ⟨by simp [init], by simp [init], by simp [init]⟩
  unfold run
  simpa using pooled_run he bs [] (init eps) this hne

/-- **C48.** After any stream of non-empty batches: the count is the pseudo-count plus the number of points, the mean is the sum of all points over the count, and the
variance is the mean squared deviation of all points, the `eps` pseudo-points (mean 0, variance 1) included. -/
theorem C48_statistics {eps : K} (he : 0 ≤ eps) (bs : List (List K)) (hne : ∀ b ∈ bs, b ≠ []) (hpos : 0 < eps ∨ bs ≠ []) :
    let data := bs.flatten
    let s := run eps bs
    0 < s.count ∧ s.count = eps + data.length ∧ s.mean = data.sum / (eps + data.length) ∧
    s.var = (eps * (1 + s.mean ^ 2) + (data.map (fun x => (x - s.mean) ^ 2)).sum) / (eps + data.length) := by
  dsimp only
  have h := run_pooled he bs hne
  have hc : 0 < (run eps bs).count := by
    rw [h.count]
    rcases hpos with h0 | h0
    · positivity
    · cases bs with
      | nil => exact absurd rfl h0
      | cons b bs =>
        have : 0 < (b :: bs).flatten.length := by
          have := List.length_pos_iff.2 (hne b List.mem_cons_self)
          simp only [List.flatten_cons, List.length_append]
          omega
        have : (0 : K) < ((b :: bs).flatten.length : K) := by exact_mod_cast this
        linarith
  refine ⟨hc, h.count, ?_, ?_⟩
  · rw [← h.count, eq_div_iff hc.ne', mul_comm]
    exact h.mean
  · rw [← h.count, eq_div_iff hc.ne', sum_sq_dev]
    have h1 := h.count
    have h2 := h.mean
    have h3 := h.var
    have h4 : (bs.flatten.length : K) = (run eps bs).count - eps := by linarith
    rw [h4, ← h2]
    linear_combination h3

/-- **C48.** The state depends only on the multiset of points seen, not on how they were split or ordered. -/
theorem C48_split_independent {eps : K} (he : 0 < eps) (bs bs' : List (List K)) (hne : ∀ b ∈ bs, b ≠ []) (hne' : ∀ b ∈ bs', b ≠ []) (hp : bs.flatten.Perm bs'.flatten) :
    run eps bs = run eps bs' := by
  have h1 := run_pooled he.le bs hne
  have h2 := run_pooled he.le bs' hne'
  obtain ⟨c1, -⟩ := C48_statistics he.le bs hne (Or.inl he)
  have hcount : (run eps bs').count = (run eps bs).count := by rw [h1.count, h2.count, hp.length_eq]
  have hmean : (run eps bs').mean = (run eps bs).mean := by
    have e1 := h1.mean
    have e2 := h2.mean
    rw [← hp.sum_eq, ← e1, hcount] at e2
    exact mul_left_cancel₀ c1.ne' e2
  have hvar : (run eps bs').var = (run eps bs).var := by
    have e1 := h1.var
    have e2 := h2.var
    rw [← (hp.map (fun x => x ^ 2)).sum_eq, ← e1, hcount, hmean] at e2
    exact add_right_cancel (mul_left_cancel₀ c1.ne' e2)
  cases h : run eps bs
  cases h' : run eps bs'
  rw [h, h'] at hcount hmean hvar
  simp only at hcount hmean hvar
  rw [hcount, hmean, hvar]

/-- **C48.** Without pseudo-count the state is exactly numpy's mean and variance of the pooled data. -/
theorem C48_no_prior (bs : List (List K)) (hne : ∀ b ∈ bs, b ≠ []) (h0 : bs ≠ []) :
    (run 0 bs).mean = npMean bs.flatten ∧ (run 0 bs).var = npVar bs.flatten ∧ (run 0 bs).count = bs.flatten.length := by
  obtain ⟨h1, h2, h3, h4⟩ := C48_statistics le_rfl bs hne (Or.inr h0)
  simp only [zero_add, zero_mul] at h2 h3 h4
  refine ⟨h3, ?_, h2⟩
  rw [h4, h3]
  rfl

/-- **C48.** The variance is never negative, and is positive whenever the pseudo-count is. -/
theorem C48_var_pos {eps : K} (he : 0 ≤ eps) (bs : List (List K)) (hne : ∀ b ∈ bs, b ≠ []) :
    0 ≤ (run eps bs).var ∧ (0 < eps → 0 < (run eps bs).var) := by
  have hsq : ∀ m : K, 0 ≤ (bs.flatten.map (fun x => (x - m) ^ 2)).sum := by
    intro m
    apply List.sum_nonneg
    intro y hy
    obtain ⟨x, _, rfl⟩ := List.mem_map.1 hy
    positivity
  constructor
  · by_cases hp : 0 < eps ∨ bs ≠ []
    · obtain ⟨h1, h2, h3, h4⟩ := C48_statistics he bs hne hp
      rw [h4, ← h2]
      have := hsq (run eps bs).mean
      positivity
    · push Not at hp
      rw [hp.2]
      simp [run, init]
  · intro hp
    obtain ⟨h1, h2, h3, h4⟩ := C48_statistics he bs hne (Or.inl hp)
    rw [h4, ← h2]
    have := hsq (run eps bs).mean
    positivity

/-- **C48.** The running mean is the sample mean shrunk towards zero by the pseudo-count, so it differs from it by the factor `eps / (eps + n)` only. -/
theorem C48_mean_shrinks {eps : K} (he : 0 < eps) (bs : List (List K)) (hne : ∀ b ∈ bs, b ≠ []) :
    npMean bs.flatten - (run eps bs).mean = eps / (eps + bs.flatten.length) * npMean bs.flatten := by
  obtain ⟨h1, h2, h3, h4⟩ := C48_statistics he.le bs hne (Or.inl he)
  rw [h3]
  unfold npMean
  by_cases h : bs.flatten = []
  · rw [h]; simp
  · have : (0 : K) < bs.flatten.length := by
      have := List.length_pos_iff.2 h
      exact_mod_cast this
    field_simp
    ring

end

/-- The hypotheses hold for a stream of three batches; its statistics are those of the pooled data. -/
example : (∀ b ∈ ([[1, 2], [4], [3, 5, 9]] : List (List ℚ)), b ≠ []) ∧ (run (1 / 2 : ℚ) [[1, 2], [4], [3, 5, 9]]).mean = 24 / (13 / 2) ∧
    (run (1 / 2 : ℚ) [[1, 2], [4], [3, 5, 9]]).mean = (run (1 / 2 : ℚ) [[9, 1, 2, 5], [3, 4]]).mean ∧ (run (0 : ℚ) [[1, 2], [4], [3, 5, 9]]).var = 20 / 3 := by decide +kernel

end Neorl.Rms

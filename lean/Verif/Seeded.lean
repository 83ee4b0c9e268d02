import Verif.Memory

/-!
# Which samples the prioritised replay draws

Model of the `'prior'` branch of `ExperienceReplay.sample`, `neorl/hybrid/pesacore/er.py` lines 120 and 139-143, down to the indices.  The branch calls
`np.random.seed(seed)`, and no caller passes `seed`, so it is the default 1: the uniform numbers behind `np.random.choice` are the same in every call.
`stream` is that sequence.  `np.random.choice(range(n), p=p, size=k)` compares them with the cumulative sums of `p`
(`cdf = p.cumsum(); cdf /= cdf[-1]; cdf.searchsorted(u, side='right')`).
-/

set_option linter.unusedSectionVars false
set_option linter.unusedVariables false

namespace Neorl.ER

section
variable {K : Type} [Field K] [LinearOrder K] [IsStrictOrderedRing K]

/-- `p.cumsum()`, with the sum so far. -/
def cumsum : K → List K → List K
  | _, [] => []
  | a, p :: ps => (a + p) :: cumsum (a + p) ps

/-- `cdf.searchsorted(u, side='right')`: the number of leading entries `≤ u`. -/
def searchRight (u : K) : List K → ℕ
  | [] => 0
  | v :: vs => if v ≤ u then searchRight u vs + 1 else 0

/-- One index of `np.random.choice`. -/
def choiceIdx (ps : List K) (u : K) : ℕ :=
  let cdf := cumsum 0 ps
  searchRight u (cdf.map fun v => v / cdf.getLastD 1)

/-- `sample(batch_size, mode='prior', alpha)`, `er.py` lines 139-143, with the reseeded generator. -/
def sampleSeeded (pw : K → K) (stream : ℕ → K) (m : Mem (Sample K)) (batch : ℕ) : Py (Mem (Sample K) × List (Sample K)) :=
  match priorities pw m.storage.length with
  | .error e => .error e
  | .ok ps => samplePrior objOf pw m ((List.range batch).map fun i => choiceIdx ps (stream i))

/-! ### Lemmas -/

theorem sampleSeeded_ok {pw : K → K} {stream : ℕ → K} {m m' : Mem (Sample K)} {batch : ℕ} {xs : List (Sample K)}
    (h : sampleSeeded pw stream m batch = .ok (m', xs)) :
    m' = sortMem objOf m ∧ xs.length = batch ∧ ∀ x ∈ xs, x ∈ m.storage := by
  unfold sampleSeeded at h
  split at h
  · cases h
  · obtain ⟨a, b, c⟩ := samplePrior_ok h
    exact ⟨a, by simpa using b, c⟩

theorem length_cumsum (a : K) (ps : List K) : (cumsum a ps).length = ps.length := by
  induction ps generalizing a with
  | nil => rfl
  | cons p ps ih => simp [cumsum, ih]

theorem cumsum_last (a : K) (ps : List K) (h : ps ≠ []) (d : K) : (cumsum a ps).getLastD d = a + ps.sum := by
  induction ps generalizing a d with
  | nil => exact absurd rfl h
  | cons p ps ih =>
    cases ps with
    | nil => simp [cumsum]
    | cons q qs =>
      have := ih (a + p) (by simp) (a + p)
      simp only [cumsum, List.getLastD_cons, List.sum_cons] at this ⊢
      rw [this]; ring

theorem searchRight_lt {u : K} {l : List K} (h : l ≠ []) (hl : ∀ d, u < l.getLastD d) : searchRight u l < l.length := by
  induction l with
  | nil => exact absurd rfl h
  | cons v vs ih =>
    simp only [searchRight]
    split_ifs with hv
    · cases vs with
      | nil =>
        have := hl u
        simp at this
        exact absurd hv (not_le.2 this)
      | cons w ws =>
        have := ih (by simp) (fun d => by have := hl d; simpa [List.getLastD_cons] using this)
        simp only [List.length_cons] at this ⊢
        omega
    · simp

theorem choiceIdx_lt {ps : List K} (h1 : ps.sum = 1) {u : K} (hu : u < 1) : choiceIdx ps u < ps.length := by
  have hne : ps ≠ [] := by rintro rfl; simp at h1
  have hl := cumsum_last 0 ps hne 1
  rw [zero_add, h1] at hl
  unfold choiceIdx
  simp only [hl, div_one, List.map_id']
  have := searchRight_lt (u := u) (l := cumsum 0 ps) (by
    intro h0
    have := congrArg List.length h0
    rw [length_cumsum] at this
    exact hne (List.length_eq_zero_iff.1 this)) (by
    intro d
    rw [cumsum_last 0 ps hne d, h1, zero_add]; exact hu)
  rwa [length_cumsum] at this

theorem priorities_sum {pw : K → K} {n : ℕ} {ps : List K} (h : priorities pw n = .ok ps) : ps.sum = 1 ∧ ps.length = n := by
  unfold priorities at h
  simp only at h
  split at h
  · rename_i h1
    cases h
    exact ⟨h1, by simp⟩
  · cases h

end

end Neorl.ER

import Verif.NDSort

/-!
# C28: the standard non-dominated sort ranks by the longest dominating chain
-/

set_option linter.unusedSectionVars false
set_option linter.unusedVariables false

namespace Neorl.ND

section
variable {K : Type} [LinearOrder K]

/-- The comparison used by the sort is Pareto dominance on the common coordinates. -/
theorem C28_dominance (a b : List K) : isDominated a b = true ↔ Dominates b a := isDominated_iff a b

/-- Dominance is a strict partial order on vectors of one length. -/
theorem C28_order {a b c : List K} (hab : a.length = b.length) (hbc : b.length = c.length) :
    ¬ Dominates a a ∧ (Dominates a b → ¬ Dominates b a) ∧ (Dominates a b → Dominates b c → Dominates a c) :=
  ⟨Dominates.irrefl a, Dominates.asymm, Dominates.trans hab hbc⟩

/-- The sort terminates, and its fronts are exactly the rank classes, up to the first front that brings the number of individuals to
`min k n`. -/
theorem C28_sort {vals : List (List K)} (hl : SameLen vals) {k : ℕ} (hk : k ≠ 0) :
    ∃ fronts, sortNondominated vals k = .ok fronts ∧ FrontsSpec vals k fronts := sortNondominated_spec hl hk

/-- With `k` at least the population size every individual lies in exactly one front, and in it once. -/
theorem C28_partition {vals : List (List K)} (hl : SameLen vals) {k : ℕ} (hk : k ≠ 0) (hn : vals.length ≤ k) {fronts : List (List ℕ)}
    (h : sortNondominated vals k = .ok fronts) : fronts.flatten.Perm (List.range vals.length) := by
  obtain ⟨f, h1, hs⟩ := sortNondominated_spec hl hk
  rw [h] at h1
  cases h1
  have hnd := fronts_flatten_nodup hs.mem hs.nodup
  have hsub : fronts.flatten ⊆ List.range vals.length := by
    intro i hi
    obtain ⟨r, _, hr⟩ := (mem_flatten_iff hs.mem i).1 hi
    exact List.mem_range.2 hr.lt
  refine (List.subperm_of_subset hnd hsub).perm_of_length_le ?_
  have := hs.enough
  rw [List.length_range]
  omega

/-- Whatever `k` is, no individual is listed twice. -/
theorem C28_nodup {vals : List (List K)} (hl : SameLen vals) {k : ℕ} {fronts : List (List ℕ)} (h : sortNondominated vals k = .ok fronts) :
    fronts.flatten.Nodup ∧ ∀ i ∈ fronts.flatten, i < vals.length := by
  by_cases hk : k = 0
  · rw [sortNondominated, if_pos hk] at h
    cases h
    simp
  obtain ⟨f, h1, hs⟩ := sortNondominated_spec hl hk
  rw [h] at h1
  cases h1
  refine ⟨fronts_flatten_nodup hs.mem hs.nodup, ?_⟩
  intro i hi
  obtain ⟨r, _, hr⟩ := (mem_flatten_iff hs.mem i).1 hi
  exact hr.lt

/-- Nobody in a front dominates a member of the same or of an earlier front. -/
theorem C28_front_incomparable {vals : List (List K)} (hl : SameLen vals) {k : ℕ} {fronts : List (List ℕ)}
    (h : sortNondominated vals k = .ok fronts) (a b : ℕ) (f g : List ℕ) (hab : a ≤ b) (hf : fronts[a]? = some f) (hg : fronts[b]? = some g) :
    ∀ i ∈ f, ∀ j ∈ g, ¬ Dominates (val vals j) (val vals i) := by
  by_cases hk : k = 0
  · rw [sortNondominated, if_pos hk] at h
    cases h
    simp at hf
  obtain ⟨f', h1, hs⟩ := sortNondominated_spec hl hk
  rw [h] at h1
  cases h1
  intro i hi j hj hd
  have ri := (hs.mem a f hf i).1 hi
  have rj := (hs.mem b g hg j).1 hj
  have := rj.lt_of_dom ⟨rj.lt, ri.lt, hd⟩ ri
  omega

/-- Every member of front `r + 1` is dominated by a member of front `r`. -/
theorem C28_front_dominated {vals : List (List K)} (hl : SameLen vals) {k : ℕ} {fronts : List (List ℕ)}
    (h : sortNondominated vals k = .ok fronts) (r : ℕ) (f g : List ℕ) (hf : fronts[r]? = some f) (hg : fronts[r + 1]? = some g) :
    ∀ j ∈ g, ∃ i ∈ f, Dominates (val vals i) (val vals j) := by
  by_cases hk : k = 0
  · rw [sortNondominated, if_pos hk] at h
    cases h
    simp at hf
  obtain ⟨f', h1, hs⟩ := sortNondominated_spec hl hk
  rw [h] at h1
  cases h1
  intro j hj
  obtain ⟨⟨i, hi, hr⟩, _⟩ := (rank_succ_iff hl).1 ((hs.mem _ g hg j).1 hj)
  exact ⟨i, (hs.mem r f hf i).2 hr, hi.2.2⟩

/-- Every individual has exactly one rank, and it is smaller than the population size. -/
theorem C28_rank {vals : List (List K)} (hl : SameLen vals) {i : ℕ} (hi : i < vals.length) : ∃! r, Rank vals i r ∧ r < vals.length := by
  obtain ⟨r, hr⟩ := rank_exists hl hi
  exact ⟨r, ⟨hr, hr.1.lt_length hl⟩, fun s hs => hs.1.unique hr⟩

/-- With `first_front_only` the result is the front of the individuals nobody dominates. -/
theorem C28_first_front {vals : List (List K)} {k : ℕ} (hk : k ≠ 0) :
    ∃ f, firstFront vals k = [f] ∧ f.Nodup ∧ ∀ i, i ∈ f ↔ i < vals.length ∧ ∀ j < vals.length, ¬ Dominates (val vals j) (val vals i) := by
  obtain ⟨_, _, h3, h4⟩ := rows_done vals
  refine ⟨_, by rw [firstFront, if_neg hk], h4, ?_⟩
  intro i
  rw [h3, rank_zero_iff]
  constructor
  · rintro ⟨hi, h⟩
    exact ⟨hi, fun j hj hd => h j ⟨hj, hi, hd⟩⟩
  · rintro ⟨hi, h⟩
    exact ⟨hi, fun j hj => h j hj.1 hj.2.2⟩

end

/-! ### Example: seven individuals, two of them with equal fitness -/

def exVals : List (List ℚ) := [[3, 3], [4, 2], [2, 4], [3, 3], [2, 2], [1, 1], [0, 5]]

example : SameLen exVals := ⟨2, by decide⟩

example : sortNondominated exVals 7 = .ok [[0, 1, 2, 3, 6], [4], [5]] := by decide +kernel

example : sortNondominated exVals 3 = .ok [[0, 1, 2, 3, 6]] := by decide +kernel

example : Dominates (val exVals 0) (val exVals 4) ∧ ¬ Dominates (val exVals 0) (val exVals 3) := by decide +kernel

end Neorl.ND

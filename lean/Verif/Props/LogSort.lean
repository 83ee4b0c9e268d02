import Verif.LogSort

/-!
# C29: the divide-and-conquer sort gives the fronts of the standard sort
-/

set_option linter.unusedSectionVars false
set_option linter.unusedVariables false

namespace Neorl.ND

section
variable {K : Type} [Field K] [LinearOrder K] [IsStrictOrderedRing K]

/-- The recursion ends, and its fronts are the rank classes (longest dominating chain), cut where `k` individuals are reached. -/
theorem C29_log_sort {vals : List (List K)} {m : ℕ} (hm : 1 ≤ m) (hv : ∀ v ∈ vals, v.length = m + 1) (hne : vals ≠ []) {k : ℕ} (hk : k ≠ 0) :
    ∃ fronts, sortLog vals k = .ok fronts ∧ FrontsSpec vals k fronts := by
  obtain ⟨out, h1, h2, _⟩ := sortLog_spec hm hv hne hk
  exact ⟨out, h1, h2⟩

/-- For two or more objectives both sorts return the same number of fronts, and the same individuals in every front. -/
theorem C29_same_fronts {vals : List (List K)} {m : ℕ} (hm : 1 ≤ m) (hv : ∀ v ∈ vals, v.length = m + 1) (hne : vals ≠ []) (k : ℕ) :
    ∃ a b, sortNondominated vals k = .ok a ∧ sortLog vals k = .ok b ∧ a.length = b.length ∧ List.Forall₂ List.Perm a b := by
  by_cases hk : k = 0
  · refine ⟨[], [], ?_, ?_, rfl, List.Forall₂.nil⟩
    · rw [sortNondominated, if_pos hk]
    · rw [sortLog, if_pos hk]
  obtain ⟨b, h1, h2, hb0⟩ := sortLog_spec hm hv hne hk
  obtain ⟨a, h3, h4⟩ := sortNondominated_spec (vals := vals) ⟨m + 1, hv⟩ hk
  have ha0 : a ≠ [] := by
    intro h
    have := h4.enough
    have hpos : 0 < vals.length := List.length_pos_iff.2 hne
    rw [h, List.flatten_nil, List.length_nil] at this
    omega
  obtain ⟨h5, h6⟩ := h4.agree h2 ha0 hb0
  exact ⟨a, b, h3, h1, h5, h6⟩

/-- `sortNDHelperA` alone: started from any front numbers `g` on distinct vectors in descending lexicographic order, it returns the least numbers
that are at least `g` and greater than the numbers of all dominating vectors; other entries are untouched. -/
theorem C29_helperA {n : ℕ} (l : List (List K)) (obj : ℕ) (g : Front K) (h1 : 1 ≤ obj) (h2 : obj < n) (hd : Desc n l) (ha : Apart obj l) :
    ∃ g', helperA (obj + l.length) l obj g = .ok g' ∧ LevA obj l g g' := helperA_spec _ l obj g h1 h2 hd ha (le_refl _)

/-- `sortNDHelperB` alone. -/
theorem C29_helperB {n : ℕ} (best worst : List (List K)) (obj : ℕ) (g : Front K) (h1 : 1 ≤ obj) (h2 : obj < n) (hb : Desc n best) (hw : Desc n worst)
    (hdis : ∀ l ∈ best, l ∉ worst) : ∃ g', helperB (obj + best.length + worst.length) best worst obj g = .ok g' ∧ LevB obj best worst g g' :=
  helperB_spec _ best worst obj g h1 h2 hb hw hdis (le_refl _)

/-- The empty population raises in this sort and not in the standard one. -/
theorem C29_empty {k : ℕ} (hk : k ≠ 0) : sortLog ([] : List (List K)) k = .error .indexError ∧ sortNondominated ([] : List (List K)) k = .ok [[]] := by
  refine ⟨by rw [sortLog, if_neg hk, if_pos rfl], ?_⟩
  rw [sortNondominated, if_neg hk]
  simp [rows, loop]

end

/-! ### Example: three objectives, with ties and a duplicate -/

def exLog : List (List ℚ) :=
  [[3, 3, 1], [4, 2, 1], [2, 4, 1], [3, 3, 1], [2, 2, 0], [1, 1, 0], [0, 5, 2], [2, 2, 1], [0, 0, 3], [1, 1, 1], [0, 4, 2], [2, 3, 0]]

example : ∀ v ∈ exLog, v.length = 2 + 1 := by decide

example : sortLog exLog 12 = .ok [[1, 0, 3, 2, 6, 8], [11, 7, 10], [4, 9], [5]] := by decide +kernel

example : sortNondominated exLog 12 = .ok [[0, 1, 2, 3, 6, 8], [7, 11, 10], [9, 4], [5]] := by decide +kernel

example : sortLog exLog 7 = .ok [[1, 0, 3, 2, 6, 8], [11, 7, 10]] := by decide +kernel

end Neorl.ND

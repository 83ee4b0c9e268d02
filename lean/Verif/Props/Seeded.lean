import Verif.Seeded
import Verif.Props.ER

/-!
# Property theorems C39, continued: the prioritised samples are not independent
-/

set_option linter.unusedSectionVars false
set_option linter.unusedVariables false

namespace Neorl.ER

section
variable {K : Type} [Field K] [LinearOrder K] [IsStrictOrderedRing K]

theorem gather_map_take {β : Type} {st : List β} {f : ℕ → ℕ} {b : ℕ} {xs : List β} (h : gather st ((List.range b).map f) = .ok xs) {a : ℕ}
    (hab : a ≤ b) : gather st ((List.range a).map f) = .ok (xs.take a) := by
  have key : ∀ (is : List ℕ) (xs : List β) (k : ℕ), gather st is = .ok xs → gather st (is.take k) = .ok (xs.take k) := by
    intro is
    induction is with
    | nil => intro xs k h; cases h; simp [gather]
    | cons i is ih =>
      intro xs k h
      simp only [gather] at h
      split at h
      · rename_i x xs' hx hxs
        cases h
        cases k with
        | zero => simp [gather]
        | succ k =>
          have := ih xs' k hxs
          simp [gather, hx, this]
      · cases h
      · cases h
  have := key _ _ a h
  rw [← List.map_take, List.take_range, Nat.min_eq_left hab] at this
  exact this

theorem searchRight_cumsum {u : K} {ps : List K} (hnn : ∀ p ∈ ps, 0 ≤ p) (a : K) (ha : a ≤ u) (hu : u < a + ps.sum) (k : ℕ) :
    searchRight u (cumsum a ps) = k ↔ a + (ps.take k).sum ≤ u ∧ u < a + (ps.take (k + 1)).sum := by
  induction ps generalizing a k with
  | nil => simp at hu; exact absurd hu (not_lt.2 ha)
  | cons p ps ih =>
    have hp := hnn p (by simp)
    have hnn' : ∀ q ∈ ps, 0 ≤ q := fun q hq => hnn q (by simp [hq])
    simp only [cumsum, searchRight]
    split_ifs with h
    · cases k with
      | zero => simp only [Nat.succ_ne_zero, false_iff, not_and, not_lt]; intro _; simpa using h
      | succ k =>
        have := ih hnn' (a + p) h (by simpa [add_assoc] using hu) k
        rw [Nat.add_right_cancel_iff, this, List.take_succ_cons, List.sum_cons, List.take_succ_cons, List.sum_cons]
        rw [add_assoc a p, add_assoc a p]
    · push Not at h
      cases k with
      | zero => simp; exact ⟨ha, h⟩
      | succ k =>
        simp only [List.take_succ_cons, List.sum_cons]
        constructor
        · intro h0; exact absurd h0 (by omega)
        · intro h0
          have hs : 0 ≤ (ps.take k).sum := List.sum_nonneg fun q hq => hnn' q (List.mem_of_mem_take hq)
          exact absurd h0.1 (not_le.2 (by linarith))

/-- **C39, a rank is drawn with its priority.** For non-negative priorities summing to 1 and a uniform number in `[0, 1)`, rank `k` is drawn exactly
when the number falls into the interval of length `p k` between the sums of the first `k` and the first `k + 1` priorities. -/
theorem C39_choice {ps : List K} (hnn : ∀ p ∈ ps, 0 ≤ p) (h1 : ps.sum = 1) {u : K} (hu : 0 ≤ u ∧ u < 1) (k : ℕ) :
    choiceIdx ps u = k ↔ (ps.take k).sum ≤ u ∧ u < (ps.take (k + 1)).sum := by
  have hne : ps ≠ [] := by rintro rfl; simp at h1
  have hl := cumsum_last 0 ps hne 1
  rw [zero_add, h1] at hl
  unfold choiceIdx
  simp only [hl, div_one, List.map_id']
  have := searchRight_cumsum hnn 0 hu.1 (by rw [h1, zero_add]; exact hu.2) k
  simpa using this

/-- **C39, sampling never raises** on a non-empty memory: for a positive non-decreasing power function and uniform numbers below 1 every
prioritised sample of any size is drawn, from stored samples. -/
theorem C39_seeded_total {pw : K → K} (hpos : ∀ r, 0 < r → 0 < pw r) (hmono : ∀ r s, 0 < r → r ≤ s → pw r ≤ pw s) {stream : ℕ → K}
    (hs : ∀ i, stream i < 1) {m : Mem (Sample K)} (hne : m.storage ≠ []) (batch : ℕ) :
    ∃ xs, sampleSeeded pw stream m batch = .ok (sortMem objOf m, xs) ∧ xs.length = batch ∧ ∀ x ∈ xs, x ∈ m.storage := by
  have hl : 0 < m.storage.length := List.length_pos_of_ne_nil hne
  have hl' : (sortMem objOf m).storage.length = m.storage.length := by simp [sortMem]
  obtain ⟨ps, hps, _⟩ := (C39_priorities hpos hmono m.storage.length).2 hl
  obtain ⟨e1, e2⟩ := priorities_sum hps
  obtain ⟨xs, hxs⟩ := gather_total (st := (sortMem objOf m).storage) (is := (List.range batch).map fun i => choiceIdx ps (stream i)) (by
    intro i hi
    obtain ⟨j, _, rfl⟩ := List.mem_map.1 hi
    rw [hl', ← e2]
    exact choiceIdx_lt e1 (hs j))
  have : sampleSeeded pw stream m batch = .ok (sortMem objOf m, xs) := by
    unfold sampleSeeded samplePrior
    simp only [hps, hl', hxs]
  exact ⟨xs, this, (sampleSeeded_ok this).2⟩

/-- **C39 (defect).** Because the generator is reseeded with the same number in every call, two prioritised samples of the same memory are not
independent draws: the smaller one is a prefix of the larger one. -/
theorem C39_same_samples {pw : K → K} {stream : ℕ → K} {m m1 m2 : Mem (Sample K)} {a b : ℕ} (hab : a ≤ b) {xs ys : List (Sample K)}
    (h1 : sampleSeeded pw stream m a = .ok (m1, xs)) (h2 : sampleSeeded pw stream m b = .ok (m2, ys)) : xs = ys.take a := by
  unfold sampleSeeded at h1 h2
  split at h1
  · cases h1
  rename_i ps hps
  rw [hps] at h2
  simp only at h2
  unfold samplePrior at h1 h2
  simp only at h1 h2
  split at h1
  · cases h1
  rename_i qs hqs
  rw [hqs] at h2
  simp only at h2
  split at h1
  · cases h1
  rename_i xs' hxs
  split at h2
  · cases h2
  rename_i ys' hys
  cases h1
  cases h2
  have := gather_map_take hys hab
  rw [hxs] at this
  cases this
  rfl

/-- **C39 (defect), the same samples again and again.** The samples drawn are a function of the ranks alone: from two memories of the same size, the same
ranks are drawn, whatever they hold. -/
theorem C39_same_ranks {pw : K → K} {stream : ℕ → K} {m m' m1 m2 : Mem (Sample K)} {b : ℕ} (hlen : m.storage.length = m'.storage.length)
    {xs ys : List (Sample K)} (h1 : sampleSeeded pw stream m b = .ok (m1, xs)) (h2 : sampleSeeded pw stream m' b = .ok (m2, ys)) :
    ∃ rank : ℕ → ℕ, ∀ i, i < b → xs[i]? = m1.storage[rank i]? ∧ ys[i]? = m2.storage[rank i]? ∧ rank i < m.storage.length := by
  have key : ∀ {st : List (Sample K)} {is : List ℕ} {zs : List (Sample K)}, gather st is = .ok zs →
      ∀ i k : ℕ, is[i]? = some k → zs[i]? = st[k]? ∧ k < st.length := by
    intro st is
    induction is with
    | nil => intro zs h i k hk; simp at hk
    | cons j is ih =>
      intro zs h i k hk
      simp only [gather] at h
      split at h
      · rename_i x xs' hx hxs
        cases h
        cases i with
        | zero =>
          simp at hk; subst hk
          exact ⟨by simp [hx], (List.getElem?_eq_some_iff.1 hx).1⟩
        | succ i => exact ih hxs i k (by simpa using hk)
      · cases h
      · cases h
  unfold sampleSeeded at h1 h2
  split at h1
  · cases h1
  rename_i ps hps
  rw [← hlen, hps] at h2
  simp only at h2
  unfold samplePrior at h1 h2
  simp only at h1 h2
  split at h1
  · cases h1
  rename_i qs hqs
  split at h2
  · cases h2
  rename_i qs' hqs'
  split at h1
  · cases h1
  rename_i xs' hxs
  split at h2
  · cases h2
  rename_i ys' hys
  cases h1
  cases h2
  refine ⟨fun i => choiceIdx ps (stream i), fun i hi => ?_⟩
  have hk : ((List.range b).map fun i => choiceIdx ps (stream i))[i]? = some (choiceIdx ps (stream i)) := by simp [hi]
  obtain ⟨a1, a2⟩ := key hxs i _ hk
  obtain ⟨b1, b2⟩ := key hys i _ hk
  exact ⟨a1, b1, by simpa [sortMem] using a2⟩

/-- Three samples of a memory with three entries, drawn twice: the hypotheses are met, and the batches repeat. -/
def exMem : Mem (Sample ℚ) := { size := 10, storage := [([1], 5, .na), ([2], 7, .na), ([3], 6, .na)], next := 3 }

def exStream (i : ℕ) : ℚ := [(4 / 10 : ℚ), 7 / 10, 1 / 1000].getD i (1 / 2)

example : (sampleSeeded (fun r => r) exStream exMem 2).toOption.map (fun r => r.2) = some [([2], 7, .na), ([3], 6, .na)] ∧
    (sampleSeeded (fun r => r) exStream exMem 3).toOption.map (fun r => r.2) = some [([2], 7, .na), ([3], 6, .na), ([2], 7, .na)] := by
  decide +kernel

example : (∀ r : ℚ, 0 < r → 0 < (fun r => r) r) ∧ (∀ i, exStream i < 1) ∧ exMem.storage ≠ [] := by
  refine ⟨fun r h => h, fun i => ?_, by decide⟩
  unfold exStream
  rcases i with _ | _ | _ | i <;> norm_num [List.getD]

end

end Neorl.ER

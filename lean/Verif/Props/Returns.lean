import Verif.Returns
import Mathlib.Data.List.GetD

/-!
# C49, C50, C62: advantages, discounted returns, Q-retrace

The specification speaks of episode segments: `Seg ends n t m` says that from step `t` exactly `m` steps are recorded up to and including the end of the episode,
or up to the last recorded step if the episode does not end before.
-/

set_option linter.unusedSectionVars false
set_option linter.unusedVariables false

namespace Neorl.Returns

open Finset

section
variable {K : Type} [Field K] [LinearOrder K] [IsStrictOrderedRing K]

/-- `m` steps from `t` on belong to the same episode and stop at its end, or at the end of the record. -/
def Seg (ends : ℕ → Bool) (n t m : ℕ) : Prop :=
  1 ≤ m ∧ t + m ≤ n ∧ (∀ l, l + 1 < m → ends (t + l) = false) ∧ (ends (t + m - 1) = true ∨ t + m = n)

/-- Every recorded step has exactly one such segment. -/
theorem Seg.exists_unique (ends : ℕ → Bool) {n t : ℕ} (h : t < n) : ∃! m, Seg ends n t m := by
  have hex : ∃ m, 1 ≤ m ∧ (ends (t + m - 1) = true ∨ t + m = n) := ⟨n - t, by omega, Or.inr (by omega)⟩
  classical
  refine ⟨Nat.find hex, ?_, ?_⟩
  · obtain ⟨h1, h2⟩ := Nat.find_spec hex
    refine ⟨h1, ?_, ?_, h2⟩
    · have := Nat.find_min' hex (show 1 ≤ n - t ∧ (ends (t + (n - t) - 1) = true ∨ t + (n - t) = n) from ⟨by omega, Or.inr (by omega)⟩)
      omega
    · intro l hl
      have := Nat.find_min hex hl
      rw [not_and, not_or] at this
      have := (this (by omega)).1
      simpa [show t + (l + 1) - 1 = t + l by omega] using this
  · intro m hm
    obtain ⟨h1, h2, h3, h4⟩ := hm
    apply le_antisymm
    · by_contra hlt
      push Not at hlt
      obtain ⟨g1, g2⟩ := Nat.find_spec hex
      rcases g2 with g2 | g2
      · have := h3 (Nat.find hex - 1) (by omega)
        rw [show t + (Nat.find hex - 1) = t + Nat.find hex - 1 by omega, g2] at this
        cases this
      · omega
    · exact Nat.find_min' hex ⟨h1, h4⟩

/-- Unrolling a backward recursion. -/
theorem unroll {n : ℕ} {f x c : ℕ → K} (hf : ∀ t < n, f t = x t + c t * f (t + 1)) : ∀ (m t : ℕ), t + m ≤ n →
    f t = ∑ l ∈ range m, (∏ j ∈ range l, c (t + j)) * x (t + l) + (∏ j ∈ range m, c (t + j)) * f (t + m)
  | 0, t, _ => by simp
  | m + 1, t, h => by
    rw [unroll hf m t (by omega), sum_range_succ, prod_range_succ, hf (t + m) (by omega)]
    rw [show t + (m + 1) = t + m + 1 by omega]
    ring

/-- The recursion of all the functions of this file: the coefficient vanishes where the episode ended. -/
theorem unroll_seg {n : ℕ} {f x a : ℕ → K} {ends : ℕ → Bool} (hf : ∀ t < n, f t = x t + (if ends t then 0 else a t) * f (t + 1)) {t m : ℕ} (hm : Seg ends n t m) :
    f t = ∑ l ∈ range m, (∏ j ∈ range l, a (t + j)) * x (t + l) + (if ends (t + m - 1) then 0 else (∏ j ∈ range m, a (t + j)) * f n) := by
  obtain ⟨h1, h2, h3, h4⟩ := hm
  rw [unroll (c := fun t => if ends t then 0 else a t) hf m t h2]
  congr 1
  · apply sum_congr rfl
    intro l hl
    rw [mem_range] at hl
    congr 1
    apply prod_congr rfl
    intro j hj
    rw [mem_range] at hj
    simp [h3 j (by omega)]
  · by_cases he : ends (t + m - 1) = true
    · rw [if_pos he]
      have : ∏ j ∈ range m, (if ends (t + j) then 0 else a (t + j)) = 0 := by
        apply prod_eq_zero (i := m - 1) (mem_range.2 (by omega))
        rw [show t + (m - 1) = t + m - 1 by omega, if_pos he]
      rw [this, zero_mul]
    · rw [if_neg he]
      have hn : t + m = n := h4.resolve_left he
      rw [hn]
      congr 1
      apply prod_congr rfl
      intro j hj
      rw [mem_range] at hj
      by_cases hj' : j + 1 < m
      · rw [h3 j hj']; simp
      · have : t + j = t + m - 1 := by omega
        rw [this, if_neg he]

/-! ### C49: generalised advantage estimation -/

/-- The episode ended with step `t`: the flag recorded on entry to the next step. -/
def Roll.ends (r : Roll K) (t : ℕ) : Bool := if t + 1 < r.n then r.dones (t + 1) else r.lastDone
/-- The value estimate of the state after step `t`. -/
def Roll.after (r : Roll K) (t : ℕ) : K := if t + 1 < r.n then r.values (t + 1) else r.lastValue
/-- The temporal difference error of step `t`: no bootstrap over an episode end. -/
def Roll.td (r : Roll K) (gamma : K) (t : ℕ) : K := r.rewards t + (if r.ends t then 0 else gamma * r.after t) - r.values t

theorem b2k_nonterm (b : Bool) : (1 : K) - b2k b = if b then 0 else 1 := by cases b <;> simp [b2k]

theorem nonterminal_eq (r : Roll K) {t : ℕ} (h : t < r.n) : r.nonterminal t = if r.ends t then 0 else 1 := by
  unfold Roll.nonterminal Roll.ends
  by_cases h1 : t + 1 < r.n
  · rw [if_neg (by omega), if_pos h1, b2k_nonterm]
  · rw [if_pos (by omega), if_neg h1, b2k_nonterm]

theorem nextValue_eq (r : Roll K) {t : ℕ} (h : t < r.n) : r.nextValue t = r.after t := by
  unfold Roll.nextValue Roll.after
  by_cases h1 : t + 1 < r.n
  · rw [if_neg (by omega), if_pos h1]
  · rw [if_pos (by omega), if_neg h1]

/-- The advantage list has one entry per step and satisfies the recursion. -/
theorem gae_rec (r : Roll K) (gamma lam : K) : ∃ f : ℕ → K, f r.n = 0 ∧ (∀ t < r.n, f t = r.td gamma t + (if r.ends t then 0 else gamma * lam) * f (t + 1)) ∧
    (gae r gamma lam).length = r.n ∧ ∀ t < r.n, (gae r gamma lam)[t]? = some (f t) := by
  obtain ⟨f, f1, f2, f3, f4⟩ := gaeLoop_spec r gamma lam r.n 0 (List.replicate r.n 0) (by simp)
  refine ⟨f, f1, ?_, ?_, ?_⟩
  · intro t ht
    rw [f2 t ht, nonterminal_eq r ht, nextValue_eq r ht]
    unfold Roll.td
    by_cases h : r.ends t = true
    · simp [h]
    · simp [h]
  · unfold gae
    rw [f3]
    simp
  · intro t ht
    unfold gae
    rw [f4, if_pos ht]

/-- **C49.** The advantage of step `t` is the `(gamma * lam)`-discounted sum of the temporal difference errors up to the end of its episode (or of the record). -/
theorem C49_gae (r : Roll K) (gamma lam : K) : (gae r gamma lam).length = r.n ∧
    ∀ (t m : ℕ), t < r.n → Seg r.ends r.n t m → (gae r gamma lam)[t]? = some (∑ l ∈ range m, (gamma * lam) ^ l * r.td gamma (t + l)) := by
  obtain ⟨f, f1, f2, f3, f4⟩ := gae_rec r gamma lam
  refine ⟨f3, ?_⟩
  intro t m ht hm
  rw [f4 t ht, unroll_seg f2 hm, f1]
  simp

/-- **C49.** With `lam = 1` the return of step `t` is the discounted sum of the rewards of its episode, plus the discounted last value exactly when the record stops inside it. -/
theorem C49_lambda_one (r : Roll K) (gamma : K) (t m : ℕ) (ht : t < r.n) (hm : Seg r.ends r.n t m) :
    (returns r gamma 1)[t]? = some (∑ l ∈ range m, gamma ^ l * r.rewards (t + l) + (if r.ends (t + m - 1) then 0 else gamma ^ m * r.lastValue)) := by
  obtain ⟨f, f1, f2, f3, f4⟩ := gae_rec r gamma 1
  unfold returns
  rw [List.getElem?_mapIdx, f4 t ht]
  simp only [Option.map_some]
  congr 1
  have hg : ∀ s < r.n, (fun s => if s < r.n then f s + r.values s else r.lastValue) s =
      r.rewards s + (if r.ends s then 0 else gamma) * (fun s => if s < r.n then f s + r.values s else r.lastValue) (s + 1) := by
    intro s hs
    dsimp only
    rw [if_pos hs, f2 s hs]
    unfold Roll.td Roll.after
    by_cases h1 : r.ends s = true
    · simp [h1]
    · simp only [h1, mul_one]
      by_cases h2 : s + 1 < r.n
      · simp only [h2, if_true]
        simp only [Bool.false_eq_true, if_false]
        ring
      · have : s + 1 = r.n := by omega
        rw [this, f1]
        simp
  have := unroll_seg (a := fun _ => gamma) hg hm
  rw [if_pos ht, if_neg (lt_irrefl _)] at this
  simpa using this

/-- **C49.** With `lam = 0` the return is the one-step target. -/
theorem C49_lambda_zero (r : Roll K) (gamma : K) (t : ℕ) (ht : t < r.n) :
    (returns r gamma 0)[t]? = some (r.rewards t + (if r.ends t then 0 else gamma * r.after t)) := by
  obtain ⟨f, f1, f2, f3, f4⟩ := gae_rec r gamma 0
  unfold returns
  rw [List.getElem?_mapIdx, f4 t ht]
  simp only [Option.map_some]
  congr 1
  rw [f2 t ht]
  unfold Roll.td
  simp

/-- **C49.** A perfect value function (one satisfying the one-step equation on the record) has zero advantage everywhere, whatever `lam`. -/
theorem C49_consistent_values (r : Roll K) (gamma lam : K) (hv : ∀ t < r.n, r.values t = r.rewards t + (if r.ends t then 0 else gamma * r.after t)) (t : ℕ) (ht : t < r.n) :
    (gae r gamma lam)[t]? = some 0 ∧ (returns r gamma lam)[t]? = some (r.values t) := by
  obtain ⟨m, hm, _⟩ := Seg.exists_unique r.ends ht
  have h := (C49_gae r gamma lam).2 t m ht hm
  have h0 : ∑ l ∈ range m, (gamma * lam) ^ l * r.td gamma (t + l) = 0 := by
    apply sum_eq_zero
    intro l hl
    rw [mem_range] at hl
    have := hv (t + l) (by have := hm.2.1; omega)
    unfold Roll.td
    rw [← this]
    ring
  rw [h0] at h
  refine ⟨h, ?_⟩
  unfold returns
  rw [List.getElem?_mapIdx, h]
  simp

/-- **C49.** Steps of an earlier episode are not touched by anything that happens after its end: changing rewards, values and flags later changes no advantage. -/
theorem C49_no_leak (r r' : Roll K) (gamma lam : K) (t m : ℕ) (ht : t < r.n) (hn : r'.n = r.n) (hm : Seg r.ends r.n t m) (hend : r.ends (t + m - 1) = true)
    (hr : ∀ s < t + m, r'.rewards s = r.rewards s ∧ r'.values s = r.values s ∧ r'.ends s = r.ends s) : (gae r' gamma lam)[t]? = (gae r gamma lam)[t]? := by
  obtain ⟨m1, m2, m3, m4⟩ := hm
  have hm' : Seg r'.ends r'.n t m := by
    refine ⟨m1, by omega, ?_, Or.inl ?_⟩
    · intro l hl
      rw [(hr (t + l) (by omega)).2.2]
      exact m3 l hl
    · rw [(hr _ (by omega)).2.2]
      exact hend
  rw [(C49_gae r gamma lam).2 t m ht ⟨m1, m2, m3, m4⟩, (C49_gae r' gamma lam).2 t m (by omega) hm']
  congr 1
  apply sum_congr rfl
  intro l hl
  rw [mem_range] at hl
  congr 1
  obtain ⟨h1, h2, h3⟩ := hr (t + l) (by omega)
  unfold Roll.td
  rw [h1, h2, h3]
  congr 2
  by_cases he : r.ends (t + l) = true
  · rw [if_pos he, if_pos he]
  · rw [if_neg he, if_neg he]
    have hlm : l + 1 < m := by
      by_contra hge
      have : t + l = t + m - 1 := by omega
      rw [this] at he
      exact he hend
    unfold Roll.after
    rw [hn, if_pos (by omega), if_pos (by omega), (hr (t + l + 1) (by omega)).2.1]

/-- **C49.** `swap_and_flatten` puts step `t` of environment `e` at position `e * steps + t`, for every recorded array alike, so the columns of the batch stay aligned. -/
theorem C49_flatten {α : Type} (steps envs : ℕ) (arr : ℕ → ℕ → α) :
    (swapFlatten steps envs arr).length = envs * steps ∧ ∀ t < steps, ∀ e < envs, (swapFlatten steps envs arr)[e * steps + t]? = some (arr t e) := by
  unfold swapFlatten
  induction envs with
  | zero => simp
  | succ k ih =>
    rw [List.range_succ, List.flatMap_append]
    constructor
    · rw [List.length_append, ih.1]
      simp
      ring
    · intro t ht e he
      by_cases hk : e < k
      · rw [List.getElem?_append_left]
        · exact ih.2 t ht e hk
        · rw [ih.1]
          calc e * steps + t < e * steps + steps := by omega
            _ = (e + 1) * steps := by ring
            _ ≤ k * steps := Nat.mul_le_mul_right _ hk
      · have : e = k := by omega
        subst this
        rw [List.getElem?_append_right (by rw [ih.1]; omega), ih.1, Nat.add_sub_cancel_left]
        simp [ht]

/-! ### C50: discounted returns -/

/-- **C50.** `discount`: the discounted sum of everything to the right. -/
theorem C50_discount (v : List K) (gamma : K) : (discount v gamma).length = v.length ∧
    ∀ t < v.length, (discount v gamma)[t]? = some (∑ l ∈ range (v.length - t), gamma ^ l * v.getD (t + l) 0) := by
  refine ⟨length_discount v gamma, ?_⟩
  induction v with
  | nil => simp
  | cons x v ih =>
    intro t ht
    rw [discount_cons]
    cases t with
    | zero =>
      simp only [List.getElem?_cons_zero, List.length_cons, Nat.sub_zero, zero_add]
      congr 1
      rw [sum_range_succ']
      simp only [pow_zero, one_mul, List.getD_cons_zero, List.getD_cons_succ]
      rw [add_comm]
      congr 1
      cases v with
      | nil => simp [discount, lfilter]
      | cons y w =>
        have := ih 0 (by simp)
        rw [← List.head?_eq_getElem?] at this
        rw [this, Option.getD_some, mul_sum]
        apply sum_congr rfl
        intro l _
        rw [zero_add, pow_succ]
        ring
    | succ t =>
      simp only [List.length_cons, List.getElem?_cons_succ] at ht ⊢
      rw [ih t (by omega)]
      congr 1
      apply sum_congr
      · congr 1; omega
      · intro l _
        rw [show t + 1 + l = (t + l) + 1 by omega, List.getD_cons_succ]

/-- Values of `discount_with_dones` satisfy the recursion. -/
theorem discountDones_rec (gamma : K) : ∀ (v : List K) (d : List Bool), v.length = d.length → ∀ t < v.length,
    (discountDones v d gamma).getD t 0 = v.getD t 0 + (if d.getD t false then 0 else gamma) * (discountDones v d gamma).getD (t + 1) 0
  | [], _, _, t, ht => by simp at ht
  | _ :: _, [], h, _, _ => by simp at h
  | x :: v, b :: d, h, t, ht => by
    simp only [List.length_cons, Nat.add_right_cancel_iff] at h
    rw [discountDones_cons x b v d gamma h]
    cases t with
    | zero =>
      simp only [List.getD_cons_zero, List.getD_cons_succ, zero_add]
      rw [b2k_nonterm, List.head?_eq_getElem?, List.getD_eq_getElem?_getD]
      cases b <;> simp
    | succ t =>
      simp only [List.getD_cons_succ]
      exact discountDones_rec gamma v d h t (by simpa using ht)

/-- **C50.** `discount_with_dones`: the discounted sum of the rewards up to the end of the episode. -/
theorem C50_dones (v : List K) (d : List Bool) (gamma : K) (h : v.length = d.length) : (discountDones v d gamma).length = v.length ∧
    ∀ (t m : ℕ), t < v.length → Seg (fun s => d.getD s false) v.length t m → (discountDones v d gamma)[t]? = some (∑ l ∈ range m, gamma ^ l * v.getD (t + l) 0) := by
  refine ⟨length_discountDones v d gamma h, ?_⟩
  intro t m ht hm
  have hlen := length_discountDones v d gamma h
  have h1 := unroll_seg (a := fun _ => gamma) (f := fun s => (discountDones v d gamma).getD s 0) (x := fun s => v.getD s 0) (fun s hs => discountDones_rec gamma v d h s hs) hm
  rw [List.getElem?_eq_getElem (by omega), ← List.getD_eq_getElem (d := 0), h1]
  have h2 : (discountDones v d gamma).getD v.length 0 = 0 := by
    rw [← hlen]
    simp [List.getD_eq_getElem?_getD]
  rw [h2]
  simp

/-- **C50.** The returns of A2C: the discounted rewards of the episode, plus the discounted value of the last state exactly when the record stops inside the episode. -/
theorem C50_a2c (rewards : List K) (dones : List Bool) (value gamma : K) (h : rewards.length = dones.length) (hne : rewards ≠ []) :
    ∃ out, a2cReturns rewards dones value gamma = some out ∧ out.length = rewards.length ∧
      ∀ (t m : ℕ), t < rewards.length → Seg (fun s => dones.getD s false) rewards.length t m →
        out[t]? = some (∑ l ∈ range m, gamma ^ l * rewards.getD (t + l) 0 + (if dones.getD (t + m - 1) false then 0 else gamma ^ m * value)) := by
  have hd : dones ≠ [] := by
    intro h0
    rw [h0] at h
    exact hne (List.length_eq_zero_iff.1 h)
  have hdl : 0 < dones.length := List.length_pos_iff.2 hd
  have hlast : dones.getD (dones.length - 1) false = dones.getLast hd := by
    rw [List.getD_eq_getElem _ _ (by omega), List.getLast_eq_getElem]
  unfold a2cReturns
  rw [List.getLast?_eq_some_getLast hd]
  cases hb : dones.getLast hd with
  | true =>
    refine ⟨_, rfl, length_discountDones _ _ _ h, ?_⟩
    intro t m ht hm
    rw [(C50_dones rewards dones gamma h).2 t m ht hm]
    have : dones.getD (t + m - 1) false = true := by
      rcases hm.2.2.2 with h1 | h1
      · exact h1
      · rw [h1, h, hlast, hb]
    rw [if_pos this, add_zero]
  | false =>
    have h' : (rewards ++ [value]).length = (dones ++ [false]).length := by simp [h]
    refine ⟨_, rfl, ?_, ?_⟩
    · rw [List.length_dropLast, length_discountDones _ _ _ h']
      simp
    · intro t m ht hm
      rw [List.getElem?_dropLast, length_discountDones _ _ _ h', if_pos (by simpa using ht)]
      obtain ⟨m1, m2, m3, m4⟩ := hm
      have hget : ∀ s < rewards.length, (dones ++ [false]).getD s false = dones.getD s false := by
        intro s hs
        rw [List.getD_eq_getElem?_getD, List.getD_eq_getElem?_getD, List.getElem?_append_left (by omega)]
      have hgr : ∀ s < rewards.length, (rewards ++ [value]).getD s 0 = rewards.getD s 0 := by
        intro s hs
        rw [List.getD_eq_getElem?_getD, List.getD_eq_getElem?_getD, List.getElem?_append_left (by omega)]
      by_cases he : dones.getD (t + m - 1) false = true
      · have hm' : Seg (fun s => (dones ++ [false]).getD s false) (rewards ++ [value]).length t m := by
          refine ⟨m1, by simp; omega, ?_, Or.inl ?_⟩
          · intro l hl
            dsimp only
            rw [hget _ (by omega)]
            exact m3 l hl
          · dsimp only
            rw [hget _ (by omega)]
            exact he
        rw [(C50_dones _ _ gamma h').2 t m (by simp; omega) hm', if_pos he, add_zero]
        congr 1
        apply sum_congr rfl
        intro l hl
        rw [mem_range] at hl
        rw [hgr _ (by omega)]
      · have hn : t + m = rewards.length := m4.resolve_left he
        have hm' : Seg (fun s => (dones ++ [false]).getD s false) (rewards ++ [value]).length t (m + 1) := by
          refine ⟨by omega, by simp; omega, ?_, Or.inr (by simp; omega)⟩
          intro l hl
          dsimp only
          rw [hget _ (by omega)]
          by_cases hl' : l + 1 < m
          · exact m3 l hl'
          · have : t + l = t + m - 1 := by omega
            rw [this]
            simpa using he
        rw [(C50_dones _ _ gamma h').2 t (m + 1) (by simp; omega) hm', if_neg he, sum_range_succ]
        congr 2
        · apply sum_congr rfl
          intro l hl
          rw [mem_range] at hl
          rw [hgr _ (by omega)]
        · rw [hn]
          simp [List.getD_eq_getElem?_getD]

theorem boundLoop_spec (rewards : List K) (starts : List Bool) (gamma : K) : ∀ (k : ℕ) (d : List K), k < d.length →
    (boundLoop rewards starts gamma k d).length = d.length ∧ (∀ i, k ≤ i → (boundLoop rewards starts gamma k d)[i]? = d[i]?) ∧
    ∀ i < k, (boundLoop rewards starts gamma k d).getD i 0 =
      rewards.getD i 0 + gamma * (boundLoop rewards starts gamma k d).getD (i + 1) 0 * (1 - b2k (starts.getD (i + 1) false))
  | 0, d, _ => ⟨rfl, fun _ _ => rfl, by omega⟩
  | k + 1, d, h => by
    rw [boundLoop]
    set d' := d.set k (rewards.getD k 0 + gamma * d.getD (k + 1) 0 * (1 - b2k (starts.getD (k + 1) false))) with hd'
    obtain ⟨h1, h2, h3⟩ := boundLoop_spec rewards starts gamma k d' (by rw [hd', List.length_set]; omega)
    refine ⟨by rw [h1, hd', List.length_set], ?_, ?_⟩
    · intro i hi
      rw [h2 i (by omega), hd', List.getElem?_set_ne (by omega)]
    · intro i hi
      by_cases h4 : i < k
      · exact h3 i h4
      · have : i = k := by omega
        subst this
        have e1 : (boundLoop rewards starts gamma i d').getD i 0 = rewards.getD i 0 + gamma * d.getD (i + 1) 0 * (1 - b2k (starts.getD (i + 1) false)) := by
          rw [List.getD_eq_getElem?_getD, h2 i le_rfl, hd', List.getElem?_set_self (by omega)]
          rfl
        have e2 : (boundLoop rewards starts gamma i d').getD (i + 1) 0 = d.getD (i + 1) 0 := by
          rw [List.getD_eq_getElem?_getD, h2 (i + 1) (by omega), hd', List.getElem?_set_ne (by omega), List.getD_eq_getElem?_getD]
        rw [e1, e2]

/-- **C50.** `discount_with_boundaries`: the discounted sum of the rewards up to the last step before a new episode starts. -/
theorem C50_boundaries (rewards : List K) (starts : List Bool) (gamma : K) (hne : rewards ≠ []) : (discountBoundaries rewards starts gamma).length = rewards.length ∧
    ∀ (t m : ℕ), t < rewards.length → Seg (fun s => starts.getD (s + 1) false) rewards.length t m →
      (discountBoundaries rewards starts gamma)[t]? = some (∑ l ∈ range m, gamma ^ l * rewards.getD (t + l) 0) := by
  have hpos := List.length_pos_iff.2 hne
  unfold discountBoundaries
  dsimp only
  obtain ⟨h1, h2, h3⟩ := boundLoop_spec rewards starts gamma (rewards.length - 1) ((List.replicate rewards.length 0).set (rewards.length - 1) (rewards.getD (rewards.length - 1) 0))
    (by simp; omega)
  set out := boundLoop rewards starts gamma (rewards.length - 1) ((List.replicate rewards.length 0).set (rewards.length - 1) (rewards.getD (rewards.length - 1) 0)) with hout
  have hlen : out.length = rewards.length := by rw [h1]; simp
  refine ⟨hlen, ?_⟩
  intro t m ht hm
  have hzero : out.getD rewards.length 0 = 0 := by
    rw [← hlen]
    simp [List.getD_eq_getElem?_getD]
  have hrec : ∀ s < rewards.length, out.getD s 0 = rewards.getD s 0 + (if starts.getD (s + 1) false then 0 else gamma) * out.getD (s + 1) 0 := by
    intro s hs
    by_cases hs' : s < rewards.length - 1
    · rw [h3 s hs', b2k_nonterm]
      by_cases hb : starts.getD (s + 1) false = true
      · simp [hb]
      · simp [hb]
    · have : s = rewards.length - 1 := by omega
      rw [show s + 1 = rewards.length by omega, hzero, mul_zero, add_zero, this, List.getD_eq_getElem?_getD, h2 _ le_rfl, List.getElem?_set_self (by simp; omega)]
      simp
  have hu := unroll_seg (a := fun _ => gamma) (f := fun s => out.getD s 0) (x := fun s => rewards.getD s 0) hrec hm
  rw [hzero] at hu
  rw [List.getElem?_eq_getElem (by omega), ← List.getD_eq_getElem (d := 0), hu]
  simp

/-! ### C62: Q-retrace -/

theorem retraceLoop_spec (rewards q values rho : ℕ → K) (dones : ℕ → Bool) (gamma : K) : ∀ (k : ℕ) (qret : K) (out : List K),
    ∃ f : ℕ → K, (0 < k → f (k - 1) = rewards (k - 1) + gamma * qret * (1 - b2k (dones (k - 1)))) ∧
      (∀ i, i + 1 < k → f i = rewards i + gamma * (min 1 (rho (i + 1)) * (f (i + 1) - q (i + 1)) + values (i + 1)) * (1 - b2k (dones i))) ∧
      retraceLoop rewards q values rho dones gamma k qret out = out ++ ((List.range k).map f).reverse
  | 0, qret, out => ⟨fun _ => 0, by omega, by omega, by simp [retraceLoop]⟩
  | k + 1, qret, out => by
    set q1 := rewards k + gamma * qret * (1 - b2k (dones k)) with hq1
    obtain ⟨f, f1, f2, f3⟩ := retraceLoop_spec rewards q values rho dones gamma k (min 1 (rho k) * (q1 - q k) + values k) (out ++ [q1])
    refine ⟨fun i => if i = k then q1 else f i, ?_, ?_, ?_⟩
    · intro _
      simp [hq1]
    · intro i hi
      dsimp only
      rw [if_neg (by omega)]
      by_cases h1 : i + 1 = k
      · rw [if_pos h1]
        have := f1 (by omega)
        rw [show k - 1 = i by omega] at this
        rw [this, h1]
      · rw [if_neg h1]
        exact f2 i (by omega)
    · rw [retraceLoop]
      show retraceLoop rewards q values rho dones gamma k (min 1 (rho k) * (q1 - q k) + values k) (out ++ [q1]) = _
      rw [f3, List.range_succ, List.map_append, List.reverse_append]
      simp only [List.map_cons, List.map_nil, if_true, List.reverse_cons, List.reverse_nil, List.nil_append, List.append_assoc]
      congr 3
      apply List.map_congr_left
      intro i hi
      rw [List.mem_range] at hi
      rw [if_neg (by omega)]

/-- **C62.** The Q-retrace target of step `t` is `Q(t)` plus the sum of the temporal difference errors of its episode, weighted by the discount and by the product of
the importance weights truncated at one of the steps in between (the weight of step `t` itself is not used). -/
theorem C62_retrace (rewards q values rho : ℕ → K) (dones : ℕ → Bool) (n : ℕ) (gamma : K) : (qRetrace rewards q values rho dones n gamma).length = n ∧
    ∀ (t m : ℕ), t < n → Seg dones n t m → (qRetrace rewards q values rho dones n gamma)[t]? =
      some (q t + ∑ l ∈ range m, gamma ^ l * (∏ j ∈ range l, min 1 (rho (t + j + 1))) *
        (rewards (t + l) + (if dones (t + l) then 0 else gamma * values (t + l + 1)) - q (t + l))) := by
  unfold qRetrace
  obtain ⟨f, f1, f2, f3⟩ := retraceLoop_spec rewards q values rho dones gamma n (values n) []
  rw [f3]
  simp only [List.nil_append, List.reverse_reverse, List.length_map, List.length_range, true_and]
  intro t m ht hm
  rw [List.getElem?_map, List.getElem?_range ht]
  simp only [Option.map_some]
  congr 1
  have hrec : ∀ s < n, (fun s => if s < n then f s - q s else 0) s = (rewards s + (if dones s then 0 else gamma * values (s + 1)) - q s) +
      (if dones s then 0 else gamma * min 1 (rho (s + 1))) * (fun s => if s < n then f s - q s else 0) (s + 1) := by
    intro s hs
    dsimp only
    rw [if_pos hs]
    by_cases h1 : s + 1 < n
    · rw [if_pos h1, f2 s h1, b2k_nonterm]
      by_cases hb : dones s = true
      · simp [hb]
      · simp only [hb, Bool.false_eq_true, if_false]
        ring
    · rw [if_neg h1]
      have := f1 (by omega)
      rw [show n - 1 = s by omega] at this
      rw [this, b2k_nonterm, show n = s + 1 by omega]
      by_cases hb : dones s = true
      · simp [hb]
      · simp only [hb, Bool.false_eq_true, if_false]
        ring
  have hu := unroll_seg (a := fun s => gamma * min 1 (rho (s + 1))) hrec hm
  rw [if_pos ht, if_neg (lt_irrefl n)] at hu
  have : f t = q t + (f t - q t) := by ring
  rw [this, hu]
  simp only [mul_zero, ite_self, add_zero]
  congr 1
  apply sum_congr rfl
  intro l _
  rw [prod_mul_distrib, prod_const, card_range]

/-- **C62.** On-policy with a consistent critic (weights at least one, `Q(t)` the one-step target) the target is `Q` itself. -/
theorem C62_fixed_point (rewards q values rho : ℕ → K) (dones : ℕ → Bool) (n : ℕ) (gamma : K)
    (hq : ∀ t < n, q t = rewards t + (if dones t then 0 else gamma * values (t + 1))) (t : ℕ) (ht : t < n) : (qRetrace rewards q values rho dones n gamma)[t]? = some (q t) := by
  obtain ⟨m, hm, _⟩ := Seg.exists_unique dones ht
  rw [(C62_retrace rewards q values rho dones n gamma).2 t m ht hm]
  congr 1
  rw [sum_eq_zero, add_zero]
  intro l hl
  rw [mem_range] at hl
  rw [← hq (t + l) (by have := hm.2.1; omega)]
  ring

end

/-! ### Concrete cases -/

/-- Four steps, an episode ending with step 1. -/
def exR : Roll ℚ := { n := 4, rewards := fun t => t + 1, values := fun t => 2 * t, dones := fun t => t == 2, lastDone := false, lastValue := 10 }

example : gae exR (1 / 2) 1 = [2, 0, 7 / 2, 3] := by decide +kernel
example : returns exR (1 / 2) 1 = [2, 2, 15 / 2, 9] := by decide +kernel
/-- Step 0 is followed by the end of its episode at step 1; step 2 by the end of the record. -/
example : Seg exR.ends exR.n 0 2 ∧ Seg exR.ends exR.n 2 2 := by
  refine ⟨⟨by decide, by decide, ?_, by decide⟩, ⟨by decide, by decide, ?_, by decide⟩⟩ <;>
  · intro l hl
    have : l = 0 := by omega
    subst this
    decide
example : a2cReturns ([1, 2, 3, 4] : List ℚ) [false, true, false, false] 10 (1 / 2) = some [2, 2, 15 / 2, 9] := by decide +kernel
example : discount ([1, 2, 4] : List ℚ) (1 / 2) = [3, 4, 4] := by decide +kernel
example : discountBoundaries ([1, 2, 3, 4] : List ℚ) [true, false, true, false] (1 / 2) = [2, 2, 5, 4] := by decide +kernel
example : qRetrace (fun _ => (1 : ℚ)) (fun _ => 0) (fun t => t) (fun _ => 1 / 2) (fun t => t == 1) 3 (1 / 2) = [7 / 4, 1, 5 / 2] := by decide +kernel
example : swapFlatten 3 2 (fun t e => (t, e)) = [(0, 0), (1, 0), (2, 0), (0, 1), (1, 1), (2, 1)] := by decide

end Neorl.Returns

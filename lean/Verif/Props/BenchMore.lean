import Verif.BenchMore
import Mathlib.Tactic.Linarith
import Mathlib.Analysis.Real.Pi.Bounds
import Mathlib.Analysis.SpecialFunctions.Trigonometric.Inverse

/-!
# C132: more benchmarks
-/

set_option linter.unusedSectionVars false
set_option linter.unusedVariables false

namespace Neorl.BenchMore

open Real Neorl.Classic

/-! ### Alpine -/

/-- **C132**: the first Alpine function is never negative and vanishes exactly where every coordinate is zero or has a sine of -0.1. -/
theorem C132_alpine1 (x : List ℝ) : ∃ v, alpine1 x = .ok v ∧ 0 ≤ v ∧ (v = 0 ↔ ∀ a ∈ x, a = 0 ∨ sin a = -(1 / 10)) := by
  refine ⟨_, rfl, sumOf_nonneg fun a _ => abs_nonneg _, fun h a ha => ?_, fun h => ?_⟩
  · have h0 := sumOf_zero_mem (fun a _ => abs_nonneg _) h a ha
    rw [abs_eq_zero] at h0
    have : a * (sin a + 1 / 10) = 0 := by rw [← h0]; norm_num; ring
    rcases mul_eq_zero.mp this with h | h
    · exact Or.inl h
    · right; linarith
  · refine sumOf_eq_zero fun a ha => ?_
    rcases h a ha with h | h
    · simp [h]
    · rw [h, abs_eq_zero]; norm_num; ring

/-- **C132**: so the origin is not the only minimum: in every dimension there is one with all coordinates between 3 and 4. -/
theorem C132_alpine1_other (n : ℕ) : ∃ a, 3 < a ∧ a < 4 ∧ alpine1 (List.replicate n a) = .ok 0 := by
  have hs : sin (π + arcsin (1 / 10)) = -(1 / 10) := by
    rw [add_comm, sin_add_pi, sin_arcsin (by norm_num) (by norm_num)]
  have h0 : 0 < arcsin (1 / 10) := arcsin_pos.mpr (by norm_num)
  have h1 : arcsin (1 / 10) < 1 / 2 := by
    rw [arcsin_lt_iff_lt_sin (by constructor <;> norm_num) (by constructor <;> linarith [pi_gt_three])]
    have := sin_gt_sub_cube (x := 1 / 2) (by norm_num)
    linarith
  refine ⟨π + arcsin (1 / 10), by linarith [pi_gt_three], by linarith [pi_lt_d2], ?_⟩
  obtain ⟨v, hv, _, h⟩ := C132_alpine1 (List.replicate n (π + arcsin (1 / 10)))
  rw [hv, h.mpr fun a ha => Or.inr (by rw [List.eq_of_mem_replicate ha, hs])]

theorem prodM_spec {g : ℝ → Py ℝ} {k : ℝ → ℝ} : ∀ (x : List ℝ) (s : ℝ), (∀ a ∈ x, g a = .ok (k a)) → prodM g s x = .ok (s * (x.map k).prod)
  | [], s, _ => by simp [prodM]
  | a :: t, s, h => by
    rw [prodM, h a (by simp)]
    simp only []
    rw [prodM_spec t _ fun b hb => h b (by simp [hb])]
    simp [mul_assoc]

/-- **C132**: the second Alpine function raises an exception exactly if a coordinate is negative. Else it is the product of the factors, at most the product of the roots in size, and zero exactly if a
coordinate is zero or a zero of the sine. -/
theorem C132_alpine2 (x : List ℝ) :
    ((∃ a ∈ x, a < 0) → alpine2 x = .error .valueError) ∧
    ((∀ a ∈ x, 0 ≤ a) → ∃ v, alpine2 x = .ok v ∧ v = (x.map fun a => sqrt a * sin a).prod ∧ |v| ≤ (x.map sqrt).prod ∧ (v = 0 ↔ ∃ a ∈ x, a = 0 ∨ sin a = 0)) := by
  constructor
  · rintro ⟨a, ha, hn⟩
    unfold alpine2
    generalize (1 : ℝ) = s
    induction x generalizing s with
    | nil => simp at ha
    | cons b t ih =>
      rw [prodM]
      by_cases hb : b < 0
      · simp [pySqrt, hb, Except.map]
      · simp only [pySqrt, hb, if_false, Except.map]
        refine ih ?_ _
        rcases List.mem_cons.mp ha with rfl | h
        · exact absurd hn hb
        · exact h
  · intro h
    have e := prodM_spec (g := fun a => (pySqrt a).map fun s => s * sin a) (k := fun a => sqrt a * sin a) x 1 fun a ha => by
      simp [pySqrt, not_lt.mpr (h a ha), Except.map]
    rw [one_mul] at e
    refine ⟨_, e, rfl, ?_, ?_⟩
    · clear e
      induction x with
      | nil => simp
      | cons a t ih =>
        simp only [List.map_cons, List.prod_cons, abs_mul, abs_of_nonneg (sqrt_nonneg _)]
        have h1 := ih fun b hb => h b (by simp [hb])
        have h2 := abs_sin_le_one a
        have h3 := sqrt_nonneg a
        calc sqrt a * |sin a| * |(t.map fun a => sqrt a * sin a).prod| ≤ sqrt a * 1 * (t.map sqrt).prod :=
              mul_le_mul (mul_le_mul_of_nonneg_left h2 h3) h1 (abs_nonneg _) (by positivity)
          _ = sqrt a * (t.map sqrt).prod := by ring
    · rw [List.prod_eq_zero_iff, List.mem_map]
      constructor
      · rintro ⟨a, ha, hz⟩
        refine ⟨a, ha, ?_⟩
        rcases mul_eq_zero.mp hz with h' | h'
        · exact Or.inl ((sqrt_eq_zero (h a ha)).mp h')
        · exact Or.inr h'
      · rintro ⟨a, ha, h' | h'⟩
        · exact ⟨a, ha, by simp [h']⟩
        · exact ⟨a, ha, by simp [h']⟩

/-! ### Shubert -/

theorem wave_eq (y : ℝ) : wave y = cos (2 * y + 1) + 2 * cos (3 * y + 2) + 3 * cos (4 * y + 3) + 4 * cos (5 * y + 4) + 5 * cos (6 * y + 5) := by
  simp only [wave, sumOf_cons, sumOf_nil]
  norm_num
  ring

theorem wave_period (y : ℝ) : wave (y + 2 * π) = wave y := by
  simp only [wave_eq]
  have e2 : cos (2 * (y + 2 * π) + 1) = cos (2 * y + 1) := by rw [show 2 * (y + 2 * π) + 1 = 2 * y + 1 + (2 : ℕ) * (2 * π) by push_cast; ring, cos_add_nat_mul_two_pi]
  have e3 : cos (3 * (y + 2 * π) + 2) = cos (3 * y + 2) := by rw [show 3 * (y + 2 * π) + 2 = 3 * y + 2 + (3 : ℕ) * (2 * π) by push_cast; ring, cos_add_nat_mul_two_pi]
  have e4 : cos (4 * (y + 2 * π) + 3) = cos (4 * y + 3) := by rw [show 4 * (y + 2 * π) + 3 = 4 * y + 3 + (4 : ℕ) * (2 * π) by push_cast; ring, cos_add_nat_mul_two_pi]
  have e5 : cos (5 * (y + 2 * π) + 4) = cos (5 * y + 4) := by rw [show 5 * (y + 2 * π) + 4 = 5 * y + 4 + (5 : ℕ) * (2 * π) by push_cast; ring, cos_add_nat_mul_two_pi]
  have e6 : cos (6 * (y + 2 * π) + 5) = cos (6 * y + 5) := by rw [show 6 * (y + 2 * π) + 5 = 6 * y + 5 + (6 : ℕ) * (2 * π) by push_cast; ring, cos_add_nat_mul_two_pi]
  rw [e2, e3, e4, e5, e6]

theorem wave_half (y : ℝ) : wave y + wave (y + π) = 2 * (cos (2 * y + 1) + 3 * cos (4 * y + 3) + 5 * cos (6 * y + 5)) := by
  simp only [wave_eq]
  have e2 : cos (2 * (y + π) + 1) = cos (2 * y + 1) := by rw [show 2 * (y + π) + 1 = 2 * y + 1 + (1 : ℕ) * (2 * π) by push_cast; ring, cos_add_nat_mul_two_pi]
  have e3 : cos (3 * (y + π) + 2) = -cos (3 * y + 2) := by rw [show 3 * (y + π) + 2 = 3 * y + 2 + π + (1 : ℕ) * (2 * π) by push_cast; ring, cos_add_nat_mul_two_pi, cos_add_pi]
  have e4 : cos (4 * (y + π) + 3) = cos (4 * y + 3) := by rw [show 4 * (y + π) + 3 = 4 * y + 3 + (2 : ℕ) * (2 * π) by push_cast; ring, cos_add_nat_mul_two_pi]
  have e5 : cos (5 * (y + π) + 4) = -cos (5 * y + 4) := by rw [show 5 * (y + π) + 4 = 5 * y + 4 + π + (2 : ℕ) * (2 * π) by push_cast; ring, cos_add_nat_mul_two_pi, cos_add_pi]
  have e6 : cos (6 * (y + π) + 5) = cos (6 * y + 5) := by rw [show 6 * (y + π) + 5 = 6 * y + 5 + (3 : ℕ) * (2 * π) by push_cast; ring, cos_add_nat_mul_two_pi]
  rw [e2, e3, e4, e5, e6]; ring

theorem wave_quarter (y : ℝ) : wave y + wave (y + π) + (wave (y + π / 2) + wave (y + π / 2 + π)) = 12 * cos (4 * y + 3) := by
  rw [wave_half, wave_half]
  have e2 : cos (2 * (y + π / 2) + 1) = -cos (2 * y + 1) := by rw [show 2 * (y + π / 2) + 1 = 2 * y + 1 + π by ring, cos_add_pi]
  have e4 : cos (4 * (y + π / 2) + 3) = cos (4 * y + 3) := by rw [show 4 * (y + π / 2) + 3 = 4 * y + 3 + (1 : ℕ) * (2 * π) by push_cast; ring, cos_add_nat_mul_two_pi]
  have e6 : cos (6 * (y + π / 2) + 5) = -cos (6 * y + 5) := by rw [show 6 * (y + π / 2) + 5 = 6 * y + 5 + π + (1 : ℕ) * (2 * π) by push_cast; ring, cos_add_nat_mul_two_pi, cos_add_pi]
  rw [e2, e4, e6]; ring

theorem wave_cont : Continuous wave := by
  have : wave = fun y => cos (2 * y + 1) + 2 * cos (3 * y + 2) + 3 * cos (4 * y + 3) + 4 * cos (5 * y + 4) + 5 * cos (6 * y + 5) := funext wave_eq
  rw [this]; fun_prop

theorem wave_to_base (y : ℝ) : ∃ z ∈ Set.Icc 0 (2 * π), wave z = wave y := by
  have hp : Function.Periodic wave (2 * π) := wave_period
  obtain ⟨z, hz, e⟩ := hp.exists_mem_Ico₀ two_pi_pos y
  exact ⟨z, ⟨hz.1, hz.2.le⟩, e.symm⟩

theorem wave_extremes : ∃ a b, ∀ y, wave a ≤ wave y ∧ wave y ≤ wave b := by
  have hne : (Set.Icc 0 (2 * π)).Nonempty := ⟨0, ⟨le_rfl, two_pi_pos.le⟩⟩
  obtain ⟨a, _, ha⟩ := isCompact_Icc.exists_isMinOn hne wave_cont.continuousOn
  obtain ⟨b, _, hb⟩ := isCompact_Icc.exists_isMaxOn hne wave_cont.continuousOn
  refine ⟨a, b, fun y => ?_⟩
  obtain ⟨z, hz, e⟩ := wave_to_base y
  rw [← e]
  exact ⟨ha hz, hb hz⟩

theorem shubert_eq (x : List ℝ) : shubert x = .ok (x.map wave).prod := by
  unfold shubert
  have : ∀ (x : List ℝ) (s : ℝ), x.foldl (fun s a => s * wave a) s = s * (x.map wave).prod := by
    intro x
    induction x with
    | nil => simp
    | cons a t ih => intro s; rw [List.foldl_cons, ih]; simp [mul_assoc]
  rw [this, one_mul]

/-- **C132**: the two-dimensional Shubert function has a global minimum over the whole plane; it is taken where one coordinate is best and the other is worst for the one-dimensional factor, in either
order, and is at most -9. -/
theorem C132_shubert_min : ∃ a b v, shubert [b, a] = .ok v ∧ shubert [a, b] = .ok v ∧ v ≤ -9 ∧ (∀ y, wave a ≤ wave y ∧ wave y ≤ wave b) ∧
    ∀ x y, ∃ w, shubert [x, y] = .ok w ∧ v ≤ w := by
  obtain ⟨a, b, h⟩ := wave_extremes
  have hb : 3 ≤ wave b := by
    have h1 := wave_quarter (-3 / 4)
    rw [show 4 * (-3 / 4 : ℝ) + 3 = 0 by ring, cos_zero] at h1
    have := fun y => (h y).2
    linarith [this (-3 / 4), this (-3 / 4 + π), this (-3 / 4 + π / 2), this (-3 / 4 + π / 2 + π)]
  have ha : wave a ≤ -3 := by
    have h1 := wave_quarter ((π - 3) / 4)
    rw [show 4 * ((π - 3) / 4) + 3 = π by ring, cos_pi] at h1
    have := fun y => (h y).1
    linarith [this ((π - 3) / 4), this ((π - 3) / 4 + π), this ((π - 3) / 4 + π / 2), this ((π - 3) / 4 + π / 2 + π)]
  refine ⟨a, b, wave b * wave a, ?_, ?_, by nlinarith, h, fun x y => ⟨wave x * wave y, by rw [shubert_eq]; simp, ?_⟩⟩
  · rw [shubert_eq]; simp
  · rw [shubert_eq]; simp [mul_comm]
  · obtain ⟨x1, x2⟩ := h x
    obtain ⟨y1, y2⟩ := h y
    rcases le_total 0 (wave x) with hx | hx
    · nlinarith [mul_le_mul_of_nonneg_left y1 hx, mul_le_mul_of_nonpos_right x2 (by linarith : wave a ≤ 0)]
    · nlinarith [mul_le_mul_of_nonpos_left y2 hx, mul_le_mul_of_nonneg_right x1 (by linarith : 0 ≤ wave b)]

/-- **C132**: the Shubert function repeats: shifting any coordinate by a multiple of a full turn or reordering the coordinates does not change it, so its minima are many; and its size in `n` dimensions is
at most `15 ^ n`. -/
theorem C132_shubert_repeats (x : List ℝ) (k : ℕ → ℤ) : shubert (x.mapIdx fun i a => a + k i * (2 * π)) = shubert x := by
  have hp : Function.Periodic wave (2 * π) := wave_period
  rw [shubert_eq, shubert_eq]
  congr 2
  apply List.ext_getElem
  · simp
  · intro i h1 h2
    simp only [List.getElem_map, List.getElem_mapIdx]
    exact hp.int_mul (k i) _

theorem C132_shubert_perm {x y : List ℝ} (h : x.Perm y) : shubert x = shubert y := by
  rw [shubert_eq, shubert_eq, (h.map wave).prod_eq]

theorem C132_shubert_size (x : List ℝ) : ∃ v, shubert x = .ok v ∧ |v| ≤ 15 ^ x.length := by
  refine ⟨_, shubert_eq x, ?_⟩
  have hw : ∀ y, |wave y| ≤ 15 := by
    intro y
    rw [wave_eq, abs_le]
    constructor <;>
    linarith [neg_one_le_cos (2 * y + 1), cos_le_one (2 * y + 1), neg_one_le_cos (3 * y + 2), cos_le_one (3 * y + 2), neg_one_le_cos (4 * y + 3), cos_le_one (4 * y + 3),
      neg_one_le_cos (5 * y + 4), cos_le_one (5 * y + 4), neg_one_le_cos (6 * y + 5), cos_le_one (6 * y + 5)]
  induction x with
  | nil => simp
  | cons a t ih =>
    simp only [List.map_cons, List.prod_cons, abs_mul, List.length_cons, pow_succ]
    rw [mul_comm]
    exact mul_le_mul ih (hw a) (abs_nonneg _) (by positivity)

/-! ### Ridge -/

/-- **C132**: the ridge function is the first coordinate plus the length of the rest; it needs a coordinate. -/
theorem C132_ridge (a : ℝ) (t : List ℝ) : ∃ v, ridge (a :: t) = .ok v ∧ a ≤ v ∧ (v - a) ^ 2 = (t.map fun b => b ^ 2).sum ∧ (v = a ↔ ∀ b ∈ t, b = 0) := by
  have hs : 0 ≤ sumOf (fun b => b ^ 2) t := sumOf_nonneg fun b _ => sq_nonneg b
  have hr : (sumOf (fun b => b ^ 2) t) ^ (0.5 : ℝ) = sqrt (sumOf (fun b => b ^ 2) t) := by rw [sqrt_eq_rpow]; norm_num
  refine ⟨_, rfl, ?_, ?_, ?_⟩
  · rw [hr]; linarith [sqrt_nonneg (sumOf (fun b => b ^ 2) t)]
  · rw [hr, one_mul, add_sub_cancel_left, sq_sqrt hs]; rfl
  · rw [hr, one_mul, add_eq_left, sqrt_eq_zero hs]
    constructor
    · intro h b hb
      have := sumOf_zero_mem (fun b _ => sq_nonneg b) h b hb
      exact pow_eq_zero_iff two_ne_zero |>.mp this
    · intro h
      exact sumOf_eq_zero fun b hb => by rw [h b hb]; norm_num

/-- **C132**: over a box that holds zero, the least value is the lower end, taken exactly at that end followed by zeros; without bounds there is no minimum. -/
theorem C132_ridge_min {lo : ℝ} {x : List ℝ} (hx : x ≠ []) (hl : ∀ a ∈ x, lo ≤ a) : ∃ v, ridge x = .ok v ∧ lo ≤ v ∧ (v = lo ↔ x = lo :: List.replicate (x.length - 1) 0) := by
  obtain ⟨a, t, rfl⟩ := List.exists_cons_of_ne_nil hx
  obtain ⟨v, hv, hav, _, hiff⟩ := C132_ridge a t
  have ha := hl a (by simp)
  refine ⟨v, hv, ha.trans hav, ?_, ?_⟩
  · intro h
    have e : a = lo := le_antisymm (h ▸ hav) ha
    have := hiff.mp (by rw [h, e])
    subst e
    simp only [List.length_cons, Nat.add_sub_cancel, List.cons.injEq, true_and]
    exact List.eq_replicate_iff.mpr ⟨rfl, this⟩
  · intro h
    simp only [List.length_cons, Nat.add_sub_cancel, List.cons.injEq] at h
    rw [← h.1, hiff]
    intro b hb
    rw [h.2] at hb
    exact List.eq_of_mem_replicate hb

theorem C132_ridge_unbounded (n : ℕ) (c : ℝ) : ∃ x : List ℝ, x.length = n + 1 ∧ ∃ v, ridge x = .ok v ∧ v < c := by
  obtain ⟨v, hv, _, _, h⟩ := C132_ridge (c - 1) (List.replicate n 0)
  exact ⟨(c - 1) :: List.replicate n 0, by simp, v, hv, by rw [h.mpr fun b hb => List.eq_of_mem_replicate hb]; linarith⟩

/-! ### Power splits -/

/-- **C132**: the power splits add up to one; they are fractions if the network gives no negative numbers; the scale of the network does not matter. -/
theorem C132_power {P : Type} (net : P → List ℝ) (pert : P) (h : (net pert).sum ≠ 0) :
    ∃ l, power net pert = .ok l ∧ l.length = (net pert).length ∧ l.sum = 1 ∧ ((∀ v ∈ net pert, 0 ≤ v) → ∀ q ∈ l, 0 ≤ q ∧ q ≤ 1) ∧
      ∀ c : ℝ, c ≠ 0 → power (fun p => (net p).map (c * ·)) pert = .ok l := by
  have hsum : ∀ (l : List ℝ) (s : ℝ), (l.map fun v => v / s).sum = l.sum / s := by
    intro l s
    induction l with
    | nil => simp
    | cons a t ih => simp [ih, add_div]
  refine ⟨_, by rw [power, if_neg h], by simp, by rw [hsum, div_self h], ?_, ?_⟩
  · intro hn q hq
    obtain ⟨v, hv, rfl⟩ := List.mem_map.mp hq
    have h0 : 0 ≤ (net pert).sum := List.sum_nonneg hn
    have h1 : 0 < (net pert).sum := lt_of_le_of_ne h0 (Ne.symm h)
    refine ⟨div_nonneg (hn v hv) h0, ?_⟩
    rw [div_le_one h1]
    exact List.single_le_sum hn v hv
  · intro c hc
    have hm : ((net pert).map (c * ·)).sum = c * (net pert).sum := by
      have := List.sum_map_mul_left (net pert) (fun v => v) c
      simpa using this
    unfold power
    simp only [hm]
    rw [if_neg (mul_ne_zero hc h), List.map_map]
    congr 1
    refine List.map_congr_left fun v _ => ?_
    simp only [Function.comp]
    exact mul_div_mul_left v _ hc

example : power (fun _ : Unit => [1, 3]) () = .ok [1 / 4, 3 / 4] := by norm_num [power]

/-! ### The surface -/

theorem length_linspace (lo hi : ℝ) (n : ℕ) : (linspace lo hi n).length = n := by simp [linspace]

theorem tile_get (l : List ℝ) : ∀ (k i j : ℕ), i < k → j < l.length → (tile l k)[i * l.length + j]? = l[j]?
  | 0, _, _, h, _ => by omega
  | k + 1, 0, j, _, hj => by
    have : tile l (k + 1) = l ++ tile l k := by simp [tile, List.replicate_succ]
    rw [this, Nat.zero_mul, Nat.zero_add, List.getElem?_append_left hj]
  | k + 1, i + 1, j, hi, hj => by
    have : tile l (k + 1) = l ++ tile l k := by simp [tile, List.replicate_succ]
    rw [this, List.getElem?_append_right (by rw [Nat.succ_mul]; omega), ← tile_get l k i j (by omega) hj]
    congr 1
    rw [Nat.succ_mul]; omega

theorem rep_get : ∀ (l : List ℝ) (k i j : ℕ), j < k → i < l.length → (rep l k)[i * k + j]? = l[i]?
  | [], _, _, _, _, h => by simp at h
  | a :: t, k, 0, j, hj, _ => by
    have : rep (a :: t) k = List.replicate k a ++ rep t k := by simp [rep]
    rw [this, Nat.zero_mul, Nat.zero_add, List.getElem?_append_left (by simpa using hj)]
    simp [hj]
  | a :: t, k, i + 1, j, hj, hi => by
    have : rep (a :: t) k = List.replicate k a ++ rep t k := by simp [rep]
    rw [this, List.getElem?_append_right (by simp [Nat.succ_mul]; omega), List.getElem?_cons_succ, ← rep_get t k i j hj (by simpa using hi)]
    congr 1
    simp [Nat.succ_mul]; omega

theorem points_get (lo hi : ℝ) (n i j : ℕ) (hi' : i < n) (hj : j < n) :
    (points lo hi n)[i * n + j]? = some (lo + j * ((hi - lo) / (n - 1 : ℕ)), lo + i * ((hi - lo) / (n - 1 : ℕ))) := by
  have hl := length_linspace lo hi n
  have hg : ∀ k, k < n → (linspace lo hi n)[k]? = some (lo + k * ((hi - lo) / (n - 1 : ℕ))) := by
    intro k hk
    simp [linspace, hk]
  have h1 := tile_get (linspace lo hi n) n i j hi' (by rw [hl]; exact hj)
  have h2 := rep_get (linspace lo hi n) n i j hj (by rw [hl]; exact hi')
  rw [hl, hg j hj] at h1
  rw [hg i hi'] at h2
  simp only [points, hl]
  rw [List.getElem?_zip_eq_some]
  exact ⟨h1, h2⟩

theorem length_points (lo hi : ℝ) (n : ℕ) : (points lo hi n).length = n * n := by
  simp [points, tile, rep, length_linspace, List.length_flatMap]

theorem values_ok {f : ℝ × ℝ → Py ℝ} : ∀ (ps : List (ℝ × ℝ)), (∀ p ∈ ps, ∃ v, f p = .ok v) → ∃ vs, values f ps = .ok vs ∧ vs.length = ps.length ∧
    ∀ (k : ℕ) p, ps[k]? = some p → ∃ v, vs[k]? = some v ∧ f p = .ok v
  | [], _ => ⟨[], rfl, rfl, by simp⟩
  | p :: t, h => by
    obtain ⟨v, hv⟩ := h p (by simp)
    obtain ⟨vs, hvs, hl, hg⟩ := values_ok t fun q hq => h q (by simp [hq])
    refine ⟨v :: vs, by simp [values, hv, hvs], by simp [hl], ?_⟩
    intro k q hk
    cases k with
    | zero => simp at hk; subst hk; exact ⟨v, rfl, hv⟩
    | succ k => simpa using hg k q (by simpa using hk)

theorem values_err {f : ℝ × ℝ → Py ℝ} : ∀ (ps : List (ℝ × ℝ)), (∃ p ∈ ps, ∃ e, f p = .error e) → values f ps = .error .runtimeError
  | [], h => by simp at h
  | p :: t, h => by
    rw [values]
    cases hp : f p with
    | error e => rfl
    | ok v =>
      simp only []
      rw [values_err t]
      obtain ⟨q, hq, e, he⟩ := h
      rcases List.mem_cons.mp hq with rfl | hq
      · rw [hp] at he; cases he
      · exact ⟨q, hq, e, he⟩

theorem reshape_get {α : Type} {n : ℕ} {l : List α} (hl : l.length = n * n) {i j : ℕ} (hi : i < n) (hj : j < n) :
    ∃ row, (reshape n l)[i]? = some row ∧ row[j]? = l[i * n + j]? := by
  refine ⟨(l.drop (i * n)).take n, by simp [reshape, hi], ?_⟩
  rw [List.getElem?_take, if_pos hj, List.getElem?_drop]

/-- **C132**: the surface drawn. In row `i` and column `j` stands the point with first coordinate `lo + j·step` and second `lo + i·step` and the value of the function there; the ends of the domain
are included (from two points on) and no point lies outside. -/
theorem C132_surface {f : ℝ × ℝ → Py ℝ} (hf : ∀ p, ∃ v, f p = .ok v) {lo hi : ℝ} (h : lo ≤ hi) {n : ℕ} (hn : 0 < n) :
    ∃ X Y Z, surface f lo hi n = .ok (X, Y, Z) ∧ ∃ pt : ℕ → ℝ, pt 0 = lo ∧ (2 ≤ n → pt (n - 1) = hi) ∧ (∀ k < n, lo ≤ pt k ∧ pt k ≤ hi) ∧
      ∀ i < n, ∀ j < n, ∃ rx ry rz v, X[i]? = some rx ∧ Y[i]? = some ry ∧ Z[i]? = some rz ∧ rx[j]? = some (pt j) ∧ ry[j]? = some (pt i) ∧ rz[j]? = some v ∧ f (pt j, pt i) = .ok v := by
  obtain ⟨vs, hvs, hl, hg⟩ := values_ok (points lo hi n) fun p _ => hf p
  rw [length_points] at hl
  refine ⟨_, _, _, by rw [surface, hvs]; simp only []; rw [if_neg (by omega)], fun k => lo + k * ((hi - lo) / (n - 1 : ℕ)), by simp, ?_, ?_, ?_⟩
  · intro h2
    have : ((n - 1 : ℕ) : ℝ) ≠ 0 := by
      have : n - 1 ≠ 0 := by omega
      exact_mod_cast this
    field_simp
    ring
  · intro k hk
    rcases Nat.eq_zero_or_pos (n - 1) with h0 | h0
    · rw [h0]; simp [h]
    · have hp : (0 : ℝ) < (n - 1 : ℕ) := by exact_mod_cast h0
      have hk' : (k : ℝ) ≤ (n - 1 : ℕ) := by exact_mod_cast (by omega : k ≤ n - 1)
      have hd : 0 ≤ (hi - lo) / (n - 1 : ℕ) := div_nonneg (by linarith) hp.le
      constructor
      · have : 0 ≤ (k : ℝ) * ((hi - lo) / (n - 1 : ℕ)) := by positivity
        linarith
      · have := mul_le_mul_of_nonneg_right hk' hd
        rw [mul_div_cancel₀ _ hp.ne'] at this
        linarith
  · intro i hi' j hj
    have hp := points_get lo hi n i j hi' hj
    obtain ⟨rx, hx1, hx2⟩ := reshape_get (l := (points lo hi n).map (·.1)) (by simp [length_points]) hi' hj
    obtain ⟨ry, hy1, hy2⟩ := reshape_get (l := (points lo hi n).map (·.2)) (by simp [length_points]) hi' hj
    obtain ⟨rz, hz1, hz2⟩ := reshape_get (l := vs) hl hi' hj
    obtain ⟨v, hv, hfv⟩ := hg _ _ hp
    refine ⟨rx, ry, rz, v, hx1, hy1, hz1, ?_, ?_, by rw [hz2, hv], hfv⟩
    · rw [hx2, List.getElem?_map, hp]; rfl
    · rw [hy2, List.getElem?_map, hp]; rfl

/-- **C132** (defect): whatever goes wrong in the function at one point, or with no points at all, the plot fails with one and the same message about CEC17. -/
theorem C132_surface_error {f : ℝ × ℝ → Py ℝ} {lo hi : ℝ} {n : ℕ} : ((∃ p ∈ points lo hi n, ∃ e, f p = .error e) → surface f lo hi n = .error .runtimeError) ∧
    surface f lo hi 0 = .error .runtimeError := by
  constructor
  · intro h; rw [surface, values_err _ h]
  · simp [surface, points, linspace, tile, rep, values]

end Neorl.BenchMore

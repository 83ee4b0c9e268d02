import Verif.Classic
import Verif.Schwefel

/-!
# The documented minima of the classical benchmark functions (C79, C80)
-/

set_option linter.unusedSectionVars false
set_option linter.unusedVariables false

namespace Neorl.Classic

open Real

/-! ## Specification -/

/-- `f` has a global minimum at `z` with value `v`: evaluating `z` returns `v`, and evaluating any
other individual with as many coordinates returns a value that is not smaller. -/
def MinAt (f : List ℝ → Py ℝ) (z : List ℝ) (v : ℝ) : Prop :=
  f z = .ok v ∧ ∀ x : List ℝ, x.length = z.length → ∃ y, f x = .ok y ∧ v ≤ y

/-- As `MinAt`, and no other individual reaches the minimum. -/
def OnlyMinAt (f : List ℝ → Py ℝ) (z : List ℝ) (v : ℝ) : Prop :=
  MinAt f z v ∧ ∀ x : List ℝ, x.length = z.length → f x = .ok v → x = z

/-- The individual with `n` coordinates all equal to `c`: what a scalar entry of `all_minima_x`
(`classic.py` 327-359) stands for. -/
abbrev allEq (n : ℕ) (c : ℝ) : List ℝ := List.replicate n c

/-! ## One function at a time -/

theorem ok_inj {a b : ℝ} (h : (Except.ok a : Py ℝ) = .ok b) : a = b := by injection h

theorem mem_allEq {n : ℕ} {c a : ℝ} (h : a ∈ allEq n c) : a = c := List.eq_of_mem_replicate h

/-- How the sum-of-nonnegative-terms functions are handled: the terms vanish at the minimiser, are
never negative, and vanish together only there. -/
theorem onlyMin_of {f : List ℝ → Py ℝ} {z : List ℝ} {v : ℝ} (g : List ℝ → ℝ)
    (hf : ∀ x, x.length = z.length → f x = .ok (g x)) (hz : g z = v)
    (hle : ∀ x, x.length = z.length → v ≤ g x)
    (hu : ∀ x, x.length = z.length → g x = v → x = z) : OnlyMinAt f z v := by
  refine ⟨⟨by rw [hf z rfl, hz], fun x hx => ⟨_, hf x hx, hle x hx⟩⟩, fun x hx h => ?_⟩
  rw [hf x hx] at h
  exact hu x hx (ok_inj h)

theorem min_of {f : List ℝ → Py ℝ} {z : List ℝ} {v : ℝ} (g : List ℝ → ℝ)
    (hf : ∀ x, x.length = z.length → f x = .ok (g x)) (hz : g z = v)
    (hle : ∀ x, x.length = z.length → v ≤ g x) : MinAt f z v :=
  ⟨by rw [hf z rfl, hz], fun x hx => ⟨_, hf x hx, hle x hx⟩⟩

theorem sq_sum_nonneg (x : List ℝ) : 0 ≤ sumOf (fun a => a ^ 2) x :=
  sumOf_nonneg fun a _ => sq_nonneg a

theorem sq_sum_zero (n : ℕ) : sumOf (fun a => a ^ 2) (allEq n 0) = 0 := by
  rw [sumOf_replicate]; simp

theorem sq_sum_eq {x : List ℝ} {n : ℕ} (hn : x.length = n) (h : sumOf (fun a => a ^ 2) x = 0) :
    x = allEq n 0 := by
  refine eq_replicate hn fun a ha => ?_
  have := sumOf_zero_mem (fun a _ => sq_nonneg a) h a ha
  exact pow_eq_zero_iff (two_ne_zero) |>.1 this

theorem sphere_min (n : ℕ) : OnlyMinAt sphere (allEq n 0) 0 :=
  onlyMin_of _ (fun _ _ => rfl) (sq_sum_zero n) (fun x _ => sq_sum_nonneg x)
    fun x hx h => sq_sum_eq (by simpa using hx) h

theorem cigar_min {n : ℕ} (hn : 0 < n) : OnlyMinAt cigar (allEq n 0) 0 := by
  refine onlyMin_of (fun x => x.headD 0 ^ 2 + 1000000 * sumOf (fun g => g * g) x) ?_ ?_ ?_ ?_
  · rintro (_ | ⟨a, t⟩) hx
    · simp at hx; omega
    · rfl
  · obtain ⟨m, rfl⟩ : ∃ m, n = m + 1 := ⟨n - 1, by omega⟩
    simp only [sumOf_replicate]; simp [List.replicate_succ]
  · intro x _
    have := sumOf_nonneg (x := x) (g := fun g => g * g) fun a _ => mul_self_nonneg a
    positivity
  · intro x hx h
    have h1 := sumOf_nonneg (x := x) (g := fun g => g * g) fun a _ => mul_self_nonneg a
    have h2 : sumOf (fun g => g * g) x = 0 := by nlinarith [sq_nonneg (x.headD 0)]
    refine eq_replicate (by simpa using hx) fun a ha => ?_
    exact mul_self_eq_zero.1 (sumOf_zero_mem (fun a _ => mul_self_nonneg a) h2 a ha)

/-- A sum over the pairs. -/
theorem pairs_min {f : List ℝ → Py ℝ} (t : ℝ × ℝ → ℝ) (c : ℝ) (hf : ∀ x, f x = .ok (sumOf t (pairs x)))
    (hc : t (c, c) = 0) (h0 : ∀ p, 0 ≤ t p) (hu : ∀ p, t p = 0 → p = (c, c)) (n : ℕ) :
    MinAt f (allEq n c) 0 ∧ (2 ≤ n → OnlyMinAt f (allEq n c) 0) := by
  have hm : MinAt f (allEq n c) 0 := by
    refine min_of _ (fun x _ => hf x) ?_ fun x _ => sumOf_nonneg fun p _ => h0 p
    refine sumOf_eq_zero fun p hp => ?_
    have h1 := mem_allEq (mem_pairs hp).1
    have h2 := mem_allEq (mem_pairs hp).2
    obtain ⟨a, b⟩ := p
    simp only at h1 h2
    rw [h1, h2, hc]
  refine ⟨hm, fun hn => ⟨hm, fun x hx h => ?_⟩⟩
  rw [hf] at h
  have hz := sumOf_zero_mem (fun p _ => h0 p) (ok_inj h)
  have hl : x.length = n := by simpa using hx
  refine eq_replicate hl fun a ha => ?_
  obtain ⟨p, hp, hpa⟩ := exists_pair (by omega) ha
  have := hu p (hz p hp)
  subst this
  simpa using hpa

theorem rosenbrock_min (n : ℕ) :
    MinAt rosenbrock (allEq n 1) 0 ∧ (2 ≤ n → OnlyMinAt rosenbrock (allEq n 1) 0) := by
  refine pairs_min _ 1 (fun _ => rfl) (by norm_num) (fun p => by positivity) ?_ n
  rintro ⟨a, b⟩ h
  simp only at h
  have h1 : (1 - a) ^ 2 = 0 := by nlinarith [sq_nonneg (a * a - b), sq_nonneg (1 - a)]
  have h2 : (a * a - b) ^ 2 = 0 := by nlinarith [sq_nonneg (a * a - b), sq_nonneg (1 - a)]
  have h3 : a = 1 := by have := pow_eq_zero_iff two_ne_zero |>.1 h1; linarith
  have h4 : b = 1 := by have := pow_eq_zero_iff two_ne_zero |>.1 h2; subst h3; linarith
  rw [h3, h4]

theorem bohachevsky_min (n : ℕ) :
    MinAt bohachevsky (allEq n 0) 0 ∧ (2 ≤ n → OnlyMinAt bohachevsky (allEq n 0) 0) := by
  refine pairs_min _ 0 (fun _ => rfl) (by norm_num) ?_ ?_ n
  · rintro ⟨a, b⟩
    have := cos_le_one (3 * π * a); have := cos_le_one (4 * π * b)
    simp only
    nlinarith [sq_nonneg a, sq_nonneg b]
  · rintro ⟨a, b⟩ h
    simp only at h
    have := cos_le_one (3 * π * a); have := cos_le_one (4 * π * b)
    have h1 : a ^ 2 = 0 := by nlinarith [sq_nonneg a, sq_nonneg b]
    have h2 : b ^ 2 = 0 := by nlinarith [sq_nonneg a, sq_nonneg b]
    rw [pow_eq_zero_iff two_ne_zero |>.1 h1, pow_eq_zero_iff two_ne_zero |>.1 h2]

theorem griewank_min (n : ℕ) : OnlyMinAt griewank (allEq n 0) 0 := by
  have hp : ∀ x : List ℝ, prodOf (fun p : ℝ × ℕ => cos (p.1 / √((p.2 : ℝ) + 1))) x.zipIdx ≤ 1 :=
    fun x => (le_abs_self _).trans (abs_prodOf_le fun a _ => abs_cos_le_one _)
  refine onlyMin_of _ (fun _ _ => rfl) ?_ ?_ ?_
  · have h1 : prodOf (fun p : ℝ × ℕ => cos (p.1 / √((p.2 : ℝ) + 1))) (allEq n 0).zipIdx = 1 := by
      refine prodOf_eq_one fun p hp => ?_
      rw [mem_allEq (mem_zipIdx_fst hp).1]; simp
    rw [sq_sum_zero, h1]; norm_num
  · intro x _
    have := hp x; have := sq_sum_nonneg x
    linarith
  · intro x hx h
    have h1 := hp x; have h2 := sq_sum_nonneg x
    exact sq_sum_eq (by simpa using hx) (by linarith)

/-- `g² - 10 cos` is at least `-10`, and equal to it only at zero. -/
theorem rast_term (a b : ℝ) : -10 ≤ a ^ 2 - 10 * cos b := by
  have := cos_le_one b; nlinarith [sq_nonneg a]

theorem rast_sum {α : Type} {g : α → ℝ} {l : List α} {m : ℕ} (hl : l.length = m)
    (h : ∀ a ∈ l, -10 ≤ g a) : 0 ≤ 10 * (m : ℝ) + sumOf g l := by
  have := length_le_sumOf h
  rw [hl] at this; linarith

theorem rast_zero {α : Type} {g : α → ℝ} {l : List α} {m : ℕ} (hl : l.length = m)
    (h : ∀ a ∈ l, -10 ≤ g a) (h0 : 10 * (m : ℝ) + sumOf g l = 0) : ∀ a ∈ l, g a = -10 := by
  have h1 : sumOf (fun a => g a + 10) l = 0 := by
    rw [sumOf_add, sumOf_const, hl]; linarith
  intro a ha
  have := sumOf_zero_mem (fun a ha => by have := h a ha; linarith) h1 a ha
  linarith

theorem rast_flat {α : Type} {g : α → ℝ} {l : List α} {m : ℕ} (hl : l.length = m)
    (h : ∀ a ∈ l, g a = -10) : 10 * (m : ℝ) + sumOf g l = 0 := by
  rw [sumOf_congr h, sumOf_const, hl]; ring

theorem rastrigin_min (n : ℕ) : OnlyMinAt rastrigin (allEq n 0) 0 := by
  refine onlyMin_of _ (fun _ _ => rfl) ?_ ?_ ?_
  · refine rast_flat rfl fun a ha => ?_
    rw [mem_allEq ha]; norm_num
  · intro x _
    refine rast_sum rfl fun a _ => ?_
    have := rast_term a (2 * π * a); nlinarith
  · intro x hx h
    refine eq_replicate (by simpa using hx) fun a ha => ?_
    have := rast_zero rfl (fun a _ => by have := rast_term a (2 * π * a); nlinarith) h a ha
    have h2 := cos_le_one (2 * π * a)
    exact mul_self_eq_zero.1 (by nlinarith [mul_self_nonneg a])

theorem rastriginSkew_min (n : ℕ) : OnlyMinAt rastriginSkew (allEq n 0) 0 := by
  refine onlyMin_of _ (fun _ _ => rfl) ?_ ?_ ?_
  · refine rast_flat rfl fun a ha => ?_
    rw [mem_allEq ha]; norm_num
  · intro x _
    exact rast_sum rfl fun a _ => rast_term _ _
  · intro x hx h
    refine eq_replicate (by simpa using hx) fun a ha => ?_
    have h1 := rast_zero rfl (fun a _ => rast_term _ _) h a ha
    have h2 := cos_le_one (2 * π * (if 0 < a then 10 * a else a))
    have h3 : (if 0 < a then 10 * a else a) ^ 2 = 0 := by
      nlinarith [sq_nonneg (if 0 < a then 10 * a else a)]
    have h4 := pow_eq_zero_iff two_ne_zero |>.1 h3
    split_ifs at h4 <;> linarith

theorem rastriginScaled_min {n : ℕ} (hn : n ≠ 1) : OnlyMinAt rastriginScaled (allEq n 0) 0 := by
  refine onlyMin_of (fun x => 10 * x.length + sumOf (fun p : ℝ × ℕ =>
      ((10 : ℝ) ^ ((p.2 : ℝ) / ((x.length : ℝ) - 1)) * p.1) ^ 2
        - 10 * cos (2 * π * (10 : ℝ) ^ ((p.2 : ℝ) / ((x.length : ℝ) - 1)) * p.1)) x.zipIdx) (fun x hx => ?_) ?_ ?_ ?_
  · unfold rastriginScaled
    rw [if_neg (by simpa [hx] using hn)]
  · refine rast_flat (by simp) fun p hp => ?_
    rw [mem_allEq (mem_zipIdx_fst hp).1]; norm_num
  · intro x _
    exact rast_sum (by simp) fun a _ => rast_term _ _
  · intro x hx h
    refine eq_replicate (by simpa using hx) fun a ha => ?_
    obtain ⟨i, hi⟩ := exists_zipIdx 0 ha
    have h1 := rast_zero (by simp) (fun a _ => rast_term _ _) h (a, i) hi
    simp only at h1
    have h2 := cos_le_one (2 * π * (10 : ℝ) ^ ((i : ℝ) / ((x.length : ℝ) - 1)) * a)
    have h3 : ((10 : ℝ) ^ ((i : ℝ) / ((x.length : ℝ) - 1)) * a) ^ 2 = 0 := by
      nlinarith [sq_nonneg ((10 : ℝ) ^ ((i : ℝ) / ((x.length : ℝ) - 1)) * a)]
    have h4 := pow_eq_zero_iff two_ne_zero |>.1 h3
    have h5 : (0 : ℝ) < (10 : ℝ) ^ ((i : ℝ) / ((x.length : ℝ) - 1)) := by positivity
    rcases mul_eq_zero.1 h4 with h6 | h6
    · exact absurd h6 h5.ne'
    · exact h6

theorem ackley_min {n : ℕ} (hn : 0 < n) : OnlyMinAt ackley (allEq n 0) 0 := by
  have hc : ∀ x : List ℝ, 0 < x.length →
      exp (1 / x.length * sumOf (fun a => cos (2 * π * a)) x) ≤ exp 1 := by
    intro x hx
    refine exp_le_exp.2 ?_
    have h1 := sumOf_le_length (x := x) (g := fun a => cos (2 * π * a)) (c := 1)
      fun a _ => cos_le_one _
    have h2 : (0 : ℝ) < x.length := by exact_mod_cast hx
    rw [one_div, inv_mul_le_iff₀ h2]; linarith
  have he : ∀ s : ℝ, exp (-0.2 * √s) ≤ 1 := fun s => by
    rw [exp_le_one_iff]; have := Real.sqrt_nonneg s; nlinarith
  refine onlyMin_of (fun x => 20 - 20 * exp (-0.2 * √(1 / x.length * sumOf (fun a => a ^ 2) x))
      + exp 1 - exp (1 / x.length * sumOf (fun a => cos (2 * π * a)) x)) (fun x hx => ?_) ?_ ?_ ?_
  · unfold ackley
    rw [if_neg (by simp [hx]; omega)]
  · have h2 : (n : ℝ) ≠ 0 := by exact_mod_cast hn.ne'
    simp only [sumOf_replicate, List.length_replicate]
    simp [h2]
  · intro x hx
    have := hc x (by simp [hx]; omega); have := he (1 / x.length * sumOf (fun a => a ^ 2) x)
    linarith
  · intro x hx h
    have h1 := hc x (by simp [hx]; omega); have h2 := he (1 / x.length * sumOf (fun a => a ^ 2) x)
    have h3 : exp (-0.2 * √(1 / x.length * sumOf (fun a => a ^ 2) x)) = 1 := by linarith
    rw [exp_eq_one_iff] at h3
    have hs := sq_sum_nonneg x
    have hx' : (0 : ℝ) < x.length := by simp only [hx, List.length_replicate]; exact_mod_cast hn
    have h4 : √(1 / x.length * sumOf (fun a => a ^ 2) x) = 0 := by linarith
    rw [Real.sqrt_eq_zero (by positivity)] at h4
    refine sq_sum_eq (by simpa using hx) ?_
    rcases mul_eq_zero.1 h4 with h5 | h5
    · simp at h5; simp [h5] at hx'
    · exact h5

theorem schaffer_min (n : ℕ) :
    MinAt schaffer (allEq n 0) 0 ∧ (2 ≤ n → OnlyMinAt schaffer (allEq n 0) 0) := by
  refine pairs_min _ 0 (fun _ => rfl) ?_ (fun p => by positivity) ?_ n
  · have : (0 : ℝ) ^ (0.25 : ℝ) = 0 := Real.zero_rpow (by norm_num)
    norm_num
  · rintro ⟨a, b⟩ h
    simp only at h
    have h1 : (0 : ℝ) < sin (50 * (a ^ 2 + b ^ 2) ^ (0.1 : ℝ)) ^ 2 + 1 := by positivity
    have h2 : (a ^ 2 + b ^ 2) ^ (0.25 : ℝ) = 0 := by
      rcases mul_eq_zero.1 h with h | h
      · exact h
      · exact absurd h h1.ne'
    have h3 : a ^ 2 + b ^ 2 = 0 := ((Real.rpow_eq_zero_iff_of_nonneg (by positivity)).1 h2).1
    have ha : a ^ 2 = 0 := by nlinarith [sq_nonneg a, sq_nonneg b]
    have hb : b ^ 2 = 0 := by nlinarith [sq_nonneg a, sq_nonneg b]
    rw [pow_eq_zero_iff two_ne_zero |>.1 ha, pow_eq_zero_iff two_ne_zero |>.1 hb]

theorem abs_sum_eq {x : List ℝ} {n : ℕ} (hn : x.length = n) (h : sumOf (fun a => |a|) x = 0) :
    x = allEq n 0 := by
  refine eq_replicate hn fun a ha => ?_
  exact abs_eq_zero.1 (sumOf_zero_mem (fun a _ => abs_nonneg a) h a ha)

theorem schwefel2_min {n : ℕ} (hn : 0 < n) : OnlyMinAt schwefel2 (allEq n 0) 0 := by
  refine onlyMin_of _ (fun _ _ => rfl) ?_ ?_ ?_
  · rw [sumOf_replicate, prodOf_eq_zero (a := 0) (by simp; omega) (by simp)]; simp
  · intro x _
    exact add_nonneg (sumOf_nonneg fun a _ => abs_nonneg a) (prodOf_nonneg fun a _ => abs_nonneg a)
  · intro x hx h
    have h1 := sumOf_nonneg (x := x) fun a _ => abs_nonneg a
    have h2 := prodOf_nonneg (x := x) fun a _ => abs_nonneg a
    exact abs_sum_eq (by simpa using hx) (by linarith)

theorem brown_min (n : ℕ) :
    MinAt brown (allEq n 0) 0 ∧ (2 ≤ n → OnlyMinAt brown (allEq n 0) 0) := by
  have hnn : ∀ x : List ℝ, ∀ p ∈ pairs (x.map fun a => a ^ 2), 0 ≤ p.1 ∧ 0 ≤ p.2 := by
    intro x p hp
    obtain ⟨h1, h2⟩ := mem_pairs hp
    obtain ⟨a, _, ha⟩ := List.mem_map.1 h1
    obtain ⟨b, _, hb⟩ := List.mem_map.1 h2
    exact ⟨ha ▸ sq_nonneg a, hb ▸ sq_nonneg b⟩
  have hterm : ∀ x : List ℝ, ∀ p ∈ pairs (x.map fun a => a ^ 2),
      0 ≤ p.1 ^ (p.2 + 1) + p.2 ^ (p.1 + 1) := fun x p hp =>
    add_nonneg (Real.rpow_nonneg (hnn x p hp).1 _) (Real.rpow_nonneg (hnn x p hp).2 _)
  have hm : MinAt brown (allEq n 0) 0 := by
    refine min_of _ (fun _ _ => rfl) ?_ fun x _ => sumOf_nonneg (hterm x)
    refine sumOf_eq_zero fun p hp => ?_
    obtain ⟨h1, h2⟩ := mem_pairs hp
    obtain ⟨a, ha', ha⟩ := List.mem_map.1 h1
    obtain ⟨b, hb', hb⟩ := List.mem_map.1 h2
    rw [mem_allEq ha'] at ha; rw [mem_allEq hb'] at hb
    rw [← ha, ← hb]; norm_num
  refine ⟨hm, fun hn => ⟨hm, fun x hx h => ?_⟩⟩
  have hz := sumOf_zero_mem (hterm x) (ok_inj h)
  have hl : x.length = n := by simpa using hx
  refine eq_replicate hl fun a ha => ?_
  obtain ⟨p, hp, hpa⟩ := exists_pair (x := x.map fun a => a ^ 2) (by simp; omega)
    (List.mem_map.2 ⟨a, ha, rfl⟩)
  have h0 := hz p hp
  obtain ⟨h1, h2⟩ := hnn x p hp
  have h3 := Real.rpow_nonneg h1 (p.2 + 1)
  have h4 := Real.rpow_nonneg h2 (p.1 + 1)
  have h5 : p.1 = 0 := ((Real.rpow_eq_zero_iff_of_nonneg h1).1 (by linarith)).1
  have h6 : p.2 = 0 := ((Real.rpow_eq_zero_iff_of_nonneg h2).1 (by linarith)).1
  rw [h5, h6, or_self] at hpa
  exact pow_eq_zero_iff two_ne_zero |>.1 hpa

theorem expo_min (n : ℕ) : OnlyMinAt expo (allEq n 0) (-1) := by
  refine onlyMin_of _ (fun _ _ => rfl) ?_ ?_ ?_
  · rw [sq_sum_zero]; simp
  · intro x _
    have h1 := sq_sum_nonneg x
    have : exp (-0.5 * sumOf (fun a => a ^ 2) x) ≤ 1 := by rw [exp_le_one_iff]; linarith
    linarith
  · intro x hx h
    have h1 : exp (-0.5 * sumOf (fun a => a ^ 2) x) = 1 := by linarith
    rw [exp_eq_one_iff] at h1
    exact sq_sum_eq (by simpa using hx) (by linarith)

/-- Whatever `random.random()` returns in the two evaluations. -/
theorem yang_min (n : ℕ) (r s : ℕ → ℝ) (hr : ∀ i, 0 ≤ r i) :
    yang s (allEq n 0) = .ok 0 ∧ ∀ x : List ℝ, x.length = n → ∃ y, yang r x = .ok y ∧ 0 ≤ y := by
  refine ⟨congrArg _ (sumOf_eq_zero fun p hp => ?_), fun x _ => ⟨_, rfl, sumOf_nonneg fun p _ => ?_⟩⟩
  · obtain ⟨h1, h2, _⟩ := mem_zipIdx_fst hp
    rw [mem_allEq h1, abs_zero, zero_pow (by omega), mul_zero]
  · exact mul_nonneg (hr _) (by positivity)

theorem yang2_min (n : ℕ) : OnlyMinAt yang2 (allEq n 0) 0 := by
  refine onlyMin_of _ (fun _ _ => rfl) ?_ ?_ ?_
  · simp only [sumOf_replicate]; simp
  · intro x _
    exact mul_nonneg (sumOf_nonneg fun a _ => abs_nonneg a) (exp_pos _).le
  · intro x hx h
    rcases mul_eq_zero.1 h with h1 | h1
    · exact abs_sum_eq (by simpa using hx) h1
    · exact absurd h1 (exp_pos _).ne'

theorem pow_le_sq (a : ℝ) (h : |a| ≤ 15) : (a / 15) ^ (2 * 5) ≤ a ^ 2 := by
  have h1 : (a / 15) ^ 2 ≤ 1 := by
    rw [div_pow, div_le_one (by norm_num)]
    have := abs_le.1 h; nlinarith
  have h2 : (a / 15) ^ (2 * 5) = (a / 15) ^ 2 * ((a / 15) ^ 2) ^ 4 := by ring
  have h3 : ((a / 15) ^ 2) ^ 4 ≤ 1 := pow_le_one₀ (sq_nonneg _) h1
  rw [h2]
  have h4 : (a / 15) ^ 2 ≤ a ^ 2 := by rw [div_pow]; nlinarith [sq_nonneg a]
  nlinarith [sq_nonneg (a / 15)]

/-- `2 exp(-Σx²) Π cos²x - exp(-Σ(x/15)^10) ≤ 1`, with equality only at the origin. -/
theorem yang3_bound (x : List ℝ) (hx : ∃ a ∈ x, a ≠ 0) :
    2 * exp (-sumOf (fun a => a ^ 2) x) * prodOf (fun a => cos a ^ 2) x
      < 1 + exp (-sumOf (fun a => (a / 15) ^ (2 * 5)) x) := by
  have hp0 : 0 ≤ prodOf (fun a => cos a ^ 2) x := prodOf_nonneg fun a _ => sq_nonneg _
  have hp1 : prodOf (fun a => cos a ^ 2) x ≤ 1 :=
    (le_abs_self _).trans (abs_prodOf_le fun a _ => by
      rw [abs_pow]; exact pow_le_one₀ (abs_nonneg _) (abs_cos_le_one _))
  have hs : 0 < sumOf (fun a => a ^ 2) x := by
    rcases (sq_sum_nonneg x).lt_or_eq with h | h
    · exact h
    · obtain ⟨a, ha, hne⟩ := hx
      exact absurd (mem_allEq (sq_sum_eq (n := x.length) rfl h.symm ▸ ha)) hne
  have he : exp (-sumOf (fun a => a ^ 2) x) < 1 := by rw [exp_lt_one_iff]; linarith
  have he0 := exp_pos (-sumOf (fun a => a ^ 2) x)
  have hA := exp_pos (-sumOf (fun a => (a / 15) ^ (2 * 5)) x)
  have hle : 2 * exp (-sumOf (fun a => a ^ 2) x) * prodOf (fun a => cos a ^ 2) x
      ≤ 2 * exp (-sumOf (fun a => a ^ 2) x) := by nlinarith
  by_cases h : ∀ a ∈ x, |a| ≤ 15
  · have h1 : sumOf (fun a => (a / 15) ^ (2 * 5)) x ≤ sumOf (fun a => a ^ 2) x :=
      sumOf_le fun a ha => pow_le_sq a (h a ha)
    have h2 := exp_le_exp.2 (neg_le_neg h1)
    linarith
  · push Not at h
    obtain ⟨a, ha, hb⟩ := h
    have h1 : (1 : ℝ) ≤ sumOf (fun a => a ^ 2) x := by
      have h3 : a ^ 2 ≤ sumOf (fun a => a ^ 2) x := by
        clear hp0 hp1 hs he he0 hA hle hx
        induction x with
        | nil => simp at ha
        | cons b t ih =>
          rw [sumOf_cons]
          rcases List.mem_cons.1 ha with rfl | ha
          · have := sq_sum_nonneg t; linarith
          · have := ih ha; nlinarith [sq_nonneg b]
      have : (15 : ℝ) ^ 2 ≤ a ^ 2 := by rw [← sq_abs a]; gcongr
      linarith
    have h2 : exp (-sumOf (fun a => a ^ 2) x) ≤ exp (-1) := exp_le_exp.2 (by linarith)
    have h3 : exp (-1 : ℝ) ≤ 1 / 2 := by
      rw [exp_neg, one_div]
      exact inv_anti₀ (by norm_num) (by have := add_one_le_exp (1 : ℝ); linarith)
    linarith

theorem yang3_min (n : ℕ) : OnlyMinAt yang3 (allEq n 0) (-1) := by
  have hz : ∀ x : List ℝ, x.length = n → (∃ a ∈ x, a ≠ 0) ∨ x = allEq n 0 := by
    intro x hx
    by_cases h : ∃ a ∈ x, a ≠ 0
    · exact Or.inl h
    · push Not at h; exact Or.inr (eq_replicate hx h)
  have h0 : exp (-sumOf (fun a => (a / 15) ^ (2 * 5)) (allEq n 0))
      - 2 * exp (-sumOf (fun a => a ^ 2) (allEq n 0)) * prodOf (fun a => cos a ^ 2) (allEq n 0)
        = -1 := by
    rw [sq_sum_zero, sumOf_replicate, prodOf_eq_one fun a ha => by rw [mem_allEq ha]; simp]
    norm_num
  refine onlyMin_of _ (fun _ _ => rfl) h0 ?_ ?_
  · intro x hx
    rcases hz x (by simpa using hx) with h | h
    · have := yang3_bound x h; linarith
    · rw [h, h0]
  · intro x hx h
    rcases hz x (by simpa using hx) with h1 | h1
    · have := yang3_bound x h1; linarith
    · exact h1

theorem yang4_min (n : ℕ) : OnlyMinAt yang4 (allEq n 0) (-1) := by
  have h1 : ∀ x : List ℝ, 0 ≤ sumOf (fun a => sin a ^ 2) x := fun x => sumOf_nonneg fun a _ => sq_nonneg _
  have h2 : ∀ x : List ℝ, exp (-sumOf (fun a => sin √|a| ^ 2) x) ≤ 1 := fun x => by
    have := sumOf_nonneg (x := x) (g := fun a => sin √|a| ^ 2) fun a _ => sq_nonneg _
    rw [exp_le_one_iff]; linarith
  have h3 : ∀ x : List ℝ, exp (-sumOf (fun a => a ^ 2) x) ≤ 1 := fun x => by
    have := sq_sum_nonneg x
    rw [exp_le_one_iff]; linarith
  refine onlyMin_of _ (fun _ _ => rfl) ?_ ?_ ?_
  · simp only [sumOf_replicate]; simp
  · intro x _
    have := h1 x; have := h2 x; have := h3 x
    have := exp_pos (-sumOf (fun a => sin √|a| ^ 2) x)
    have := exp_pos (-sumOf (fun a => a ^ 2) x)
    nlinarith
  · intro x hx h
    have a1 := h1 x; have a2 := h2 x; have a3 := h3 x
    have a4 := exp_pos (-sumOf (fun a => sin √|a| ^ 2) x)
    have a5 := exp_pos (-sumOf (fun a => a ^ 2) x)
    have a6 : exp (-sumOf (fun a => a ^ 2) x) = 1 := by
      refine le_antisymm a3 ?_
      nlinarith
    rw [exp_eq_one_iff] at a6
    exact sq_sum_eq (by simpa using hx) (by linarith)

theorem zakharov_min (n : ℕ) : OnlyMinAt zakharov (allEq n 0) 0 := by
  have hz : ∀ s : ℝ, 0 ≤ s ^ 2 ∧ 0 ≤ s ^ 4 := fun s => ⟨by positivity, by positivity⟩
  refine onlyMin_of _ (fun _ _ => rfl) ?_ ?_ ?_
  · rw [sq_sum_zero, sumOf_eq_zero (g := fun p : ℝ × ℕ => 0.5 * p.2 * p.1)]
    · norm_num
    · intro p hp; rw [mem_allEq (mem_zipIdx_fst hp).1]; simp
  · intro x _
    have := sq_sum_nonneg x
    positivity
  · intro x hx h
    have h1 := sq_sum_nonneg x
    have h2 := hz (sumOf (fun p : ℝ × ℕ => 0.5 * p.2 * p.1) (x.zipIdx 1))
    exact sq_sum_eq (by simpa using hx) (by linarith [h2.1, h2.2])

theorem salomon_min (n : ℕ) : OnlyMinAt salomon (allEq n 0) 0 := by
  refine onlyMin_of _ (fun _ _ => rfl) ?_ ?_ ?_
  · rw [sq_sum_zero]; simp
  · intro x _
    have := cos_le_one (2 * π * √(sumOf (fun a => a ^ 2) x))
    have := Real.sqrt_nonneg (sumOf (fun a => a ^ 2) x)
    linarith
  · intro x hx h
    have h1 := cos_le_one (2 * π * √(sumOf (fun a => a ^ 2) x))
    have h2 := Real.sqrt_nonneg (sumOf (fun a => a ^ 2) x)
    have h3 : √(sumOf (fun a => a ^ 2) x) = 0 := by linarith
    rw [Real.sqrt_eq_zero (sq_sum_nonneg x)] at h3
    exact sq_sum_eq (by simpa using hx) h3

theorem powell_min (n : ℕ) : OnlyMinAt powell (allEq n 0) 0 := by
  refine onlyMin_of _ (fun _ _ => rfl) ?_ ?_ ?_
  · refine sumOf_eq_zero fun p hp => ?_
    rw [mem_allEq (mem_zipIdx_fst hp).1]; simp
  · exact fun x _ => sumOf_nonneg fun p _ => by positivity
  · intro x hx h
    refine eq_replicate (by simpa using hx) fun a ha => ?_
    obtain ⟨i, hi⟩ := exists_zipIdx 1 ha
    have := sumOf_zero_mem (fun p _ => by positivity) h _ hi
    exact abs_eq_zero.1 (pow_eq_zero_iff (by omega) |>.1 this)

/-- The minima of `qing`: any individual whose `i`-th coordinate (from one) is `√i` or `-√i`. -/
theorem qing_min (z : List ℝ) (hz : ∀ i (hi : i < z.length), z[i] = √(i + 1) ∨ z[i] = -√(i + 1)) :
    MinAt qing z 0 := by
  refine min_of _ (fun _ _ => rfl) ?_ fun x _ => sumOf_nonneg fun p _ => by positivity
  refine sumOf_eq_zero fun p hp => ?_
  obtain ⟨i, hi, rfl⟩ := List.getElem_of_mem hp
  have hi' : i < z.length := by simpa using hi
  have hc : (0 : ℝ) ≤ (i : ℝ) + 1 := by positivity
  simp only [List.getElem_zipIdx]
  have : z[i] ^ 2 = (i : ℝ) + 1 := by
    rcases hz i hi' with h | h <;> rw [h]
    · exact Real.sq_sqrt hc
    · rw [neg_sq]; exact Real.sq_sqrt hc
  rw [this]; push_cast; ring

/-- And no other individual is a minimum of `qing`. -/
theorem qing_only (x : List ℝ) (h : qing x = .ok 0) :
    ∀ i (hi : i < x.length), x[i] = √(i + 1) ∨ x[i] = -√(i + 1) := by
  intro i hi
  have hi' : i < (x.zipIdx 1).length := by simpa using hi
  have := sumOf_zero_mem (fun p _ => by positivity) (ok_inj h) _ (List.getElem_mem hi')
  simp only [List.getElem_zipIdx] at this
  have h2 : x[i] ^ 2 = (i : ℝ) + 1 := by
    have := pow_eq_zero_iff two_ne_zero |>.1 this
    push_cast at this; linarith
  have h3 : x[i] ^ 2 = √((i : ℝ) + 1) ^ 2 := by rw [h2, Real.sq_sqrt (by positivity)]
  exact sq_eq_sq_iff_eq_or_eq_neg.1 h3

theorem happy_split (x : List ℝ) :
    0.5 * sumOf (fun a => a ^ 2) x + x.sum + 0.5 * x.length = 0.5 * sumOf (fun a => (a + 1) ^ 2) x := by
  induction x with
  | nil => simp
  | cons a t ih =>
    simp only [sumOf_cons, List.sum_cons, List.length_cons]
    push_cast
    linarith [ih, show (a + 1) ^ 2 = a ^ 2 + 2 * a + 1 by ring]

theorem happycat_min {n : ℕ} (hn : 0 < n) : OnlyMinAt happycat (allEq n (-1)) 0 := by
  have key : ∀ x : List ℝ, 0 < x.length →
      1 / x.length * (0.5 * sumOf (fun a => a ^ 2) x + x.sum) + 0.5
        = 1 / x.length * (0.5 * sumOf (fun a => (a + 1) ^ 2) x) := by
    intro x hx
    have h2 : (x.length : ℝ) ≠ 0 := by exact_mod_cast hx.ne'
    rw [← happy_split]; field_simp
  have hnn : ∀ x : List ℝ, 0 ≤ sumOf (fun a => (a + 1) ^ 2) x := fun x =>
    sumOf_nonneg fun a _ => sq_nonneg _
  have hl : ∀ x : List ℝ, x.length = (allEq n (-1)).length → 0 < x.length := fun x hx => by
    simp [hx]; omega
  refine onlyMin_of (fun x => ((sumOf (fun a => a ^ 2) x - x.length) ^ 2) ^ (1 / 8 : ℝ)
      + (1 / x.length * (0.5 * sumOf (fun a => a ^ 2) x + x.sum) + 0.5)) (fun x hx => ?_) ?_ ?_ ?_
  · unfold happycat
    rw [if_neg (hl x hx).ne', ← add_assoc]
  · rw [key _ (hl _ rfl), sumOf_replicate, sumOf_replicate]
    norm_num
  · intro x hx
    rw [key _ (hl x hx)]
    have := hnn x
    positivity
  · intro x hx h
    rw [key _ (hl x hx)] at h
    have h1 := hnn x
    have h2 : (0 : ℝ) < x.length := by exact_mod_cast hl x hx
    have h3 : 0 ≤ ((sumOf (fun a => a ^ 2) x - x.length) ^ 2) ^ (1 / 8 : ℝ) := by positivity
    have h4 : 0 ≤ 1 / x.length * (0.5 * sumOf (fun a => (a + 1) ^ 2) x) := by positivity
    have h5 : 1 / x.length * (0.5 * sumOf (fun a => (a + 1) ^ 2) x) = 0 := by linarith
    have h6 : sumOf (fun a => (a + 1) ^ 2) x = 0 := by
      rcases mul_eq_zero.1 h5 with h | h
      · simp at h; simp [h] at h2
      · linarith
    refine eq_replicate (by simpa using hx) fun a ha => ?_
    have := pow_eq_zero_iff two_ne_zero |>.1 (sumOf_zero_mem (fun a _ => sq_nonneg _) h6 a ha)
    linarith

/-- The documented minimiser of `dixonprice`: `2^(-(2^i-2)/2^i)` for `i` from one. -/
noncomputable def dixonX (n : ℕ) : List ℝ :=
  (List.range' 1 n).map fun i => (2 : ℝ) ^ (-((2 : ℝ) ^ i - 2) / (2 : ℝ) ^ i)

theorem dixon_step (i : ℕ) :
    2 * ((2 : ℝ) ^ (-((2 : ℝ) ^ (i + 1) - 2) / (2 : ℝ) ^ (i + 1))) ^ 2
      = (2 : ℝ) ^ (-((2 : ℝ) ^ i - 2) / (2 : ℝ) ^ i) := by
  have h2 : (0 : ℝ) < 2 := by norm_num
  have hp : (2 : ℝ) ^ i ≠ 0 := by positivity
  rw [← Real.rpow_natCast ((2 : ℝ) ^ (-((2 : ℝ) ^ (i + 1) - 2) / (2 : ℝ) ^ (i + 1))) 2,
    ← Real.rpow_mul h2.le]
  nth_rewrite 1 [← Real.rpow_one (2 : ℝ)]
  rw [← Real.rpow_add h2]
  congr 1
  rw [pow_succ]
  push_cast
  field_simp
  ring

theorem dixonprice_min {n : ℕ} (hn : 0 < n) : MinAt dixonprice (dixonX n) 0 := by
  refine min_of (fun x => sumOf (fun q : (ℝ × ℝ) × ℕ => q.2 * (2 * q.1.2 ^ 2 - q.1.1) ^ 2)
      ((pairs x).zipIdx 2) + (x.headD 0 - 1) ^ 2) ?_ ?_ ?_
  · rintro (_ | ⟨a, t⟩) hx
    · simp [dixonX] at hx; omega
    · rfl
  · have h1 : (dixonX n).headD 0 = 1 := by
      obtain ⟨m, rfl⟩ : ∃ m, n = m + 1 := ⟨n - 1, by omega⟩
      simp [dixonX, List.range'_succ]
    rw [h1, sumOf_eq_zero]
    · norm_num
    · intro q hq
      obtain ⟨hp, _, _⟩ := mem_zipIdx_fst hq
      obtain ⟨i, hi, he⟩ := List.getElem_of_mem hp
      obtain ⟨h2, h3, h4⟩ := pairs_get hi
      rw [← he, h4]
      simp only [dixonX, List.getElem_map, List.getElem_range']
      have := dixon_step (1 + 1 * i)
      rw [show 1 + 1 * (i + 1) = (1 + 1 * i) + 1 by ring, this]
      ring
  · intro x _
    refine add_nonneg (sumOf_nonneg fun q _ => ?_) (sq_nonneg _)
    positivity

theorem levy_min {n : ℕ} (hn : 0 < n) : OnlyMinAt levy (allEq n 1) 0 := by
  have hw : ∀ x : List ℝ, 0 < x.length → ∃ a t, (x.map fun a => 1 + (a - 1) / 4) = a :: t := by
    rintro (_ | ⟨a, t⟩) h
    · simp at h
    · exact ⟨_, _, rfl⟩
  have hval : ∀ x : List ℝ, ∀ a t, (x.map fun a => 1 + (a - 1) / 4) = a :: t →
      levy x = .ok (sin (π * a) ^ 2
        + sumOf (fun w => (w - 1) ^ 2 * (1 + 10 * sin (π * w + 1) ^ 2)) (a :: t).dropLast
        + ((a :: t).getLast (by simp) - 1) ^ 2 * (1 + sin (2 * π * (a :: t).getLast (by simp)) ^ 2)) := by
    intro x a t h
    unfold levy
    simp only [h]
  have hnn : ∀ l : List ℝ,
      0 ≤ sumOf (fun w => (w - 1) ^ 2 * (1 + 10 * sin (π * w + 1) ^ 2)) l := fun l =>
    sumOf_nonneg fun w _ => by positivity
  refine ⟨⟨?_, fun x hx => ?_⟩, fun x hx h => ?_⟩
  · obtain ⟨a, t, h⟩ := hw (allEq n 1) (by simpa using hn)
    have hall : ∀ w ∈ (a :: t), w = 1 := by
      intro w hm
      rw [← h] at hm
      obtain ⟨b, hb, rfl⟩ := List.mem_map.1 hm
      rw [mem_allEq hb]; norm_num
    rw [hval _ a t h, sumOf_eq_zero fun w hm => by rw [hall w (List.dropLast_subset _ hm)]; ring,
      hall _ (List.getLast_mem _), hall a (by simp)]
    simp
  · obtain ⟨a, t, h⟩ := hw x (by simp [hx]; omega)
    refine ⟨_, hval x a t h, ?_⟩
    have := hnn (a :: t).dropLast
    positivity
  · obtain ⟨a, t, hm⟩ := hw x (by simp [hx]; omega)
    rw [hval x a t hm] at h
    have h0 := ok_inj h
    have h1 := hnn (a :: t).dropLast
    have h2 := sq_nonneg (sin (π * a))
    have h3 : 0 ≤ ((a :: t).getLast (by simp) - 1) ^ 2
        * (1 + sin (2 * π * (a :: t).getLast (by simp)) ^ 2) := by positivity
    have h4 : sumOf (fun w => (w - 1) ^ 2 * (1 + 10 * sin (π * w + 1) ^ 2)) (a :: t).dropLast = 0 := by
      linarith
    have h5 : ((a :: t).getLast (by simp) - 1) ^ 2
        * (1 + sin (2 * π * (a :: t).getLast (by simp)) ^ 2) = 0 := by linarith
    have hall : ∀ w ∈ (a :: t), w = 1 := by
      intro w hw
      rw [← List.dropLast_append_getLast (l := a :: t) (by simp)] at hw
      rcases List.mem_append.1 hw with hw | hw
      · have h6 := sumOf_zero_mem (fun w _ => by positivity) h4 w hw
        rcases mul_eq_zero.1 h6 with h7 | h7
        · have := pow_eq_zero_iff two_ne_zero |>.1 h7; linarith
        · exact absurd h7 (by positivity)
      · rw [List.mem_singleton] at hw
        rw [← hw] at h5
        rcases mul_eq_zero.1 h5 with h7 | h7
        · have := pow_eq_zero_iff two_ne_zero |>.1 h7; linarith
        · exact absurd h7 (by positivity)
    refine eq_replicate (by simpa using hx) fun b hb => ?_
    have := hall (1 + (b - 1) / 4) (hm ▸ List.mem_map.2 ⟨b, hb, rfl⟩)
    linarith


/-! ## Minimisers given as decimals -/

/-- `f` returns a value on every individual of the length of `z` all of whose coordinates lie between
`lo` and `hi`, and no such value is more than `ε` below the value at `z`. -/
def NearMinAt (f : List ℝ → Py ℝ) (lo hi : ℝ) (z : List ℝ) (ε : ℝ) : Prop :=
  ∃ v, f z = .ok v ∧ ∀ x : List ℝ, x.length = z.length → (∀ a ∈ x, lo ≤ a ∧ a ≤ hi) →
    ∃ y, f x = .ok y ∧ v ≤ y + ε

theorem st_term (a : ℝ) : -78.3323315 ≤ a ^ 4 - 16 * a ^ 2 + 5 * a := by
  have h : a ^ 4 - 16 * a ^ 2 + 5 * a + 78.3323315
      = ((a + 2.903534) * (a + 2.903534 - 5.807068)) ^ 2 + 0.8 * (a + 2.903534) ^ 2
        + (a ^ 4 - 16 * a ^ 2 + 5 * a + 78.3323315
          - ((a + 2.903534) * (a + 2.903534 - 5.807068)) ^ 2 - 0.8 * (a + 2.903534) ^ 2) := by ring
  have h2 : 0 ≤ a ^ 4 - 16 * a ^ 2 + 5 * a + 78.3323315
      - ((a + 2.903534) * (a + 2.903534 - 5.807068)) ^ 2 - 0.8 * (a + 2.903534) ^ 2 := by
    nlinarith [sq_nonneg (a + 2.903534), sq_nonneg (a + 2.903534 - 0.00001),
      sq_nonneg (a + 2.903534 + 0.00001)]
  have h3 := sq_nonneg ((a + 2.903534) * (a + 2.903534 - 5.807068))
  have h4 := sq_nonneg (a + 2.903534)
  nlinarith

/-- `st` at the documented point is within one part in ten million per coordinate of its infimum,
over all individuals, inside the documented bounds or not. -/
theorem st_near (n : ℕ) (lo hi : ℝ) :
    NearMinAt st lo hi (allEq n (-2.903534)) (n * 0.0000001) := by
  refine ⟨_, rfl, fun x hx _ => ⟨_, rfl, ?_⟩⟩
  have h1 := length_le_sumOf (x := x) (g := fun a => a ^ 4 - 16 * a ^ 2 + 5 * a) fun a _ => st_term a
  have hn : (x.length : ℝ) = n := by simp [hx]
  rw [hn] at h1
  rw [sumOf_replicate]
  have h2 : (0 : ℝ) ≤ n := by positivity
  norm_num at h1 ⊢
  linarith

/-- `schwefel` at the documented point is within three millionths per coordinate of its infimum over
the documented bounds. -/
theorem schwefel_near (n : ℕ) :
    NearMinAt schwefel (-500) 500 (allEq n 420.96874636) (n * 0.0000031) := by
  refine ⟨_, rfl, fun x hx hb => ⟨_, rfl, ?_⟩⟩
  have h1 := sumOf_le_length (x := x) (g := fun a => a * sin √|a|) fun a ha =>
    Schwefel.term_le (abs_le.2 (hb a ha))
  have hn : (x.length : ℝ) = n := by simp [hx]
  have h3 := Schwefel.term_ge (z := 420.96874636) (by norm_num) (by norm_num)
  have h2 : (0 : ℝ) ≤ n := by positivity
  have h4 := mul_le_mul_of_nonneg_left h3 h2
  rw [sumOf_replicate, hn, List.length_replicate]
  rw [hn] at h1
  linarith

/-- The value at the documented point. -/
theorem schwefel_value (n : ℕ) : ∃ v, schwefel (allEq n 420.96874636) = .ok v ∧ |v| ≤ n * 0.00001 := by
  refine ⟨_, rfl, ?_⟩
  have h1 := Schwefel.term_le (z := 420.96874636) (by rw [abs_of_pos] <;> norm_num)
  have h3 := Schwefel.term_ge (z := 420.96874636) (by norm_num) (by norm_num)
  have h2 : (0 : ℝ) ≤ n := by positivity
  have h4 := mul_le_mul_of_nonneg_left h3 h2
  have h5 := mul_le_mul_of_nonneg_left h1 h2
  rw [sumOf_replicate, List.length_replicate, abs_le]
  constructor <;> linarith

theorem st_value (n : ℕ) : ∃ v, st (allEq n (-2.903534)) = .ok v ∧ |v - n * (-39.166165)| ≤ n * 0.000001 := by
  refine ⟨_, rfl, ?_⟩
  have h2 : (0 : ℝ) ≤ n := by positivity
  rw [sumOf_replicate, abs_le]
  norm_num
  constructor <;> linarith

/-! ## `quartic`: the documented minimiser is wrong -/

theorem quartic_sum_nonneg (x : List ℝ) :
    0 ≤ sumOf (fun p : ℝ × ℕ => (p.2 : ℝ) * p.1 ^ 4) (x.zipIdx 1) :=
  sumOf_nonneg fun p _ => by positivity

/-- Whatever `random.random()` returns, the origin of one or more dimensions is better than either
documented minimiser. -/
theorem quartic_wrong {n : ℕ} (hn : 0 < n) (r s : ℝ) (hr : 0 ≤ r) (hs : s < 1) (c : ℝ)
    (hc : c = -1 ∨ c = 2) :
    ∃ v y, quartic r (allEq n c) = .ok v ∧ quartic s (allEq n 0) = .ok y ∧ y < v := by
  refine ⟨_, _, rfl, rfl, ?_⟩
  rw [sumOf_eq_zero (x := (allEq n 0).zipIdx 1) fun p hp => by
    rw [mem_allEq (mem_zipIdx_fst hp).1]; simp]
  obtain ⟨m, rfl⟩ : ∃ m, n = m + 1 := ⟨n - 1, by omega⟩
  rw [allEq, List.replicate_succ, List.zipIdx_cons, sumOf_cons]
  have h1 : (1 : ℝ) ≤ c ^ 4 := by rcases hc with rfl | rfl <;> norm_num
  have h2 : 0 ≤ sumOf (fun p : ℝ × ℕ => (p.2 : ℝ) * p.1 ^ 4) ((List.replicate m c).zipIdx (1 + 1)) :=
    sumOf_nonneg fun p _ => by positivity
  push_cast
  linarith

/-! ## C79 -/

/-- **C79.** `all_minima_x`, the entries that are exact: in every dimension from two on, evaluating the
documented point returns the minimum (`0`, or `-1` for `expo`, `yang3` and `yang4`), every other
individual evaluates to more.  Nothing is assumed about where the individual lies, so the statement
holds in particular inside `all_bounds`. -/
theorem C79_minima {n : ℕ} (hn : 2 ≤ n) :
    (OnlyMinAt sphere (allEq n 0) 0 ∧ OnlyMinAt cigar (allEq n 0) 0 ∧
      OnlyMinAt rosenbrock (allEq n 1) 0 ∧ OnlyMinAt bohachevsky (allEq n 0) 0 ∧
      OnlyMinAt griewank (allEq n 0) 0 ∧ OnlyMinAt rastrigin (allEq n 0) 0 ∧
      OnlyMinAt ackley (allEq n 0) 0 ∧ OnlyMinAt rastriginScaled (allEq n 0) 0 ∧
      OnlyMinAt rastriginSkew (allEq n 0) 0 ∧ OnlyMinAt schaffer (allEq n 0) 0) ∧
    (OnlyMinAt schwefel2 (allEq n 0) 0 ∧ OnlyMinAt brown (allEq n 0) 0 ∧
      OnlyMinAt expo (allEq n 0) (-1) ∧ OnlyMinAt yang2 (allEq n 0) 0 ∧
      OnlyMinAt yang3 (allEq n 0) (-1) ∧ OnlyMinAt yang4 (allEq n 0) (-1) ∧
      OnlyMinAt zakharov (allEq n 0) 0 ∧ OnlyMinAt salomon (allEq n 0) 0 ∧
      OnlyMinAt powell (allEq n 0) 0 ∧ OnlyMinAt happycat (allEq n (-1)) 0 ∧
      OnlyMinAt levy (allEq n 1) 0) :=
  ⟨⟨sphere_min n, cigar_min (by omega), (rosenbrock_min n).2 hn, (bohachevsky_min n).2 hn,
      griewank_min n, rastrigin_min n, ackley_min (by omega), rastriginScaled_min (by omega),
      rastriginSkew_min n, (schaffer_min n).2 hn⟩,
    ⟨schwefel2_min (by omega), (brown_min n).2 hn, expo_min n, yang2_min n, yang3_min n, yang4_min n,
      zakharov_min n, salomon_min n, powell_min n, happycat_min (by omega), levy_min (by omega)⟩⟩

/-- The hypothesis of `C79_minima` is met, and the claim is about real evaluations: Rosenbrock's
function at `(0, 0)` is `1`. -/
example : (2 : ℕ) ≤ 2 ∧ rosenbrock [0, 0] = .ok 1 := by
  refine ⟨le_rfl, ?_⟩
  simp [rosenbrock, pairs]

/-- **C79.** The same in one dimension, where all of these but the four sums over neighbouring pairs
and `rastrigin_scaled` still have their only minimum at the documented point. -/
theorem C79_minima_one :
    OnlyMinAt sphere [0] 0 ∧ OnlyMinAt cigar [0] 0 ∧ OnlyMinAt griewank [0] 0 ∧
    OnlyMinAt rastrigin [0] 0 ∧ OnlyMinAt ackley [0] 0 ∧ OnlyMinAt rastriginSkew [0] 0 ∧
    OnlyMinAt schwefel2 [0] 0 ∧ OnlyMinAt expo [0] (-1) ∧ OnlyMinAt yang2 [0] 0 ∧
    OnlyMinAt yang3 [0] (-1) ∧ OnlyMinAt yang4 [0] (-1) ∧ OnlyMinAt zakharov [0] 0 ∧
    OnlyMinAt salomon [0] 0 ∧ OnlyMinAt powell [0] 0 ∧ OnlyMinAt happycat [-1] 0 ∧
    OnlyMinAt levy [1] 0 :=
  ⟨sphere_min 1, cigar_min (n := 1) (by norm_num), griewank_min 1, rastrigin_min 1, ackley_min (n := 1) (by norm_num),
    rastriginSkew_min 1, schwefel2_min (n := 1) (by norm_num), expo_min 1, yang2_min 1, yang3_min 1, yang4_min 1,
    zakharov_min 1, salomon_min 1, powell_min 1, happycat_min (n := 1) (by norm_num), levy_min (n := 1) (by norm_num)⟩

/-- **C79.** `qing` has its minima exactly at the individuals whose `i`-th coordinate is a square root
of `i`, one for every choice of signs, and `dixonprice` is zero at the documented point and nowhere
negative. -/
theorem C79_lists :
    (∀ z : List ℝ, MinAt qing z 0 ↔
      ∀ i (hi : i < z.length), z[i] = √(i + 1) ∨ z[i] = -√(i + 1)) ∧
    (∀ n : ℕ, 0 < n → MinAt dixonprice (dixonX n) 0 ∧ (dixonX n).length = n) :=
  ⟨fun z => ⟨fun h => qing_only z h.1, qing_min z⟩,
    fun n hn => ⟨dixonprice_min hn, by simp [dixonX]⟩⟩

/-- A case: `(1, -√2)` is a minimum of `qing`; the second coordinate of the documented minimiser of
`dixonprice` is `2^(-1/2)`. -/
example : MinAt qing [1, -√2] 0 ∧ (dixonX 2)[1]'(by simp [dixonX]) = (2 : ℝ) ^ (-(1 / 2) : ℝ) := by
  constructor
  · refine (C79_lists.1 _).2 fun i hi => ?_
    simp only [List.length_cons, List.length_nil] at hi
    rcases i with _ | _ | i
    · left; simp
    · right; norm_num
    · omega
  · simp [dixonX, List.range'_succ]; norm_num

/-- **C79.** `yang` multiplies each term by a fresh `random.random()`: at the origin the value is zero
whatever is drawn, elsewhere it is never negative. -/
theorem C79_yang (n : ℕ) (r s : ℕ → ℝ) (hr : ∀ i, 0 ≤ r i) :
    yang s (allEq n 0) = .ok 0 ∧ ∀ x : List ℝ, x.length = n → ∃ y, yang r x = .ok y ∧ 0 ≤ y :=
  yang_min n r s hr

/-- A case of the hypothesis, with a strictly positive value: one half times `3²` in the second
coordinate. -/
example : yang (fun _ => 1 / 2) [0, 3] = .ok (9 / 2) ∧ ∀ i : ℕ, (0 : ℝ) ≤ (fun _ => 1 / 2 : ℕ → ℝ) i := by
  refine ⟨?_, fun i => by norm_num⟩
  simp [yang]; norm_num

/-- **C79.** The two minimisers given as decimals are close to optimal in every dimension: `st` within
`1e-7` per coordinate over all individuals, `schwefel` within `3.1e-6` per coordinate over the
documented bounds; the values there are `-39.166165` and `0` per coordinate, up to `1e-6` and `1e-5`. -/
theorem C79_decimals (n : ℕ) (lo hi : ℝ) :
    NearMinAt st lo hi (allEq n (-2.903534)) (n * 0.0000001) ∧
    NearMinAt schwefel (-500) 500 (allEq n 420.96874636) (n * 0.0000031) ∧
    (∃ v, st (allEq n (-2.903534)) = .ok v ∧ |v - n * (-39.166165)| ≤ n * 0.000001) ∧
    ∃ v, schwefel (allEq n 420.96874636) = .ok v ∧ |v| ≤ n * 0.00001 :=
  ⟨st_near n lo hi, schwefel_near n, st_value n, schwefel_value n⟩

/-- The tolerance is far below the size of the function: `schwefel` at the origin is `418.98` per
coordinate. -/
example (n : ℕ) : schwefel (allEq n 0) = .ok (n * 418.9828872724339) := by
  simp [schwefel, sumOf_replicate]; ring

/-! ## C80 -/

/-- **C80.** `quartic`: the documented minimisers `-1` and `2` are not minimisers. In every dimension
and whatever noise is drawn, the origin evaluates to less than either; and `2` lies outside the
documented bounds `[-1.28, 1.28]`. -/
theorem C80_quartic {n : ℕ} (hn : 0 < n) (r s : ℝ) (hr : 0 ≤ r) (hs : s < 1) (c : ℝ)
    (hc : c = -1 ∨ c = 2) :
    ∃ v y, quartic r (allEq n c) = .ok v ∧ quartic s (allEq n 0) = .ok y ∧ y < v :=
  quartic_wrong hn r s hr hs c hc

/-- A case of the hypotheses. -/
example : ∃ v y, quartic 0 (allEq 3 (-1)) = .ok v ∧ quartic (99 / 100) (allEq 3 0) = .ok y ∧ y < v :=
  C80_quartic (by norm_num) _ _ le_rfl (by norm_num) _ (Or.inl rfl)

/-- **C80.** `all_ndim` says `arbitrary` for `rosenbrock`, `bohachevsky` and `schaffer`, but in one
dimension they are the constant zero, so every point is a minimum. -/
theorem C80_flat (a : ℝ) :
    rosenbrock [a] = .ok 0 ∧ bohachevsky [a] = .ok 0 ∧ schaffer [a] = .ok 0 ∧ brown [a] = .ok 0 := by
  refine ⟨?_, ?_, ?_, ?_⟩ <;> simp [rosenbrock, bohachevsky, schaffer, brown, pairs]

/-- **C80.** Which individuals are refused: an empty one by `cigar`, `dixonprice` and `levy` (index)
and by `ackley` and `happycat` (division), a one-coordinate one by `rastrigin_scaled`; nothing else. -/
theorem C80_refused (x : List ℝ) (e : PyErr) :
    (cigar x = .error e ↔ x = [] ∧ e = .indexError) ∧
    (dixonprice x = .error e ↔ x = [] ∧ e = .indexError) ∧
    (levy x = .error e ↔ x = [] ∧ e = .indexError) ∧
    (ackley x = .error e ↔ x = [] ∧ e = .zeroDivision) ∧
    (happycat x = .error e ↔ x = [] ∧ e = .zeroDivision) ∧
    (rastriginScaled x = .error e ↔ x.length = 1 ∧ e = .zeroDivision) := by
  refine ⟨?_, ?_, ?_, ?_, ?_, ?_⟩
  · cases x <;> simp [cigar, eq_comm]
  · cases x <;> simp [dixonprice, eq_comm]
  · cases x with
    | nil => simp [levy, eq_comm]
    | cons a t => simp [levy]
  · cases x <;> simp [ackley, eq_comm]
  · cases x <;> simp [happycat, eq_comm]
  · unfold rastriginScaled; split_ifs with h <;> simp [h, eq_comm]

/-- **C80.** `cigar` sums over all coordinates where the cigar function skips the first, so the cheap
axis is not cheap: the value is the cigar function plus a million times the square of the first
coordinate. -/
theorem C80_cigar (a : ℝ) (t : List ℝ) :
    cigar (a :: t) = .ok ((a ^ 2 + 1000000 * sumOf (fun g => g ^ 2) t) + 1000000 * a ^ 2) := by
  have h : sumOf (fun g => g * g) t = sumOf (fun g => g ^ 2) t := sumOf_congr fun g _ => by ring
  simp only [cigar, sumOf_cons, h]
  congr 1; ring

example : cigar [1, 0] = .ok 1000001 := by rw [C80_cigar]; norm_num

end Neorl.Classic

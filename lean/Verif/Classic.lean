import Verif.Py
import Mathlib.Analysis.SpecialFunctions.Pow.Real
import Mathlib.Analysis.SpecialFunctions.Trigonometric.Bounds
import Mathlib.Tactic.NormNum.BigOperators
import Mathlib.Tactic.FieldSimp

/-!
# The classical benchmark functions

`neorl/benchmarks/classic.py`: the objective functions the package ships for trying the
optimisers on, with the tables `all_functions`, `all_bounds`, `all_ndim` and `all_minima_x`.

The functions are modelled over the real numbers (`sin`, `cos`, `exp`, `sqrt`, `pi` and real powers
are Mathlib's), so rounding of the floating-point evaluation is not modelled.  An individual is a
list of reals of any length.  Exceptions are values: an index into an empty list is an `indexError`,
an integer or float division by zero a `zeroDivision`.
-/

set_option linter.unusedSectionVars false
set_option linter.unusedVariables false

namespace Neorl.Classic

open Real

/-- Python `zip(individual[:-1], individual[1:])` (`classic.py` 41, 54, 87): each coordinate with its
successor. -/
def pairs (x : List ℝ) : List (ℝ × ℝ) := x.dropLast.zip x.tail

/-- Python `sum(g(x) for x in individual)`. -/
def sumOf {α : Type} (g : α → ℝ) (x : List α) : ℝ := (x.map g).sum

/-- Python `reduce(mul, (g(x) for x in individual), 1)`. -/
def prodOf {α : Type} (g : α → ℝ) (x : List α) : ℝ := (x.map g).prod

/-- `classic.py` 27-30. -/
def sphere (x : List ℝ) : Py ℝ := .ok (sumOf (fun a => a ^ 2) x)

/-- `classic.py` 32-35: `individual[0]` fails on an empty individual. -/
def cigar : List ℝ → Py ℝ
  | [] => .error .indexError
  | a :: t => .ok (a ^ 2 + 1000000 * sumOf (fun g => g * g) (a :: t))

/-- `classic.py` 37-41. -/
def rosenbrock (x : List ℝ) : Py ℝ :=
  .ok (sumOf (fun p => 100 * (p.1 * p.1 - p.2) ^ 2 + (1 - p.1) ^ 2) (pairs x))

/-- `classic.py` 43-48: `1.0/N` fails on an empty individual. -/
noncomputable def ackley (x : List ℝ) : Py ℝ :=
  if x.length = 0 then .error .zeroDivision
  else .ok (20 - 20 * exp (-0.2 * √(1 / x.length * sumOf (fun a => a ^ 2) x))
    + exp 1 - exp (1 / x.length * sumOf (fun a => cos (2 * π * a)) x))

/-- `classic.py` 50-54. -/
noncomputable def bohachevsky (x : List ℝ) : Py ℝ :=
  .ok (sumOf (fun p => p.1 ^ 2 + 2 * p.2 ^ 2 - 0.3 * cos (3 * π * p.1) - 0.4 * cos (4 * π * p.2)
    + 0.7) (pairs x))

/-- `classic.py` 56-60. -/
noncomputable def griewank (x : List ℝ) : Py ℝ :=
  .ok (1 / 4000 * sumOf (fun a => a ^ 2) x
    - prodOf (fun p : ℝ × ℕ => cos (p.1 / √((p.2 : ℝ) + 1))) x.zipIdx + 1)

/-- `classic.py` 62-66. -/
noncomputable def rastrigin (x : List ℝ) : Py ℝ :=
  .ok (10 * x.length + sumOf (fun g => g * g - 10 * cos (2 * π * g)) x)

/-- `classic.py` 68-73: `i/(N-1)` is evaluated once per coordinate, so it fails exactly on one
coordinate. -/
noncomputable def rastriginScaled (x : List ℝ) : Py ℝ :=
  if x.length = 1 then .error .zeroDivision
  else .ok (10 * x.length + sumOf (fun p : ℝ × ℕ =>
    ((10 : ℝ) ^ ((p.2 : ℝ) / ((x.length : ℝ) - 1)) * p.1) ^ 2
      - 10 * cos (2 * π * (10 : ℝ) ^ ((p.2 : ℝ) / ((x.length : ℝ) - 1)) * p.1)) x.zipIdx)

/-- `classic.py` 75-80. -/
noncomputable def rastriginSkew (x : List ℝ) : Py ℝ :=
  .ok (10 * x.length + sumOf (fun a =>
    (if 0 < a then 10 * a else a) ^ 2 - 10 * cos (2 * π * (if 0 < a then 10 * a else a))) x)

/-- `classic.py` 83-87. -/
noncomputable def schaffer (x : List ℝ) : Py ℝ :=
  .ok (sumOf (fun p : ℝ × ℝ => (p.1 ^ 2 + p.2 ^ 2) ^ (0.25 : ℝ)
    * (sin (50 * (p.1 ^ 2 + p.2 ^ 2) ^ (0.1 : ℝ)) ^ 2 + 1)) (pairs x))

/-- `classic.py` 89-93. -/
noncomputable def schwefel (x : List ℝ) : Py ℝ :=
  .ok (418.9828872724339 * x.length - sumOf (fun a => a * sin √|a|) x)

/-- `classic.py` 101-106. -/
noncomputable def brown (x : List ℝ) : Py ℝ :=
  .ok (sumOf (fun p : ℝ × ℝ => p.1 ^ (p.2 + 1) + p.2 ^ (p.1 + 1)) (pairs (x.map fun a => a ^ 2)))

/-- `classic.py` 108-109. -/
noncomputable def expo (x : List ℝ) : Py ℝ := .ok (-exp (-0.5 * sumOf (fun a => a ^ 2) x))

/-- `classic.py` 111-112; `r i` is the value `random.random()` returns for the `i`-th term
(counting from one). -/
def yang (r : ℕ → ℝ) (x : List ℝ) : Py ℝ :=
  .ok (sumOf (fun p : ℝ × ℕ => r p.2 * |p.1| ^ p.2) (x.zipIdx 1))

/-- `classic.py` 114-115. -/
noncomputable def yang2 (x : List ℝ) : Py ℝ :=
  .ok (sumOf (fun a => |a|) x * exp (-sumOf (fun a => sin (a ^ 2)) x))

/-- `classic.py` 117-121, with `beta = 15` and `m = 5`. -/
noncomputable def yang3 (x : List ℝ) : Py ℝ :=
  .ok (exp (-sumOf (fun a => (a / 15) ^ (2 * 5)) x)
    - 2 * exp (-sumOf (fun a => a ^ 2) x) * prodOf (fun a => cos a ^ 2) x)

/-- `classic.py` 123-125. -/
noncomputable def yang4 (x : List ℝ) : Py ℝ :=
  .ok ((sumOf (fun a => sin a ^ 2) x - exp (-sumOf (fun a => a ^ 2) x))
    * exp (-sumOf (fun a => sin √|a| ^ 2) x))

/-- `classic.py` 127-129. -/
noncomputable def zakharov (x : List ℝ) : Py ℝ :=
  .ok (sumOf (fun a => a ^ 2) x + sumOf (fun p : ℝ × ℕ => 0.5 * p.2 * p.1) (x.zipIdx 1) ^ 2
    + sumOf (fun p : ℝ × ℕ => 0.5 * p.2 * p.1) (x.zipIdx 1) ^ 4)

/-- `classic.py` 131-132. -/
noncomputable def salomon (x : List ℝ) : Py ℝ :=
  .ok (1 - cos (2 * π * √(sumOf (fun a => a ^ 2) x)) + 0.1 * √(sumOf (fun a => a ^ 2) x))

/-- `classic.py` 134-135. -/
noncomputable def st (x : List ℝ) : Py ℝ :=
  .ok (0.5 * sumOf (fun a => a ^ 4 - 16 * a ^ 2 + 5 * a) x)

/-- `classic.py` 148-149. -/
def powell (x : List ℝ) : Py ℝ := .ok (sumOf (fun p : ℝ × ℕ => |p.1| ^ (p.2 + 1)) (x.zipIdx 1))

/-- `classic.py` 154-155. -/
def qing (x : List ℝ) : Py ℝ :=
  .ok (sumOf (fun p : ℝ × ℕ => (p.1 ^ 2 - p.2) ^ 2) (x.zipIdx 1))

/-- `classic.py` 157-158; `r` is the value `random.random()` returns. -/
def quartic (r : ℝ) (x : List ℝ) : Py ℝ :=
  .ok (sumOf (fun p : ℝ × ℕ => p.2 * p.1 ^ 4) (x.zipIdx 1) + r)

/-- `classic.py` 160-164: `1/n` fails on an empty individual. -/
noncomputable def happycat (x : List ℝ) : Py ℝ :=
  if x.length = 0 then .error .zeroDivision
  else .ok (((sumOf (fun a => a ^ 2) x - x.length) ^ 2) ^ (1 / 8 : ℝ)
    + 1 / x.length * (0.5 * sumOf (fun a => a ^ 2) x + x.sum) + 0.5)

/-- `classic.py` 166-167. -/
def schwefel2 (x : List ℝ) : Py ℝ := .ok (sumOf (fun a => |a|) x + prodOf (fun a => |a|) x)

/-- `classic.py` 169-174: the pair `(individual[i-1], individual[i])` has weight `i+1`;
`individual[0]` fails on an empty individual. -/
def dixonprice : List ℝ → Py ℝ
  | [] => .error .indexError
  | a :: t => .ok (sumOf (fun q : (ℝ × ℝ) × ℕ => q.2 * (2 * q.1.2 ^ 2 - q.1.1) ^ 2)
      ((pairs (a :: t)).zipIdx 2) + (a - 1) ^ 2)

/-- `classic.py` 176-189: `w[0]` fails on an empty individual. -/
noncomputable def levy (x : List ℝ) : Py ℝ :=
  match (x.map fun a => 1 + (a - 1) / 4) with
  | [] => .error .indexError
  | a :: t =>
    let l := (a :: t).getLast (by simp)
    .ok (sin (π * a) ^ 2
      + sumOf (fun w => (w - 1) ^ 2 * (1 + 10 * sin (π * w + 1) ^ 2)) (a :: t).dropLast
      + (l - 1) ^ 2 * (1 + sin (2 * π * l) ^ 2))

/-! ## Sums -/

@[simp] theorem sumOf_nil {α : Type} (g : α → ℝ) : sumOf g [] = 0 := rfl
@[simp] theorem sumOf_cons {α : Type} (g : α → ℝ) (a : α) (t : List α) :
    sumOf g (a :: t) = g a + sumOf g t := by simp [sumOf]

theorem sumOf_nonneg {α : Type} {g : α → ℝ} {x : List α} (h : ∀ a ∈ x, 0 ≤ g a) :
    0 ≤ sumOf g x := by
  induction x with
  | nil => simp
  | cons a t ih =>
    rw [sumOf_cons]
    exact add_nonneg (h a (by simp)) (ih fun b hb => h b (by simp [hb]))

theorem sumOf_eq_zero {α : Type} {g : α → ℝ} {x : List α} (h : ∀ a ∈ x, g a = 0) :
    sumOf g x = 0 := by
  induction x with
  | nil => simp
  | cons a t ih =>
    rw [sumOf_cons, h a (by simp), ih fun b hb => h b (by simp [hb]), add_zero]

theorem sumOf_zero_mem {α : Type} {g : α → ℝ} {x : List α} (h : ∀ a ∈ x, 0 ≤ g a)
    (h0 : sumOf g x = 0) : ∀ a ∈ x, g a = 0 := by
  induction x with
  | nil => simp
  | cons a t ih =>
    rw [sumOf_cons] at h0
    have ha := h a (by simp)
    have ht : ∀ b ∈ t, 0 ≤ g b := fun b hb => h b (by simp [hb])
    have hs := sumOf_nonneg ht
    intro b hb
    rcases List.mem_cons.1 hb with rfl | hb
    · linarith
    · exact ih ht (by linarith) b hb

theorem sumOf_le {α : Type} {g f : α → ℝ} {x : List α} (h : ∀ a ∈ x, g a ≤ f a) :
    sumOf g x ≤ sumOf f x := by
  induction x with
  | nil => simp
  | cons a t ih =>
    rw [sumOf_cons, sumOf_cons]
    exact add_le_add (h a (by simp)) (ih fun b hb => h b (by simp [hb]))

theorem sumOf_add {α : Type} (g f : α → ℝ) (x : List α) :
    sumOf (fun a => g a + f a) x = sumOf g x + sumOf f x := by
  induction x with
  | nil => simp
  | cons a t ih => simp only [sumOf_cons, ih]; ring

theorem sumOf_mul {α : Type} (c : ℝ) (g : α → ℝ) (x : List α) :
    sumOf (fun a => c * g a) x = c * sumOf g x := by
  induction x with
  | nil => simp
  | cons a t ih => simp only [sumOf_cons, ih]; ring

theorem sumOf_const {α : Type} (c : ℝ) (x : List α) :
    sumOf (fun _ => c) x = x.length * c := by
  induction x with
  | nil => simp
  | cons a t ih => simp only [sumOf_cons, ih, List.length_cons]; push_cast; ring

theorem sumOf_congr {α : Type} {g f : α → ℝ} {x : List α} (h : ∀ a ∈ x, g a = f a) :
    sumOf g x = sumOf f x :=
  le_antisymm (sumOf_le fun a ha => (h a ha).le) (sumOf_le fun a ha => (h a ha).ge)

theorem sumOf_le_length {α : Type} {g : α → ℝ} {x : List α} {c : ℝ} (h : ∀ a ∈ x, g a ≤ c) :
    sumOf g x ≤ x.length * c := by
  rw [← sumOf_const]; exact sumOf_le h

theorem length_le_sumOf {α : Type} {g : α → ℝ} {x : List α} {c : ℝ} (h : ∀ a ∈ x, c ≤ g a) :
    x.length * c ≤ sumOf g x := by
  rw [← sumOf_const]; exact sumOf_le h

theorem sumOf_replicate (g : ℝ → ℝ) (n : ℕ) (c : ℝ) :
    sumOf g (List.replicate n c) = n * g c := by
  rw [sumOf_congr (f := fun _ => g c)]
  · rw [sumOf_const, List.length_replicate]
  · intro a ha; rw [List.eq_of_mem_replicate ha]

@[simp] theorem prodOf_nil {α : Type} (g : α → ℝ) : prodOf g [] = 1 := rfl
@[simp] theorem prodOf_cons {α : Type} (g : α → ℝ) (a : α) (t : List α) :
    prodOf g (a :: t) = g a * prodOf g t := by simp [prodOf]

theorem prodOf_nonneg {α : Type} {g : α → ℝ} {x : List α} (h : ∀ a ∈ x, 0 ≤ g a) :
    0 ≤ prodOf g x := by
  induction x with
  | nil => simp
  | cons a t ih =>
    rw [prodOf_cons]
    exact mul_nonneg (h a (by simp)) (ih fun b hb => h b (by simp [hb]))

theorem abs_prodOf_le {α : Type} {g : α → ℝ} {x : List α} (h : ∀ a ∈ x, |g a| ≤ 1) :
    |prodOf g x| ≤ 1 := by
  induction x with
  | nil => simp
  | cons a t ih =>
    rw [prodOf_cons, abs_mul]
    exact mul_le_one₀ (h a (by simp)) (abs_nonneg _) (ih fun b hb => h b (by simp [hb]))

theorem prodOf_eq_one {α : Type} {g : α → ℝ} {x : List α} (h : ∀ a ∈ x, g a = 1) :
    prodOf g x = 1 := by
  induction x with
  | nil => simp
  | cons a t ih =>
    rw [prodOf_cons, h a (by simp), ih fun b hb => h b (by simp [hb]), mul_one]

theorem prodOf_eq_zero {α : Type} {g : α → ℝ} {x : List α} {a : α} (ha : a ∈ x) (h : g a = 0) :
    prodOf g x = 0 := by
  induction x with
  | nil => simp at ha
  | cons b t ih =>
    rw [prodOf_cons]
    rcases List.mem_cons.1 ha with rfl | ha
    · rw [h, zero_mul]
    · rw [ih ha, mul_zero]

/-! ## Pairs and indices -/

theorem mem_pairs {x : List ℝ} {p : ℝ × ℝ} (h : p ∈ pairs x) : p.1 ∈ x ∧ p.2 ∈ x := by
  have := List.of_mem_zip h
  exact ⟨List.dropLast_subset _ this.1, List.tail_subset _ this.2⟩

theorem length_pairs (x : List ℝ) : (pairs x).length = x.length - 1 := by
  simp [pairs]

theorem pairs_get {x : List ℝ} {i : ℕ} (h : i < (pairs x).length) :
    ∃ (h1 : i < x.length) (h2 : i + 1 < x.length), (pairs x)[i] = (x[i], x[i + 1]) := by
  have hl := length_pairs x
  refine ⟨by omega, by omega, ?_⟩
  simp [pairs]

/-- Every coordinate of an individual of two or more coordinates is in some pair. -/
theorem exists_pair {x : List ℝ} (hn : 2 ≤ x.length) {a : ℝ} (ha : a ∈ x) :
    ∃ p ∈ pairs x, a = p.1 ∨ a = p.2 := by
  obtain ⟨i, hi, rfl⟩ := List.getElem_of_mem ha
  have hl := length_pairs x
  by_cases h : i + 1 < x.length
  · have hi' : i < (pairs x).length := by omega
    obtain ⟨_, _, he⟩ := pairs_get hi'
    exact ⟨_, List.getElem_mem hi', Or.inl (by rw [he])⟩
  · obtain ⟨j, rfl⟩ : ∃ j, i = j + 1 := ⟨i - 1, by omega⟩
    have hj : j < (pairs x).length := by omega
    obtain ⟨_, _, he⟩ := pairs_get hj
    exact ⟨_, List.getElem_mem hj, Or.inr (by rw [he])⟩

theorem eq_replicate {x : List ℝ} {n : ℕ} {c : ℝ} (hn : x.length = n) (h : ∀ a ∈ x, a = c) :
    x = List.replicate n c := List.eq_replicate_iff.2 ⟨hn, h⟩

theorem mem_zipIdx_fst {α : Type} {x : List α} {k : ℕ} {p : α × ℕ} (h : p ∈ x.zipIdx k) :
    p.1 ∈ x ∧ k ≤ p.2 ∧ p.2 < k + x.length := by
  have h1 := List.fst_mem_of_mem_zipIdx h
  have h2 := List.le_snd_of_mem_zipIdx h
  have h3 := List.snd_lt_add_of_mem_zipIdx h
  exact ⟨h1, h2, by omega⟩

theorem exists_zipIdx {α : Type} {x : List α} (k : ℕ) {a : α} (h : a ∈ x) :
    ∃ i, (a, i) ∈ x.zipIdx k := by
  obtain ⟨i, hi, rfl⟩ := List.getElem_of_mem h
  refine ⟨k + i, ?_⟩
  have hl : i < (x.zipIdx k).length := by simpa using hi
  have : (x.zipIdx k)[i] = (x[i], k + i) := by simp
  rw [← this]; exact List.getElem_mem hl

end Neorl.Classic

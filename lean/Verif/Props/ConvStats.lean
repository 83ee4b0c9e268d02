import Verif.ConvStats
import Mathlib.Tactic.FinCases
import Mathlib.Data.Fin.VecNotation

/-!
# C148: the statistics of convolutions in ACKTR
-/

set_option linter.unusedSectionVars false
set_option linter.unusedVariables false

namespace Neorl.ConvStats

open Matrix Finset

variable {B Oh Ow Kh Kw C n : ℕ} {κ : Type} [Fintype κ]

/-! ### Specification -/

/-- What multiplies an entry of the kernel, or the bias, at a place of the output. -/
def input (P : Matrix (Fin B × Place Oh Ow) κ ℝ) (k : Fin B) (t : Place Oh Ow) : Option κ → ℝ
  | none => 1
  | some e => P (k, t) e

/-- The mean over the images. -/
noncomputable def mean (f : Fin B → ℝ) : ℝ := (∑ k, f k) / B

/-- The gradient of the loss of image `k` with respect to kernel and bias, `g` being the gradient with respect to the output. -/
noncomputable def gradient (P : Matrix (Fin B × Place Oh Ow) κ ℝ) (g : Matrix (Fin B × Place Oh Ow) (Fin n) ℝ) (k : Fin B) (c : Option κ) (f : Fin n) : ℝ :=
  ∑ t, input P k t c * g (k, t) f

/-- The Fisher matrix of the layer: the mean product of two entries of the gradient. -/
noncomputable def fisher (P : Matrix (Fin B × Place Oh Ow) κ ℝ) (g : Matrix (Fin B × Place Oh Ow) (Fin n) ℝ) : Matrix (Option κ × Fin n) (Option κ × Fin n) ℝ :=
  of fun a b => mean fun k => gradient P g k a.1 a.2 * gradient P g k b.1 b.2

/-- Products of inputs, summed over the places. -/
noncomputable def omega (P : Matrix (Fin B × Place Oh Ow) κ ℝ) : Matrix (Option κ) (Option κ) ℝ := of fun c d => mean fun k => ∑ t, input P k t c * input P k t d

/-- Products of gradients, averaged over the places. -/
noncomputable def gamma (g : Matrix (Fin B × Place Oh Ow) (Fin n) ℝ) : Matrix (Fin n) (Fin n) ℝ := of fun f h => mean fun k => (∑ t, g (k, t) f * g (k, t) h) / (Oh * Ow)

/-! ### The convolution -/

/-- **C148 (convolution).**  The convolution is, place by place, the patch times the kernel plus the bias. -/
theorem C148_convolution (sh sw : ℕ) (x : Images B C) (w : Fin Kh → Fin Kw → Fin C → Fin n → ℝ) (b : Fin n → ℝ) (k : Fin B) (t : Place Oh Ow) (f : Fin n) :
    conv sh sw x w b k t.1 t.2 f = ∑ c, input (patches sh sw Oh Ow Kh Kw x) k t c * c.elim (b f) fun e => w e.1 e.2.1 e.2.2 f := by
  rw [Fintype.sum_option, Fintype.sum_prod_type]
  simp only [Fintype.sum_prod_type, input, conv, patches, Option.elim, one_mul, of_apply]

/-- **C148 (inside the image).**  With the size of the output of a convolution without padding only pixels of the image are read; one place more would not fit. -/
theorem C148_inside {size kernel stride : ℕ} (hs : 0 < stride) (hk : kernel ≤ size) {i p : ℕ} (hp : p < kernel) :
    (i < outSize size kernel stride → i * stride + p < size) ∧ size < outSize size kernel stride * stride + kernel := by
  unfold outSize
  constructor
  · intro hi
    have h1 : i ≤ (size - kernel) / stride := by omega
    have h2 : i * stride ≤ size - kernel := (Nat.mul_le_mul_right _ h1).trans (Nat.div_mul_le_self _ _)
    omega
  · have h1 : size - kernel < ((size - kernel) / stride + 1) * stride := by
      have := Nat.lt_div_mul_add (a := size - kernel) hs
      linarith [Nat.add_mul ((size - kernel) / stride) 1 stride]
    omega

/-- **C148 (gradient).**  The matrix `gradient` is the gradient: when kernel and bias change, the outputs of image `k` weighted with `g` change by the sum of the entries of the gradient times the changes. -/
theorem C148_gradient (sh sw : ℕ) (x : Images B C) (w w' : Fin Kh → Fin Kw → Fin C → Fin n → ℝ) (b b' : Fin n → ℝ) (g : Matrix (Fin B × Place Oh Ow) (Fin n) ℝ) (k : Fin B) :
    ∑ t : Place Oh Ow, ∑ f, g (k, t) f * (conv sh sw x w' b' k t.1 t.2 f - conv sh sw x w b k t.1 t.2 f) =
      ∑ c, ∑ f, gradient (patches sh sw Oh Ow Kh Kw x) g k c f * c.elim (b' f - b f) fun e => w' e.1 e.2.1 e.2.2 f - w e.1 e.2.1 e.2.2 f := by
  simp only [C148_convolution, gradient, sum_mul, ← sum_sub_distrib, mul_sum]
  rw [sum_comm]
  conv_rhs => rw [sum_comm]
  refine sum_congr rfl fun f _ => ?_
  rw [sum_comm]
  refine sum_congr rfl fun c _ => sum_congr rfl fun t _ => ?_
  cases c <;> simp <;> ring

/-! ### The statistics -/

variable (P : Matrix (Fin B × Place Oh Ow) κ ℝ) (g : Matrix (Fin B × Place Oh Ow) (Fin n) ℝ)

/-- The gradients of the mean of the losses of the images, which is what TensorFlow computes. -/
noncomputable def batchGrad : Matrix (Fin B × Place Oh Ow) (Fin n) ℝ := of fun r f => g r f / B

theorem act1_input (k : Fin B) (t : Place Oh Ow) (c : Option κ) : act1 P (k, t) c = input P k t c / Oh / Ow := by
  cases c <;> rfl

/-- **C148 (factors).**  The statistics are those of Grosse and Martens up to a factor that moves between the two: activations summed, gradients averaged over the places. -/
theorem C148_factors (hB : 0 < B) (hh : 0 < Oh) (hw : 0 < Ow) :
    (stats false P (batchGrad g)).1 = (1 / ((Oh : ℝ) * Ow) ^ 2) • omega P ∧ (stats false P (batchGrad g)).2 = ((Oh : ℝ) * Ow) ^ 2 • gamma g := by
  have h1 : (B : ℝ) ≠ 0 := by exact_mod_cast hB.ne'
  have h2 : (Oh : ℝ) ≠ 0 := by exact_mod_cast hh.ne'
  have h3 : (Ow : ℝ) ≠ 0 := by exact_mod_cast hw.ne'
  refine ⟨?_, ?_⟩
  · ext c d
    simp only [stats, covA, omega, mean, Matrix.smul_apply, Matrix.mul_apply, transpose_apply, of_apply, smul_eq_mul, Bool.false_eq_true, if_false, Fintype.sum_prod_type, act1_input]
    rw [mul_div_assoc', mul_sum, mul_sum, sum_div]
    refine sum_congr rfl fun k _ => ?_
    simp only [mul_sum, sum_div]
    refine sum_congr rfl fun i _ => sum_congr rfl fun j _ => ?_
    field_simp
  · ext f h
    simp only [stats, covG, gamma, mean, grad1, batchGrad, Matrix.smul_apply, Matrix.mul_apply, transpose_apply, of_apply, smul_eq_mul, Bool.false_eq_true, if_false, Fintype.sum_prod_type, Fintype.card_prod,
      Fintype.card_fin, Nat.cast_mul]
    rw [mul_div_assoc', mul_sum, mul_sum, sum_div]
    refine sum_congr rfl fun k _ => ?_
    simp only [mul_sum, sum_div]
    refine sum_congr rfl fun i _ => sum_congr rfl fun j _ => ?_
    field_simp

/-- **C148 (product).**  The approximation of the Fisher matrix, the Kronecker product of the statistics, is the one of Grosse and Martens. -/
theorem C148_product (hB : 0 < B) (hh : 0 < Oh) (hw : 0 < Ow) :
    kroneckerMap (· * ·) (stats false P (batchGrad g)).1 (stats false P (batchGrad g)).2 = kroneckerMap (· * ·) (omega P) (gamma g) := by
  have h2 : (Oh : ℝ) ≠ 0 := by exact_mod_cast hh.ne'
  have h3 : (Ow : ℝ) ≠ 0 := by exact_mod_cast hw.ne'
  obtain ⟨e1, e2⟩ := C148_factors P g hB hh hw
  rw [e1, e2]
  ext a b
  simp only [kroneckerMap_apply, Matrix.smul_apply, smul_eq_mul]
  field_simp

theorem mean_sum {ι : Type} (s : Finset ι) (f : ι → Fin B → ℝ) : mean (fun k => ∑ i ∈ s, f i k) = ∑ i ∈ s, mean (f i) := by
  unfold mean
  rw [sum_comm, sum_div]

/-- **C148 (exact).**  It is the Fisher matrix when, over the images of the batch, inputs and gradients are uncorrelated, gradients at different places are uncorrelated and the products of gradients are the same at all places. -/
theorem C148_exact (hB : 0 < B) (hh : 0 < Oh) (hw : 0 < Ow)
    (hind : ∀ t u c d f h, mean (fun k => input P k t c * input P k u d * (g (k, t) f * g (k, u) h)) = mean (fun k => input P k t c * input P k u d) * mean (fun k => g (k, t) f * g (k, u) h))
    (hplace : ∀ t u f h, t ≠ u → mean (fun k => g (k, t) f * g (k, u) h) = 0)
    (hsame : ∀ t u f h, mean (fun k => g (k, t) f * g (k, t) h) = mean fun k => g (k, u) f * g (k, u) h) :
    kroneckerMap (· * ·) (stats false P (batchGrad g)).1 (stats false P (batchGrad g)).2 = fisher P g := by
  rw [C148_product P g hB hh hw]
  have h2 : (Oh : ℝ) ≠ 0 := by exact_mod_cast hh.ne'
  have h3 : (Ow : ℝ) ≠ 0 := by exact_mod_cast hw.ne'
  ext ⟨c, f⟩ ⟨d, h⟩
  have hg : ∀ t, gamma g f h = mean fun k => g (k, t) f * g (k, t) h := by
    intro t
    have : gamma g f h = (∑ u, mean fun k => g (k, u) f * g (k, u) h) / (Oh * Ow) := by
      rw [← mean_sum]
      simp only [gamma, of_apply, mean, sum_div]
      refine sum_congr rfl fun k _ => sum_congr rfl fun u _ => ?_
      ring
    rw [this, sum_congr rfl fun u _ => hsame u t f h]
    simp only [sum_const, card_univ, Fintype.card_prod, Fintype.card_fin, nsmul_eq_mul, Nat.cast_mul]
    field_simp
  have hf : fisher P g (c, f) (d, h) = ∑ t, ∑ u, mean fun k => input P k t c * input P k u d * (g (k, t) f * g (k, u) h) := by
    simp only [fisher, of_apply, gradient, sum_mul_sum]
    rw [mean_sum]
    refine sum_congr rfl fun t _ => ?_
    rw [mean_sum]
    refine sum_congr rfl fun u _ => ?_
    congr 1
    funext k
    ring
  rw [hf, kroneckerMap_apply]
  have ho : omega P c d = ∑ t, mean fun k => input P k t c * input P k t d := by
    rw [← mean_sum]; rfl
  rw [ho, sum_mul]
  refine sum_congr rfl fun t _ => ?_
  rw [sum_eq_single t, hind, hg t]
  · intro u _ hu
    rw [hind, hplace t u f h (Ne.symm hu), mul_zero]
  · simp

/-- **C148 (`approx_t2`).**  With `approx_t2` it is the Fisher matrix when the inputs of an image are the same at all places and are uncorrelated with the summed gradients. -/
theorem C148_t2 (hB : 0 < B) (hh : 0 < Oh) (hw : 0 < Ow) (hconst : ∀ k t u e, P (k, t) e = P (k, u) e)
    (hind : ∀ t c d f h, mean (fun k => input P k t c * input P k t d * ((∑ u, g (k, u) f) * ∑ u, g (k, u) h)) = mean (fun k => input P k t c * input P k t d) * mean (fun k => (∑ u, g (k, u) f) * ∑ u, g (k, u) h)) :
    kroneckerMap (· * ·) (stats true P (batchGrad g)).1 (stats true P (batchGrad g)).2 = fisher P g := by
  have h1 : (B : ℝ) ≠ 0 := by exact_mod_cast hB.ne'
  have h2 : (Oh : ℝ) ≠ 0 := by exact_mod_cast hh.ne'
  have h3 : (Ow : ℝ) ≠ 0 := by exact_mod_cast hw.ne'
  let t : Place Oh Ow := (⟨0, hh⟩, ⟨0, hw⟩)
  have hin : ∀ k u c, input P k u c = input P k t c := fun k u c => by
    cases c with
    | none => rfl
    | some e => exact hconst k u t e
  have hact : ∀ k c, act2 P k c = input P k t c := fun k c => by
    cases c with
    | none => rfl
    | some e =>
      show (∑ u, P (k, u) e) / (Oh * Ow) = P (k, t) e
      rw [sum_congr rfl fun u _ => hconst k u t e]
      simp only [sum_const, card_univ, Fintype.card_prod, Fintype.card_fin, nsmul_eq_mul, Nat.cast_mul]
      field_simp
  have hgr : ∀ k c f, gradient P g k c f = input P k t c * ∑ u, g (k, u) f := fun k c f => by
    unfold gradient
    rw [mul_sum]
    exact sum_congr rfl fun u _ => by rw [hin k u c]
  ext ⟨c, f⟩ ⟨d, h⟩
  have hf : fisher P g (c, f) (d, h) = mean (fun k => input P k t c * input P k t d) * mean (fun k => (∑ u, g (k, u) f) * ∑ u, g (k, u) h) := by
    rw [← hind]
    simp only [fisher, of_apply, hgr]
    congr 1
    funext k
    ring
  rw [hf, kroneckerMap_apply]
  simp only [stats, if_true, covA, covG, Matrix.smul_apply, Matrix.mul_apply, transpose_apply, smul_eq_mul, hact, mean, Fintype.card_fin, grad2, batchGrad, of_apply]
  congr 1
  · rw [one_div, inv_mul_eq_div]
  · rw [one_div, inv_mul_eq_div]
    congr 1
    refine sum_congr rfl fun k _ => ?_
    rw [← sum_div, ← sum_div]
    field_simp

/-- **C148 (one place).**  With one place, as for a dense layer, both variants give the mean products of inputs and of gradients. -/
theorem C148_dense (hB : 0 < B) (P : Matrix (Fin B × Place 1 1) κ ℝ) (g : Matrix (Fin B × Place 1 1) (Fin n) ℝ) (t2 : Bool) :
    (∀ c d, (stats t2 P (batchGrad g)).1 c d = mean fun k => input P k (0, 0) c * input P k (0, 0) d) ∧ ∀ f h, (stats t2 P (batchGrad g)).2 f h = mean fun k => g (k, (0, 0)) f * g (k, (0, 0)) h := by
  have h1 : (B : ℝ) ≠ 0 := by exact_mod_cast hB.ne'
  cases t2
  · obtain ⟨e1, e2⟩ := C148_factors P g hB one_pos one_pos
    rw [e1, e2]
    constructor
    · intro c d
      simp [omega, Fintype.sum_prod_type]
    · intro f h
      simp [gamma, Fintype.sum_prod_type]
  · constructor
    · intro c d
      have hact : ∀ k c, act2 P k c = input P k (0, 0) c := fun k c => by cases c <;> simp [act2, input, Fintype.sum_prod_type]
      simp only [stats, if_true, covA, Matrix.smul_apply, Matrix.mul_apply, transpose_apply, smul_eq_mul, hact, mean]
      rw [one_div, inv_mul_eq_div]
    · intro f h
      simp only [stats, if_true, covG, Matrix.smul_apply, Matrix.mul_apply, transpose_apply, smul_eq_mul, mean, Fintype.card_fin, grad2, batchGrad, of_apply, Fintype.sum_prod_type, univ_unique, sum_singleton, Fin.default_eq_zero,
        Fin.isValue]
      rw [one_div, inv_mul_eq_div]
      congr 1
      refine sum_congr rfl fun k _ => ?_
      field_simp

/-- A sum of squares is not negative; in matrix form. -/
theorem gram_nonneg {ρ ι : Type} [Fintype ρ] [Fintype ι] (F : Matrix ρ ι ℝ) (x : ι → ℝ) : 0 ≤ ∑ i, ∑ j, x i * (Fᵀ * F) i j * x j := by
  have : ∑ i, ∑ j, x i * (Fᵀ * F) i j * x j = ∑ r, (∑ i, F r i * x i) ^ 2 := by
    simp only [sq, sum_mul_sum]
    rw [sum_comm]
    refine (sum_congr rfl fun i _ => ?_).trans sum_comm
    rw [sum_comm]
    refine sum_congr rfl fun j _ => ?_
    rw [Matrix.mul_apply, mul_sum, sum_mul]
    refine sum_congr rfl fun r _ => ?_
    rw [transpose_apply]
    ring
  rw [this]
  positivity

/-- **C148 (positive).**  Both statistics are symmetric and have no negative eigenvalue, in both variants. -/
theorem C148_positive (t2 : Bool) (D : Matrix (Fin B × Place Oh Ow) (Fin n) ℝ) :
    ((stats t2 P D).1ᵀ = (stats t2 P D).1 ∧ ∀ x : Option κ → ℝ, 0 ≤ ∑ i, ∑ j, x i * (stats t2 P D).1 i j * x j) ∧ (stats t2 P D).2ᵀ = (stats t2 P D).2 ∧ ∀ x : Fin n → ℝ, 0 ≤ ∑ i, ∑ j, x i * (stats t2 P D).2 i j * x j := by
  have key : ∀ {ρ ι : Type} [Fintype ρ] [Fintype ι] (F : Matrix ρ ι ℝ) (a : ℝ), 0 ≤ a → (a • (Fᵀ * F))ᵀ = a • (Fᵀ * F) ∧ ∀ x : ι → ℝ, 0 ≤ ∑ i, ∑ j, x i * (a • (Fᵀ * F)) i j * x j := by
    intro ρ ι _ _ F a ha
    refine ⟨by rw [transpose_smul, transpose_mul, transpose_transpose], fun x => ?_⟩
    have : ∑ i, ∑ j, x i * (a • (Fᵀ * F)) i j * x j = a * ∑ i, ∑ j, x i * (Fᵀ * F) i j * x j := by
      simp only [mul_sum, Matrix.smul_apply, smul_eq_mul]
      refine sum_congr rfl fun i _ => sum_congr rfl fun j _ => ?_
      ring
    rw [this]
    exact mul_nonneg ha (gram_nonneg F x)
  cases t2
  · exact ⟨key _ _ (by positivity), key _ _ (by positivity)⟩
  · exact ⟨key _ _ (by positivity), key _ _ (by positivity)⟩

/-! ### Examples -/

/-- Four images, two places, one channel, kernel 1 × 1: the hypotheses of `C148_exact` hold with inputs that differ between the places and gradients that differ between the images. -/
def exP : Matrix (Fin 4 × Place 1 2) (Fin 1) ℝ := of fun r _ => if r.2.2 = 0 then 3 else 5
/-- Gradients at the first place `1 1 -1 -1`, at the second `1 -1 1 -1`. -/
def exG : Matrix (Fin 4 × Place 1 2) (Fin 1) ℝ := of fun r _ => if r.2.2 = 0 then ![1, 1, -1, -1] r.1 else ![1, -1, 1, -1] r.1

example : kroneckerMap (· * ·) (stats false exP (batchGrad exG)).1 (stats false exP (batchGrad exG)).2 = fisher exP exG := by
  refine C148_exact exP exG (by norm_num) (by norm_num) (by norm_num) ?_ ?_ ?_
  · rintro ⟨t0, t⟩ ⟨u0, u⟩ c d f h
    have hc : ∀ k t c, input exP k t c = input exP 0 t c := fun k t c => by cases c <;> rfl
    simp only [hc _ (t0, t), hc _ (u0, u)]
    simp only [mean, ← mul_sum, sum_const, card_univ, Fintype.card_fin, nsmul_eq_mul]
    push_cast
    ring
  · rintro ⟨t0, t⟩ ⟨u0, u⟩ f h hn
    obtain rfl : t0 = u0 := Subsingleton.elim _ _
    fin_cases t <;> fin_cases u <;> first | (exact absurd rfl hn) | (simp [mean, exG, Fin.sum_univ_four])
  · rintro ⟨t0, t⟩ ⟨u0, u⟩ f h
    fin_cases t <;> fin_cases u <;> simp [mean, exG, Fin.sum_univ_four]

/-- Sizes of the three convolutions of the usual network on 84 × 84 images. -/
example : (outSize 84 8 4, outSize 20 4 2, outSize 9 3 1) = (20, 9, 7) := by decide

end Neorl.ConvStats

import Mathlib.Data.Real.Basic
import Mathlib.LinearAlgebra.Matrix.Kronecker
import Mathlib.Algebra.BigOperators.Fin
import Mathlib.Algebra.BigOperators.Field
import Mathlib.Tactic.Linarith
import Mathlib.Tactic.Positivity
import Mathlib.Tactic.Ring
import Mathlib.Tactic.FieldSimp

/-!
# Convolutions and their statistics in ACKTR

Model of `conv` (`neorl/rl/baselines/shared/tf_layers.py` lines 95-107, padding `VALID`, format `NHWC`) and of the part of `KfacOptimizer.compute_stats` for convolutions
(`neorl/rl/baselines/acktr/kfac.py` lines 375-384, 416-444, 452-481), with and without `approx_t2`, for a kernel with a bias and without `blockdiag_bias` and `channel_fac` (ACKTR sets neither).

Real numbers take the place of 32 bit floats.  A batch has `B` images, the output `Oh × Ow` places.  Images are functions of row, column and channel; that only pixels of the image are read is a theorem.  The rows of a matrix
with flattened places are pairs of image and place; the flattened entries of a kernel are triples of row, column and channel, in both cases instead of one number in row-major order.  `Option` adds the column for the bias.
-/

set_option linter.unusedSectionVars false
set_option linter.unusedVariables false

namespace Neorl.ConvStats

open Matrix

/-- The places of the output. -/
abbrev Place (Oh Ow : ℕ) := Fin Oh × Fin Ow

/-- The entries of a kernel for one filter. -/
abbrev Entry (Kh Kw C : ℕ) := Fin Kh × Fin Kw × Fin C

/-- A batch of images: image, row, column, channel. -/
abbrev Images (B C : ℕ) := Fin B → ℕ → ℕ → Fin C → ℝ

variable {B Oh Ow Kh Kw C n : ℕ} {κ : Type} [Fintype κ]

/-- The size of the output of a convolution with padding `VALID`: `(size - kernel) / stride + 1`. -/
def outSize (size kernel stride : ℕ) : ℕ := (size - kernel) / stride + 1

/-- `bias + tf.nn.conv2d(input, weight, ...)`, tf_layers.py line 107. -/
noncomputable def conv (sh sw : ℕ) (x : Images B C) (w : Fin Kh → Fin Kw → Fin C → Fin n → ℝ) (b : Fin n → ℝ) (k : Fin B) (i j : ℕ) (f : Fin n) : ℝ :=
  b f + ∑ p : Fin Kh, ∑ q : Fin Kw, ∑ c : Fin C, x k (i * sh + p) (j * sw + q) c * w p q c f

/-- `tf.extract_image_patches`, kfac.py lines 417-418. -/
def patches (sh sw Oh Ow Kh Kw : ℕ) (x : Images B C) : Matrix (Fin B × Place Oh Ow) (Entry Kh Kw C) ℝ :=
  of fun r e => x r.1 (r.2.1 * sh + e.1) (r.2.2 * sw + e.2.1) e.2.2

/-- `fprop_factor` without `approx_t2`: the patches divided by height and width of the output (lines 427-428) and the column for the bias (lines 431-435). -/
noncomputable def act1 (P : Matrix (Fin B × Place Oh Ow) κ ℝ) : Matrix (Fin B × Place Oh Ow) (Option κ) ℝ :=
  of fun r c => c.elim (1 / Oh / Ow) fun e => P r e / Oh / Ow

/-- `fprop_factor` with `approx_t2`: the mean of the patches of an image (line 424) and a column of ones (lines 436-439). -/
noncomputable def act2 (P : Matrix (Fin B × Place Oh Ow) κ ℝ) : Matrix (Fin B) (Option κ) ℝ :=
  of fun k c => c.elim 1 fun e => (∑ t, P (k, t) e) / (Oh * Ow)

/-- `cov`, lines 443-444: `batch_size` is the number of images (line 378). -/
noncomputable def covA {ρ ι : Type} [Fintype ρ] (B : ℕ) (F : Matrix ρ ι ℝ) : Matrix ι ι ℝ := (1 / (B : ℝ)) • (Fᵀ * F)

/-- `bprop_factor` without `approx_t2`, lines 465-466. -/
noncomputable def grad1 (D : Matrix (Fin B × Place Oh Ow) (Fin n) ℝ) : Matrix (Fin B × Place Oh Ow) (Fin n) ℝ := of fun r f => D r f * Oh * Ow

/-- `bprop_factor` with `approx_t2`, lines 462-463. -/
noncomputable def grad2 (D : Matrix (Fin B × Place Oh Ow) (Fin n) ℝ) : Matrix (Fin B) (Fin n) ℝ := of fun k f => ∑ t, D (k, t) f

/-- `cov_b`, lines 455, 477-481: multiplied by the number of images, the products divided by the number of rows. -/
noncomputable def covG {ρ : Type} [Fintype ρ] (B : ℕ) (D : Matrix ρ (Fin n) ℝ) : Matrix (Fin n) (Fin n) ℝ :=
  (1 / (Fintype.card ρ : ℝ)) • (((B : ℝ) • D)ᵀ * ((B : ℝ) • D))

/-- The two statistics of a convolution: of the activations and of the gradients. -/
noncomputable def stats (t2 : Bool) (P : Matrix (Fin B × Place Oh Ow) κ ℝ) (D : Matrix (Fin B × Place Oh Ow) (Fin n) ℝ) : Matrix (Option κ) (Option κ) ℝ × Matrix (Fin n) (Fin n) ℝ :=
  if t2 then (covA B (act2 P), covG B (grad2 D)) else (covA B (act1 P), covG B (grad1 D))

end Neorl.ConvStats

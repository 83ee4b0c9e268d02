import Verif.Py
import Mathlib.Algebra.Order.Field.Basic
import Mathlib.Algebra.Order.Archimedean.Basic
import Mathlib.Algebra.BigOperators.Fin
import Mathlib.Algebra.Order.BigOperators.Group.Finset
import Mathlib.Algebra.BigOperators.Ring.Finset
import Mathlib.Tactic.FieldSimp
import Mathlib.Tactic.Ring
import Mathlib.Tactic.Linarith
import Mathlib.Tactic.Positivity

/-!
# Numerical helpers of the baselines and action noise

Model of `neorl/rl/baselines/shared/math_util.py` (`explained_variance`, `explained_variance_2d`, `flatten_arrays`, `unflatten_vector`, `scale_action`,
`unscale_action`; the discounted sums are in `Verif/Returns.lean`) and of `neorl/rl/baselines/shared/noise.py`.  Gaussian draws are arbitrary numbers.
-/

set_option linter.unusedSectionVars false
set_option linter.unusedVariables false

namespace Neorl.MathUtil

section
variable {K : Type} [Field K] [LinearOrder K] [IsStrictOrderedRing K] {n : ℕ}

/-! ### Actions -/

/-- `scale_action`, lines 117-127: `2.0 * ((action - low) / (high - low)) - 1.0`. -/
def scaleAction (low high a : Fin n → K) (i : Fin n) : K := 2 * ((a i - low i) / (high i - low i)) - 1

/-- `unscale_action`, lines 130-140: `low + (0.5 * (scaled_action + 1.0) * (high - low))`. -/
def unscaleAction (low high s : Fin n → K) (i : Fin n) : K := low i + 1 / 2 * (s i + 1) * (high i - low i)

/-! ### Explained variance -/

/-- `np.mean`. -/
def mean {ι : Type} [Fintype ι] (y : ι → K) : K := (∑ i, y i) / Fintype.card ι

/-- `np.var`: the mean squared deviation from the mean. -/
def var {ι : Type} [Fintype ι] (y : ι → K) : K := mean fun i => (y i - mean y) * (y i - mean y)

/-- `explained_variance`, lines 30-47; `none` is nan (also for empty arrays). -/
def explainedVariance (pred true_ : Fin n → K) : Option K :=
  if n = 0 then none else if var true_ = 0 then none else some (1 - var (fun i => true_ i - pred i) / var true_)

/-- `explained_variance_2d`, lines 50-68: `np.var(y_true - y_pred)` has no `axis`, so it is the variance of all entries. -/
def explainedVariance2d {m : ℕ} (pred true_ : Fin n → Fin m → K) (j : Fin m) : K :=
  let varY := var fun i => true_ i j
  if varY < 1 / 10000000000 then 0 else 1 - (var fun p : Fin n × Fin m => true_ p.1 p.2 - pred p.1 p.2) / varY

/-! ### Flattening -/

end

/-- An array: its shape and its entries in C order. -/
structure Arr (α : Type) where
  shape : List ℕ
  data : List α
deriving DecidableEq

/-- The number of entries fits the shape. -/
def Arr.Wf {α : Type} (a : Arr α) : Prop := a.data.length = a.shape.prod

/-- `flatten_arrays`, lines 71-78 (`np.concatenate` refuses an empty list). -/
def flattenArrays {α : Type} (as : List (Arr α)) : Py (List α) := if as = [] then .error .valueError else .ok (as.map Arr.data).flatten

/-- The loop of `unflatten_vector`, lines 89-95.  `np.prod(())` is the float 1.0, which is refused as a slice index; `reshape` refuses a slice of another length. -/
def unflattenLoop {α : Type} (vec : List α) : ℕ → List (List ℕ) → Py (List (Arr α))
  | _, [] => .ok []
  | i, sh :: shs =>
    if sh = [] then .error .typeError
    else if ((vec.drop i).take sh.prod).length ≠ sh.prod then .error .valueError
    else
      match unflattenLoop vec (i + sh.prod) shs with
      | .error e => .error e
      | .ok as => .ok (⟨sh, (vec.drop i).take sh.prod⟩ :: as)

/-- `unflatten_vector`, lines 81-95. -/
def unflattenVector {α : Type} (vec : List α) (shapes : List (List ℕ)) : Py (List (Arr α)) := unflattenLoop vec 0 shapes

section
variable {K : Type} [Field K] [LinearOrder K] [IsStrictOrderedRing K] {n : ℕ}

/-! ### Noise -/

/-- `AdaptiveParamNoiseSpec.adapt`, noise.py lines 22-33. -/
def adapt (desired coef : K) (stddev distance : K) : K := if desired < distance then stddev / coef else stddev * coef

/-- The standard deviation after the given distances. -/
def adaptAll (desired coef : K) (stddev : K) (ds : List K) : K := ds.foldl (adapt desired coef) stddev

/-- Closed loop: the distance is a function of the standard deviation. -/
def adaptLoop (desired coef : K) (dist : K → K) (stddev : K) : ℕ → K
  | 0 => stddev
  | k + 1 => adapt desired coef (adaptLoop desired coef dist stddev k) (dist (adaptLoop desired coef dist stddev k))

/-- `_mu` of `OrnsteinUhlenbeckActionNoise`: an array or a plain float, which has no `shape`. -/
inductive Mu (K : Type) (n : ℕ)
  | array (v : Fin n → K)
  | float (x : K)

structure OU (K : Type) (n : ℕ) where
  mu : Mu K n
  theta : K
  sigma : Fin n → K
  dt : K
  sqrtDt : K
  initial : Option (Fin n → K)

/-- `reset`, lines 117-121. -/
def OU.reset (c : OU K n) : Fin n → K := c.initial.getD 0

/-- `__call__`, lines 111-115, with the normal draws `g`. -/
def OU.call (c : OU K n) (prev g : Fin n → K) : Py (Fin n → K) :=
  match c.mu with
  | .float _ => .error .attributeError
  | .array mu => .ok fun i => prev i + c.theta * (mu i - prev i) * c.dt + c.sigma i * c.sqrtDt * g i

/-- The noise of the `k`-th call after a reset (call 0: the initial value). -/
def OU.noise (c : OU K n) (g : ℕ → Fin n → K) : ℕ → Py (Fin n → K)
  | 0 => .ok c.reset
  | k + 1 =>
    match c.noise g k with
    | .error e => .error e
    | .ok x => c.call x (g k)

/-! ### Lemmas -/

theorem mean_add_const {ι : Type} [Fintype ι] [Nonempty ι] (y : ι → K) (c : K) : mean (fun i => y i + c) = mean y + c := by
  have : (Fintype.card ι : K) ≠ 0 := by exact_mod_cast Fintype.card_ne_zero
  unfold mean
  rw [Finset.sum_add_distrib]
  simp only [Finset.sum_const, Finset.card_univ, nsmul_eq_mul]
  field_simp

theorem var_nonneg {ι : Type} [Fintype ι] (y : ι → K) : 0 ≤ var y :=
  div_nonneg (Finset.sum_nonneg fun i _ => mul_self_nonneg _) (Nat.cast_nonneg _)

theorem var_eq_zero {ι : Type} [Fintype ι] [Nonempty ι] (y : ι → K) : var y = 0 ↔ ∀ i j, y i = y j := by
  have hc : (Fintype.card ι : K) ≠ 0 := by exact_mod_cast Fintype.card_ne_zero
  unfold var
  constructor
  · intro h
    have h1 : ∑ i, (y i - mean y) * (y i - mean y) = 0 := (div_eq_zero_iff.1 h).resolve_right hc
    rw [Finset.sum_eq_zero_iff_of_nonneg fun i _ => mul_self_nonneg _] at h1
    have h2 : ∀ i, y i = mean y := fun i => by
      have := mul_self_eq_zero.1 (h1 i (Finset.mem_univ i))
      linarith
    intro i j
    rw [h2 i, h2 j]
  · intro h
    obtain ⟨i0⟩ := ‹Nonempty ι›
    have hm : mean y = y i0 := by
      unfold mean
      rw [Finset.sum_congr rfl fun i _ => h i i0]
      simp only [Finset.sum_const, Finset.card_univ, nsmul_eq_mul]
      field_simp
    have : ∀ i, (y i - mean y) * (y i - mean y) = 0 := fun i => by rw [hm, h i i0, sub_self, mul_zero]
    simp only [this]
    unfold mean
    simp

theorem var_add_const {ι : Type} [Fintype ι] [Nonempty ι] (y : ι → K) (c : K) : var (fun i => y i + c) = var y := by
  unfold var
  rw [mean_add_const]
  congr 1
  funext i
  ring

end

end Neorl.MathUtil

import Verif.Py
import Mathlib.Algebra.Order.Ring.Defs
import Mathlib.Algebra.Field.Defs

/-!
# Orthogonal initialisation of weights

Model of `ortho_init` (`neorl/rl/baselines/shared/tf_layers.py` lines 5-42).  Entries are numbers of an ordered field (the conversion to `float32` is left out), the
noise of line 36 and numpy's singular value decomposition are parameters.
-/

set_option linter.unusedSectionVars false
set_option linter.unusedVariables false

namespace Neorl.Ortho

section
variable {K : Type}

/-- A matrix: its shape and its entries. -/
structure Mat (K : Type) where
  rows : ℕ
  cols : ℕ
  at_ : ℕ → ℕ → K

/-- A tensor: its shape and its entries by index. -/
structure Tensor (K : Type) where
  shape : List ℕ
  at_ : List ℕ → K

/-- Lines 30-35: `flat_shape`; other numbers of dimensions raise `NotImplementedError`, a `RuntimeError`. -/
def flatShape : List ℕ → Py (ℕ × ℕ)
  | [m, n] => .ok (m, n)
  | [a, b, c, n] => .ok (a * b * c, n)
  | _ => .error .runtimeError

/-- `weights.reshape(shape)`, line 39, in C order: the last index is the column, the others make up the row. -/
def reshape (w : Mat K) : List ℕ → Tensor K
  | [m, n] => ⟨[m, n], fun | [i, j] => w.at_ i j | _ => w.at_ 0 0⟩
  | [a, b, c, n] => ⟨[a, b, c, n], fun | [i, j, k, l] => w.at_ ((i * b + j) * c + k) l | _ => w.at_ 0 0⟩
  | sh => ⟨sh, fun _ => w.at_ 0 0⟩

/-- `_ortho_init`, lines 28-40; `svd` gives the first and the last factor.  The slices of line 40 keep everything. -/
def init [Mul K] (svd : Mat K → Mat K × Mat K) (noise : ℕ × ℕ → Mat K) (scale : K) (shape : List ℕ) : Py (Tensor K) :=
  match flatShape shape with
  | .error e => .error e
  | .ok fl =>
    let u := (svd (noise fl)).1
    let v := (svd (noise fl)).2
    let w := if (u.rows, u.cols) = fl then u else v
    let t := reshape w shape
    .ok ⟨t.shape, fun i => scale * t.at_ i⟩

end
end Neorl.Ortho

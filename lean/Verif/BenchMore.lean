import Verif.Classic
import Mathlib.Analysis.SpecialFunctions.Sqrt
import Mathlib.Topology.Order.Compact

/-!
# More benchmarks: Alpine, Shubert, ridge, power splits, and the surface plot

`neorl/benchmarks/classic.py` lines 95-99 and 137-146, `neorl/benchmarks/qpower_model.py`, `neorl/benchmarks/__init__.py`.

As in `Verif/Classic.lean`, over the real numbers.  The network of the power model is an arbitrary function; the drawing itself is not modelled.
-/

set_option linter.unusedSectionVars false
set_option linter.unusedVariables false

namespace Neorl.BenchMore

open Real Neorl.Classic

/-- `alpinen1`, lines 95-96. -/
noncomputable def alpine1 (x : List ℝ) : Py ℝ := .ok (sumOf (fun a => |a * sin a + 0.1 * a|) x)

/-- `reduce(mul, ..., 1)` over factors that may raise. -/
def prodM (g : ℝ → Py ℝ) : ℝ → List ℝ → Py ℝ
  | s, [] => .ok s
  | s, a :: t =>
    match g a with
    | .error e => .error e
    | .ok v => prodM g (s * v) t

/-- `math.sqrt` raises `ValueError` below zero. -/
noncomputable def pySqrt (a : ℝ) : Py ℝ := if a < 0 then .error .valueError else .ok (sqrt a)

/-- `alpinen2`, lines 98-99. -/
noncomputable def alpine2 (x : List ℝ) : Py ℝ := prodM (fun a => (pySqrt a).map fun s => s * sin a) 1 x

/-- The factor of `shubert`, line 140. -/
noncomputable def wave (y : ℝ) : ℝ := sumOf (fun x => x * cos ((x + 1) * y + x)) [1, 2, 3, 4, 5]

/-- `shubert`, lines 137-141. -/
noncomputable def shubert (x : List ℝ) : Py ℝ := .ok (x.foldl (fun s a => s * wave a) 1)

/-- `ridge`, lines 143-146. -/
noncomputable def ridge : List ℝ → Py ℝ
  | [] => .error .indexError
  | a :: t => .ok (a + 1 * (sumOf (fun b => b ^ 2) t) ^ (0.5 : ℝ))

/-- `QPowerModel.eval`, qpower_model.py lines 28-32: `net` is the network (a sum of zero would give `nan`: an error here). -/
noncomputable def power {P : Type} (net : P → List ℝ) (pert : P) : Py (List ℝ) :=
  if (net pert).sum = 0 then .error .zeroDivision else .ok ((net pert).map fun v => v / (net pert).sum)

/-- `np.linspace(lo, hi, n)`. -/
noncomputable def linspace (lo hi : ℝ) (n : ℕ) : List ℝ := (List.range n).map fun (i : ℕ) => lo + (i : ℝ) * ((hi - lo) / (n - 1 : ℕ))

/-- `np.tile(l, k)`. -/
def tile (l : List ℝ) (k : ℕ) : List ℝ := (List.replicate k l).flatten

/-- `np.repeat(l, k)`. -/
def rep (l : List ℝ) (k : ℕ) : List ℝ := l.flatMap fun a => List.replicate k a

/-- The points, `__init__.py` lines 23-24. -/
noncomputable def points (lo hi : ℝ) (n : ℕ) : List (ℝ × ℝ) :=
  let l := linspace lo hi n
  (tile l l.length).zip (rep l l.length)

/-- Lines 25, 33-34: the values; the bare `except` (line 53) turns every error into the same exception. -/
def values (f : ℝ × ℝ → Py ℝ) : List (ℝ × ℝ) → Py (List ℝ)
  | [] => .ok []
  | p :: t =>
    match f p with
    | .error _ => .error .runtimeError
    | .ok v =>
      match values f t with
      | .error e => .error e
      | .ok vs => .ok (v :: vs)

/-- `l.reshape((n, n))`. -/
def reshape {α : Type} (n : ℕ) (l : List α) : List (List α) := (List.range n).map fun i => (l.drop (i * n)).take n

/-- What is handed to `plot_surface`, lines 19-43 (nothing can be drawn for no points). -/
noncomputable def surface (f : ℝ × ℝ → Py ℝ) (lo hi : ℝ) (n : ℕ) : Py (List (List ℝ) × List (List ℝ) × List (List ℝ)) :=
  match values f (points lo hi n) with
  | .error e => .error e
  | .ok zs =>
    if n = 0 then .error .runtimeError
    else .ok (reshape n ((points lo hi n).map (·.1)), reshape n ((points lo hi n).map (·.2)), reshape n zs)

end Neorl.BenchMore

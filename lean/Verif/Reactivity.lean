import Verif.Py
import Mathlib.Data.List.Sort
import Mathlib.Data.List.FinRange
import Mathlib.Algebra.BigOperators.Fin
import Mathlib.Data.Fin.VecNotation

/-!
# Control drum reactivity model (neorl/benchmarks/reactivity_model.py)

The inward current `j-` of a drum is a table of angles (`centers`) and values (`hist`).  `integrate` and `integrate_sq` integrate the piecewise linear function through the table and its square between two angles;
`ReactivityModel.eval` combines the integrals into the reactivity of the eight drums, `evald` and `evalg` its derivatives.

Numbers are elements of a linearly ordered field (no rounding), `pi` is a parameter; a division by zero, which numpy answers with nan or inf, gives 0 (it does not occur for tables with distinct angles).
Reading the CSV files is not modelled: the tables are arguments.
-/

set_option linter.unusedSectionVars false
set_option linter.unusedVariables false

namespace Neorl.Reactivity

variable {K : Type} [Field K] [LinearOrder K]

/-- `a[i]` of numpy: negative indices count from the end (library). -/
def item (a : List K) (i : ℤ) : Py K :=
  let j := if i < 0 then i + a.length else i
  if j < 0 then .error .indexError else
    match a[j.toNat]? with
    | some v => .ok v
    | none => .error .indexError

/-- `np.searchsorted(x, v)` of an increasing `x`: the number of entries below `v` (library). -/
def searchLeft (x : List K) (v : K) : ℕ := x.countP fun a => decide (a < v)

/-- `np.where(np.logical_and(x > lbnd, x < ubnd))[0]` (reactivity_model.py 63 and 92): the indices of the angles strictly between the bounds, in increasing order. -/
def inside (x : List K) (l u : K) : List ℕ := (List.range x.length).filter fun i => (x[i]?).any fun v => decide (l < v ∧ v < u)

/-- `x[compl_ind]`: indexing by a list of indices (library). -/
def pick (a : List K) (is : List ℕ) : Py (List K) := is.mapM fun (i : ℕ) => item a (i : ℤ)

/-- `(t - x[i-1])/(x[i] - x[i-1])*(y[i] - y[i-1]) + y[i-1]` (lines 67, 68, 76, 81, 96, 97, 113, 121): the line through points `i-1` and `i`, at `t`. -/
def lin (x y : List K) (i : ℤ) (t : K) : Py K := do
  let a ← item x (i - 1)
  let b ← item x i
  let d ← item y i
  let c ← item y (i - 1)
  .ok ((t - a) / (b - a) * (d - c) + c)

/-- `np.trapz(y, x)` (library): the trapezoidal rule. -/
def trapz : List K → List K → K
  | x0 :: x1 :: xs, y0 :: y1 :: ys => (x1 - x0) * (y0 + y1) / 2 + trapz (x1 :: xs) (y1 :: ys)
  | _, _ => 0

/-- `integrate` (lines 57-84). -/
def integrate (x y : List K) (l u : K) : Py K :=
  match inside x l u with
  | [] => do
    let idx := searchLeft x l
    let yl ← lin x y idx l
    let yu ← lin x y idx u
    .ok ((u - l) * (yu + yl) / 2)
  | c :: cs => do
    let xs ← pick x (c :: cs)
    let ys ← pick y (c :: cs)
    let full := trapz xs ys
    let li : ℤ := c
    let yl ← lin x y li l
    let xli ← item x li
    let yli ← item y li
    let lower := (xli - l) * (yli + yl) / 2
    let ui : ℤ := ((c :: cs).getLast (by simp) : ℕ) + 1
    let yu ← lin x y ui u
    let xui ← item x (ui - 1)
    let yui ← item y (ui - 1)
    let upper := (u - xui) * (yui + yu) / 2
    .ok (full + lower + upper)

/-- `m**2/3*(x1**3 - x0**3) + (m*y0 - m**2*x0)*(x1**2 - x0**2) + (m*x0 - y0)**2*(x1 - x0)` (lines 99-100, 115-117, 123-125): the integral of the squared line through `(x0, y0)` with slope `m`. -/
def sqBlock (m x0 y0 x1 : K) : K := m ^ 2 / 3 * (x1 ^ 3 - x0 ^ 3) + (m * y0 - m ^ 2 * x0) * (x1 ^ 2 - x0 ^ 2) + (m * x0 - y0) ^ 2 * (x1 - x0)

/-- The sum over the enclosed blocks (lines 103-109): `dx`, `dx2`, `dx3`, `ms`, `xis`, `yis` of consecutive points. -/
def sqSum : List K → List K → K
  | x0 :: x1 :: xs, y0 :: y1 :: ys =>
    let dx := x1 - x0
    let dx2 := x1 ^ 2 - x0 ^ 2
    let dx3 := x1 ^ 3 - x0 ^ 3
    let m := (y1 - y0) / dx
    (m ^ 2 * dx3 / 3 + (m * y0 - m ^ 2 * x0) * dx2 + (m * x0 - y0) ^ 2 * dx) + sqSum (x1 :: xs) (y1 :: ys)
  | _, _ => 0

/-- `integrate_sq` (lines 86-127). -/
def integrateSq (x y : List K) (l u : K) : Py K :=
  match inside x l u with
  | [] => do
    let idx := searchLeft x l
    let yl ← lin x y idx l
    let yu ← lin x y idx u
    let m := (yu - yl) / (u - l)
    .ok (sqBlock m l yl u)
  | c :: cs => do
    let xs ← pick x (c :: cs)
    let ys ← pick y (c :: cs)
    let full := sqSum xs ys
    let li : ℤ := c
    let yl ← lin x y li l
    let xli ← item x li
    let yli ← item y li
    let lower := sqBlock ((yli - yl) / (xli - l)) l yl xli
    let ui : ℤ := ((c :: cs).getLast (by simp) : ℕ)
    let yu ← lin x y (ui + 1) u
    let xui ← item x ui
    let yui ← item y ui
    let upper := sqBlock ((yu - yui) / (u - xui)) xui yui u
    .ok (full + lower + upper)

/-- `int_bounds` (lines 129-139). -/
def intBounds (pi theta c : K) : Py ((K × K) × (K × K)) :=
  if theta < pi + 1 / 100000 ∧ theta > -pi - 1 / 100000 then
    if 0 < theta ∧ theta < c then .ok ((c / 2, theta + c / 2), (-c / 2, theta - c / 2))
    else if -c < theta ∧ theta < 0 then .ok ((theta - c / 2, -c / 2), (theta + c / 2, c / 2))
    else .ok ((theta - c / 2, theta + c / 2), (-c / 2, c / 2))
  else .error .assertion

/-- `adj_coords` (lines 51-55) of one angle. -/
def adj [FloorRing K] (pi t : K) : K :=
  let r := t - 2 * pi * ⌊t / (2 * pi)⌋
  if r > pi then r - 2 * pi else r

/-- `interp1d(x, y)(t)` (scipy, linear; used in lines 205-207): the line between the neighbouring points, `ValueError` outside the table. -/
def interp1d (x y : List K) (t : K) : Py K := do
  let a ← item x 0
  let b ← item x (-1)
  if t < a ∨ b < t then .error .valueError else
    let i := max 1 (min (searchLeft x t) (x.length - 1))
    let xl ← item x (i - 1 : ℕ)
    let xh ← item x i
    let yl ← item y (i - 1 : ℕ)
    let yh ← item y i
    .ok ((yh - yl) / (xh - xl) * (t - xl) + yl)

/-- A table of angles and currents. -/
structure Tab (K : Type) where
  x : List K
  y : List K

/-- `ReactivityModel.__init__` (lines 199-207): the tables of configurations A and B, the coefficients and the coating angles. -/
structure Model (K : Type) where
  pi : K
  jmA : Tab K
  jmB : Tab K
  alphas : Fin 8 → Fin 9 → K
  cangles : Fin 8 → K

/-- Filling an array of eight entries in a loop; the first exception ends it. -/
def gather {n : ℕ} (f : Fin n → Py K) : Py (Fin n → K) := do
  let l ← (List.finRange n).mapM f
  .ok fun i => l.getD i 0

/-- `configAids` (line 150), drum numbers from 1. -/
def configA : List ℕ := [1, 4, 5, 8]

/-- `calc_zetatildes` (lines 141-167): one minus the integral of the current over the absorber for every drum, with a leading one, times the coefficients. -/
def zetatildes (M : Model K) (theta : Fin 8 → K) : Py (Fin 8 → K) := do
  let gs ← gather fun i : Fin 8 =>
    (if i.val + 1 ∈ configA then integrate M.jmA.x M.jmA.y (theta i - M.cangles i / 2) (theta i + M.cangles i / 2)
      else integrate M.jmB.x M.jmB.y (theta i - M.cangles i / 2) (theta i + M.cangles i / 2)).map fun v => 1 - v
  let gammastar : Fin 9 → K := Fin.cons 1 gs
  .ok fun i => ∑ j, gammastar j * M.alphas i j

/-- The two integrals of drum `i` (lines 229-236 and 274-281). -/
def drumInts (M : Model K) (pert : Fin 8 → K) (i : Fin 8) : Py K := do
  let (b1, b2) ← intBounds M.pi (pert i) (M.cangles i)
  if i.val ∈ [0, 3, 4, 7] then
    let int1 ← integrateSq M.jmA.x M.jmA.y b1.1 b1.2
    let int2 ← integrateSq M.jmA.x M.jmA.y b2.1 b2.2
    .ok (int1 - int2)
  else
    let int1 ← integrateSq M.jmB.x M.jmB.y b1.1 b1.2
    let int2 ← integrateSq M.jmB.x M.jmB.y b2.1 b2.2
    .ok (int1 - int2)

/-- `ReactivityModel.eval` (lines 209-243).  `if nom:` of an array of eight angles raises `ValueError`. -/
def eval [FloorRing K] (M : Model K) (pert : Fin 8 → K) (nom : Option (Fin 8 → K)) : Py K := do
  let pert := fun i => adj M.pi (pert i)
  let z ← zetatildes M pert
  let d ← gather (drumInts M pert)
  match nom with
  | some _ => .error .valueError
  | none => .ok (∑ i, z i * d i)

/-- `jmfs` (line 207): `[fA, fB, fB, fA, fA, fB, fB, fA]`. -/
def jmfs (M : Model K) : Fin 8 → K → Py K :=
  ![interp1d M.jmA.x M.jmA.y, interp1d M.jmB.x M.jmB.y, interp1d M.jmB.x M.jmB.y, interp1d M.jmA.x M.jmA.y,
    interp1d M.jmA.x M.jmA.y, interp1d M.jmB.x M.jmB.y, interp1d M.jmB.x M.jmB.y, interp1d M.jmA.x M.jmA.y]

/-- `calc_dzetatildes` (lines 169-181); the column `alpha<k>` has index `k`, the drum index `k - 1`. -/
def dzetatildes (M : Model K) (theta : Fin 8 → K) (k : Fin 8) : Py (Fin 8 → K) := do
  let a ← jmfs M k (theta k + M.cangles k / 2)
  let b ← jmfs M k (theta k - M.cangles k / 2)
  let dgamma := -a + b
  .ok fun i => M.alphas i k.succ * dgamma

/-- `calc_W` (lines 183-192). -/
def calcW (theta c : K) (jmf : K → Py K) : Py K := do
  let t1 ← jmf (theta + c / 2)
  let t2 ← jmf (theta - c / 2)
  .ok (t1 ^ 2 - t2 ^ 2)

/-- `ReactivityModel.evald` (lines 245-287). -/
def evald [FloorRing K] (M : Model K) (pert : Fin 8 → K) (k : Fin 8) (z : Option (Fin 8 → K)) : Py K := do
  let pert := fun i => adj M.pi (pert i)
  let dz ← dzetatildes M pert k
  let z ← match z with
    | none => zetatildes M pert
    | some z => .ok z
  let d ← gather (drumInts M pert)
  let w ← calcW (pert k) (M.cangles k) (jmfs M k)
  .ok (∑ i, (dz i * d i + if i = k then z k * w else 0))

/-- `ReactivityModel.evalg` (lines 289-304): the coefficients are computed once, from the angles as given. -/
def evalg [FloorRing K] (M : Model K) (pert : Fin 8 → K) : Py (Fin 8 → K) := do
  let z ← zetatildes M pert
  gather fun i => evald M pert i (some z)

/-- `get_jminus` (lines 10-44) for one configuration: shift the angles, wrap those below `-pi`, add copies a full turn below and above, sort by angle. -/
def jminus (pi shift : K) (rows : List (K × K)) : List (K × K) :=
  let r := rows.map fun p => (p.1 - shift, p.2)
  let r := r.map fun p => if p.1 < -pi then (p.1 + 2 * pi, p.2) else p
  let low := r.map fun p => (p.1 - 2 * pi, p.2)
  let high := r.map fun p => (p.1 + 2 * pi, p.2)
  (r ++ low ++ high).mergeSort fun a b => decide (a.1 ≤ b.1)

end Neorl.Reactivity

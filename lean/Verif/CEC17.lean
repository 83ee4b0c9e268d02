import Verif.Classic
import Mathlib.Algebra.Order.Round

/-!
# The CEC 2017 benchmark suite

`neorl/benchmarks/tools/basic.py` (the twenty basic functions), `neorl/benchmarks/cec17.py` (the
thirty shifted, rotated, hybrid and composed functions) and the key sets of the data tables in
`neorl/benchmarks/tools/transforms.py`.

Over the real numbers, so rounding is not modelled; `float('inf')` and `nan`, which the composition
functions produce, are (`Fl`).  A vector is a list of reals, a matrix the list of its rows.
`x - shift` and `np.matmul` fail with a `valueError` on operands that do not fit; numpy's stretching
of a one-element operand in `x - shift` is not modelled.  The contents of the data file
(`tools/data.pkl`) are arbitrary.
-/

set_option linter.unusedSectionVars false
set_option linter.unusedVariables false

namespace Neorl.CEC17

open Real Neorl.Classic

/-! ## Basic functions -/

/-- numpy `c * x` on a vector. -/
def scale (c : ℝ) (x : List ℝ) : List ℝ := x.map fun a => c * a

/-- numpy `c * x + d` on a vector. -/
def affine (c d : ℝ) (x : List ℝ) : List ℝ := x.map fun a => c * a + d

/-- `basic.py` 19-24: the weight is written `10e6`, ten million. -/
def bentCigar : List ℝ → Py ℝ
  | [] => .error .indexError
  | a :: t => .ok (a * a + sumOf (fun b => b * b) t * 10000000)

/-- `basic.py` 26-30. -/
def sumDiffPow (x : List ℝ) : Py ℝ := .ok (sumOf (fun p : ℝ × ℕ => |p.1| ^ (p.2 + 1)) x.zipIdx)

/-- `basic.py` 32-42. -/
noncomputable def zakharov (x : List ℝ) : Py ℝ :=
  let sms := sumOf (fun a => a * a) x
  let sm := 0.5 * sumOf (fun p : ℝ × ℕ => ((p.2 : ℝ) + 1) * p.1) x.zipIdx
  let sm := sm * sm
  .ok (sms + sm + sm * sm)

/-- `basic.py` 44-53. -/
noncomputable def rosenbrock (x : List ℝ) : Py ℝ :=
  .ok (sumOf (fun p : ℝ × ℝ => 100 * (p.1 * p.1 - p.2) * (p.1 * p.1 - p.2) + (p.1 - 1) * (p.1 - 1))
    (pairs (affine 0.02048 1 x)))

/-- `basic.py` 55-64. -/
noncomputable def rastrigin (x : List ℝ) : Py ℝ :=
  .ok (sumOf (fun a => a * a - 10 * cos (2 * π * a)) (scale 0.0512 x) + 10 * x.length)

/-- `basic.py` 66-75. -/
noncomputable def expandedSchaffersF6 (x : List ℝ) : Py ℝ :=
  .ok (sumOf (fun p : ℝ × ℝ =>
    let t := p.1 * p.1 + p.2 * p.2
    let t1 := sin √t * sin √t - 0.5
    let t2 := (1 + 0.001 * t) * (1 + 0.001 * t)
    0.5 + t1 / t2) (pairs x))

/-- numpy `x - shift` on two vectors of equal length. -/
def sub (x shift : List ℝ) : Py (List ℝ) :=
  if x.length = shift.length then .ok (List.zipWith (fun a b => a - b) x shift) else .error .valueError

/-- `np.matmul(rotation, v)`. -/
def matmul (R : List (List ℝ)) (v : List ℝ) : Py (List ℝ) :=
  if R.all (fun row => row.length == v.length) then
    .ok (R.map fun row => (List.zipWith (fun a b => a * b) row v).sum)
  else .error .valueError

/-- The default arguments of `basic.py` 77 and 120: no rotation means the identity. -/
def rotate : Option (List (List ℝ)) → List ℝ → Py (List ℝ)
  | none, z => .ok z
  | some R, z => matmul R z

/-- `s` in `basic.py` 86. -/
noncomputable def lunS (n : ℕ) : ℝ := 1 - 1 / (2 * √((n : ℝ) + 20) - 8.2)

/-- `mu1` in `basic.py` 87, with `mu0 = 2.5`. -/
noncomputable def lunMu1 (n : ℕ) : ℝ := -√((2.5 * 2.5 - 1) / lunS n)

/-- `basic.py` 77-118. With one coordinate `s` is negative and `mu1` becomes a complex number; that
case is not modelled (the `typeError` is a placeholder no theorem relies on). `shift` has as many
coordinates as `x`. -/
noncomputable def lunacek (x shift : List ℝ) (rotation : Option (List (List ℝ))) : Py ℝ :=
  if x.length = 1 then .error .typeError
  else do
    let y ← sub x shift
    let z := (scale 0.1 y).zipWith (fun b s => if s < 0 then 2 * b * (-1) else 2 * b) shift
    let tmpx := z.map fun a => a + 2.5
    let t1 := sumOf (fun a => (a - 2.5) * (a - 2.5)) tmpx
    let t2 := sumOf (fun a => (a - lunMu1 x.length) * (a - lunMu1 x.length)) tmpx * lunS x.length
      + x.length
    let y ← rotate rotation z
    let t := sumOf (fun a => cos (2 * π * a)) y
    let r := if t1 < t2 then t1 else t2
    .ok (r + 10 * (x.length - t))

/-- The rounding in `basic.py` 128-129. -/
noncomputable def snap (a s : ℝ) : ℝ := if 0.5 < |a - s| then s + ⌊2 * (a - s) + 0.5⌋ / 2 else a

/-- `basic.py` 120-136: the value, and the array `x` as the call leaves it, since the rounding is
written back into the argument. -/
noncomputable def nonContRastrigin (x shift : List ℝ) (rotation : Option (List (List ℝ))) :
    Py (ℝ × List ℝ) := do
  let x' := x.zipWith snap shift
  let d ← sub x' shift
  let z ← rotate rotation (scale 0.0512 d)
  .ok (sumOf (fun a => a * a - 10 * cos (2 * π * a) + 10) z, x')

/-- `basic.py` 138-156. -/
noncomputable def levy (x : List ℝ) : Py ℝ :=
  match (x.map fun a => 1 + 0.25 * (a - 1)) with
  | [] => .error .indexError
  | a :: t =>
    let l := (a :: t).getLast (by simp)
    .ok (sin (π * a) ^ 2
      + sumOf (fun w => (w - 1) ^ 2 * (1 + 10 * sin (π * w + 1) ^ 2)) (a :: t).dropLast
      + (l - 1) ^ 2 * (1 + sin (2 * π * l) ^ 2))

/-- Python `a % 500` on floats. -/
noncomputable def mod500 (a : ℝ) : ℝ := a - 500 * ⌊a / 500⌋

/-- One term of `basic.py` 158-177. -/
noncomputable def schwefelTerm (n : ℕ) (a : ℝ) : ℝ :=
  let z := a + 420.9687462275036
  if z < -500 then
    let zm := mod500 |z| - 500
    zm * sin √|zm| - (z + 500) * (z + 500) / (10000 * n)
  else if 500 < z then
    let zm := 500 - mod500 z
    zm * sin √|zm| - (z - 500) * (z - 500) / (10000 * n)
  else z * sin √|z|

/-- `basic.py` 158-177. -/
noncomputable def modifiedSchwefel (x : List ℝ) : Py ℝ :=
  .ok (418.9829 * x.length - sumOf (schwefelTerm x.length) (scale 10 x))

/-- `basic.py` 179-184: `6 / (len(x) - 1)` fails on one coordinate. -/
noncomputable def highConditionedElliptic (x : List ℝ) : Py ℝ :=
  if x.length = 1 then .error .zeroDivision
  else .ok (sumOf (fun p : ℝ × ℕ =>
    p.1 * p.1 * (10 : ℝ) ^ ((p.2 : ℝ) * (6 / ((x.length : ℝ) - 1)))) x.zipIdx)

/-- `basic.py` 186-190. -/
def discus : List ℝ → Py ℝ
  | [] => .error .indexError
  | a :: t => .ok (1000000 * a * a + sumOf (fun b => b * b) t)

/-- `basic.py` 192-200. -/
noncomputable def ackley (x : List ℝ) : Py ℝ :=
  if x.length = 0 then .error .zeroDivision
  else .ok (-20 * exp (-0.2 * √(1 / x.length * sumOf (fun a => a * a) x))
    - exp (1 / x.length * sumOf (fun a => cos (2 * π * a)) x) + 20 + exp 1)

/-- The inner sum of `basic.py` 209-212 for the factor `b k` of `bk`. -/
noncomputable def weierSum (b : ℝ) : ℝ :=
  sumOf (fun k : ℕ => (0.5 : ℝ) ^ k * cos (b * (π * 3 ^ k))) (List.range 21)

/-- `basic.py` 202-218. -/
noncomputable def weierstrass (x : List ℝ) : Py ℝ :=
  .ok (sumOf (fun a => weierSum (2 * (a + 0.5))) (scale 0.005 x) - x.length * weierSum 1)

/-- `basic.py` 220-229: the divisor is `i`, not its square root. -/
noncomputable def griewank (x : List ℝ) : Py ℝ :=
  .ok (sumOf (fun a => 1 / 4000 * a * a) (scale 6 x)
    - prodOf (fun p : ℝ × ℕ => cos (p.1 / p.2)) ((scale 6 x).zipIdx 1) + 1)

/-- The inner sum of `basic.py` 238-242.  `np.round` is rounding to a nearest integer; which one it
takes at a tie does not change the distance. -/
noncomputable def katsSum (a : ℝ) : ℝ :=
  sumOf (fun j : ℕ => |2 ^ j * a - (round ((2 : ℝ) ^ j * a) : ℤ)| / 2 ^ j) (List.range' 1 32)

/-- `basic.py` 231-245: `10/(nx**1.2)` fails on no coordinates. -/
noncomputable def katsuura (x : List ℝ) : Py ℝ :=
  if x.length = 0 then .error .zeroDivision
  else
    let pw : ℝ := 10 / (x.length : ℝ) ^ (1.2 : ℝ)
    let prd := prodOf (fun p : ℝ × ℕ => (1 + ((p.2 : ℝ) + 1) * katsSum p.1) ^ pw) (scale 0.05 x).zipIdx
    let df : ℝ := 10 / (x.length * x.length)
    .ok (df * prd - df)

/-- `basic.py` 247-255. -/
noncomputable def happyCat (x : List ℝ) : Py ℝ :=
  if x.length = 0 then .error .zeroDivision
  else
    let y := affine 0.05 (-1) x
    let sm := y.sum
    let smsq := sumOf (fun a => a * a) y
    .ok (|smsq - x.length| ^ (0.25 : ℝ) + (0.5 * smsq + sm) / x.length + 0.5)

/-- `basic.py` 257-265. -/
noncomputable def hgBat (x : List ℝ) : Py ℝ :=
  if x.length = 0 then .error .zeroDivision
  else
    let y := affine 0.05 (-1) x
    let sm := y.sum
    let smsq := sumOf (fun a => a * a) y
    .ok (|smsq * smsq - sm * sm| ^ (0.5 : ℝ) + (0.5 * smsq + sm) / x.length + 0.5)

/-- The Rosenbrock term of `basic.py` 272-274 and 276-278. -/
def rosTerm (a b : ℝ) : ℝ := 100 * (a * a - b) * (a * a - b) + (a - 1) * (a - 1)

/-- The Griewank term of `basic.py` 275 and 279. -/
noncomputable def griTerm (t : ℝ) : ℝ := t * t / 4000 - cos t + 1

/-- `basic.py` 267-280: the wrap-around term stands inside the loop, so it is added once for every
pair. -/
noncomputable def griewanksPlusRosenbrock (x : List ℝ) : Py ℝ :=
  let y := affine 0.05 1 x
  .ok (sumOf (fun p : ℝ × ℝ => griTerm (rosTerm p.1 p.2)
    + griTerm (rosTerm (y.getLastD 0) (y.headD 0))) (pairs y))

/-- `basic.py` 282-296: the divisor is zero on one coordinate. -/
noncomputable def schaffersF7 (x : List ℝ) : Py ℝ :=
  if x.length = 1 then .error .zeroDivision
  else
    let sm := sumOf (fun p : ℝ × ℝ =>
      let si := (p.1 * p.1 + p.2 * p.2) ^ (0.5 : ℝ)
      let tmp := sin (50 * si ^ (0.2 : ℝ))
      si ^ (0.5 : ℝ) * (tmp * tmp + 1)) (pairs x)
    .ok (sm * sm / ((x.length : ℝ) * x.length - 2 * x.length + 1))

/-! ## Simple functions -/

/-- The official data (`transforms.py` 26-72): arbitrary contents. -/
structure Tables where
  /-- `rotations[nx][k]`. -/
  rot : ℕ → ℕ → List (List ℝ)
  /-- `shifts[k]`. -/
  shift : ℕ → List ℝ
  /-- `shuffles[nx][k]`. -/
  shuf : ℕ → ℕ → List ℕ
  /-- `rotations_cf[nx][k]`. -/
  rotCf : ℕ → ℕ → List (List (List ℝ))
  /-- `shifts_cf[k]`. -/
  shiftCf : ℕ → List (List ℝ)
  /-- `shuffles_cf[nx][k]`. -/
  shufCf : ℕ → ℕ → List (List ℕ)

/-- The keys of `rotations` and `rotations_cf` (`transforms.py` 28-46). -/
def rotKeys : List ℕ := [2, 10, 20, 30, 50, 100]

/-- The keys of `shuffles` and `shuffles_cf` (`transforms.py` 58-72). -/
def shufKeys : List ℕ := [10, 30, 50, 100]

/-- A Python dictionary look-up. -/
def look {α : Type} (keys : List ℕ) (f : ℕ → α) (nx : ℕ) : Py α :=
  if nx ∈ keys then .ok (f nx) else .error .keyError

/-- `if arg is None: arg = default`. -/
def orDefault {α : Type} (arg : Option α) (default : Py α) : Py α :=
  match arg with
  | some a => .ok a
  | none => default

/-- The common body of `f1`-`f6`, `f9`, `f10` (`cec17.py` 22-214): look up what was not given, shift,
rotate, evaluate the basic function, add the bias. -/
def simple (T : Tables) (k : ℕ) (g : List ℝ → Py ℝ) (bias : ℝ) (x : List ℝ)
    (rotation : Option (List (List ℝ))) (shift : Option (List ℝ)) : Py ℝ := do
  let R ← orDefault rotation (look rotKeys (fun nx => T.rot nx k) x.length)
  let s ← orDefault shift (.ok ((T.shift k).take x.length))
  let d ← sub x s
  let z ← matmul R d
  let y ← g z
  .ok (y + bias)

/-- `cec17.py` 22-39. -/
def f1 (T : Tables) := simple T 0 bentCigar 100
/-- `cec17.py` 41-62. -/
def f2 (T : Tables) := simple T 1 sumDiffPow 200
/-- `cec17.py` 64-81. -/
noncomputable def f3 (T : Tables) := simple T 2 zakharov 300
/-- `cec17.py` 83-100. -/
noncomputable def f4 (T : Tables) := simple T 3 rosenbrock 400
/-- `cec17.py` 102-119. -/
noncomputable def f5 (T : Tables) := simple T 4 rastrigin 500
/-- `cec17.py` 121-138. -/
noncomputable def f6 (T : Tables) := simple T 5 schaffersF7 600

/-- `cec17.py` 140-157. -/
noncomputable def f7 (T : Tables) (x : List ℝ) (rotation : Option (List (List ℝ)))
    (shift : Option (List ℝ)) : Py ℝ := do
  let R ← orDefault rotation (look rotKeys (fun nx => T.rot nx 6) x.length)
  let s ← orDefault shift (.ok ((T.shift 6).take x.length))
  let y ← lunacek x s (some R)
  .ok (y + 700)

/-- `cec17.py` 159-176: the value, and what the caller's array has become. -/
noncomputable def f8 (T : Tables) (x : List ℝ) (rotation : Option (List (List ℝ)))
    (shift : Option (List ℝ)) : Py (ℝ × List ℝ) := do
  let R ← orDefault rotation (look rotKeys (fun nx => T.rot nx 7) x.length)
  let s ← orDefault shift (.ok ((T.shift 7).take x.length))
  let y ← nonContRastrigin x s (some R)
  .ok (y.1 + 800, y.2)

/-- `cec17.py` 178-195. -/
noncomputable def f9 (T : Tables) := simple T 8 levy 900
/-- `cec17.py` 197-214. -/
noncomputable def f10 (T : Tables) := simple T 9 modifiedSchwefel 1000

/-! ## Hybrid functions -/

/-- `xs[i] = x[shuffle[i]]` for `i < nx` (`cec17.py` 231-232). -/
def shuffled (x : List ℝ) (shuffle : List ℕ) : ℕ → Py (List ℝ)
  | 0 => .ok []
  | i + 1 => do
    let l ← shuffled x shuffle i
    match shuffle[i]? with
    | none => .error .indexError
    | some j => match x[j]? with
      | none => .error .indexError
      | some a => .ok (l ++ [a])

/-- The slices of `cec17.py` 234-241: `xs[start:end]` for all but the last percentage, then the rest. -/
def cuts (nx : ℕ) : List ℚ → List ℝ → List (List ℝ)
  | [], rest => [rest]
  | p :: ps, rest =>
    let m := ⌈p * nx⌉₊
    rest.take m :: cuts nx ps (rest.drop m)

/-- `cec17.py` 216-242.  The percentages are taken as exact fractions: in floating point
`int(np.ceil(p * nx))` gives the same sizes for `nx` 10, 30, 50 and 100. -/
def shuffleAndPartition (x : List ℝ) (shuffle : List ℕ) (ps : List ℚ) : Py (List (List ℝ)) := do
  let xs ← shuffled x shuffle x.length
  .ok (cuts x.length ps.dropLast xs)

/-- `y = g0(parts[0]); y += g1(parts[1]); …`. -/
def sumParts : List (List ℝ → Py ℝ) → List (List ℝ) → Py ℝ
  | [], _ => .ok 0
  | _ :: _, [] => .error .indexError
  | g :: gs, p :: ps => do
    let a ← g p
    let b ← sumParts gs ps
    .ok (a + b)

/-- The common body of `f11`-`f20` (`cec17.py` 244-544). -/
def hybrid (T : Tables) (k kf : ℕ) (ps : List ℚ) (gs : List (List ℝ → Py ℝ)) (bias : ℝ) (x : List ℝ)
    (rotation : Option (List (List ℝ))) (shift : Option (List ℝ)) (shuffle : Option (List ℕ)) :
    Py ℝ := do
  let R ← orDefault rotation (look rotKeys (fun nx => T.rot nx k) x.length)
  let s ← orDefault shift (.ok ((T.shift k).take x.length))
  let sh ← orDefault shuffle (look shufKeys (fun nx => T.shuf nx kf) x.length)
  let d ← sub x s
  let z ← matmul R d
  let parts ← shuffleAndPartition z sh ps
  let y ← sumParts gs parts
  .ok (y + bias)

/-- `lunacek_bi_rastrigin(x)` with its default arguments, as `f13` calls it. -/
noncomputable def lunacek0 (x : List ℝ) : Py ℝ := lunacek x (List.replicate x.length 0) none

/-- `cec17.py` 244-271. -/
noncomputable def f11 (T : Tables) := hybrid T 10 0 [2/10, 4/10, 4/10]
  [zakharov, rosenbrock, rastrigin] 1100
/-- `cec17.py` 273-300. -/
noncomputable def f12 (T : Tables) := hybrid T 11 1 [3/10, 3/10, 4/10]
  [highConditionedElliptic, modifiedSchwefel, bentCigar] 1200
/-- `cec17.py` 302-329. -/
noncomputable def f13 (T : Tables) := hybrid T 12 2 [3/10, 3/10, 4/10]
  [bentCigar, rosenbrock, lunacek0] 1300
/-- `cec17.py` 331-359. -/
noncomputable def f14 (T : Tables) := hybrid T 13 3 [2/10, 2/10, 2/10, 4/10]
  [highConditionedElliptic, ackley, schaffersF7, rastrigin] 1400
/-- `cec17.py` 361-389. -/
noncomputable def f15 (T : Tables) := hybrid T 14 4 [2/10, 2/10, 3/10, 3/10]
  [bentCigar, hgBat, rastrigin, rosenbrock] 1500
/-- `cec17.py` 391-419. -/
noncomputable def f16 (T : Tables) := hybrid T 15 5 [2/10, 2/10, 3/10, 3/10]
  [expandedSchaffersF6, hgBat, rosenbrock, modifiedSchwefel] 1600
/-- `cec17.py` 421-450. -/
noncomputable def f17 (T : Tables) := hybrid T 16 6 [1/10, 2/10, 2/10, 2/10, 3/10]
  [katsuura, ackley, griewanksPlusRosenbrock, modifiedSchwefel, rastrigin] 1700
/-- `cec17.py` 452-481. -/
noncomputable def f18 (T : Tables) := hybrid T 17 7 [2/10, 2/10, 2/10, 2/10, 2/10]
  [highConditionedElliptic, ackley, rastrigin, hgBat, discus] 1800
/-- `cec17.py` 483-512. -/
noncomputable def f19 (T : Tables) := hybrid T 18 8 [2/10, 2/10, 2/10, 2/10, 2/10]
  [bentCigar, rastrigin, griewanksPlusRosenbrock, weierstrass, expandedSchaffersF6] 1900
/-- `cec17.py` 514-544. -/
noncomputable def f20 (T : Tables) := hybrid T 19 9 [1/10, 1/10, 2/10, 2/10, 2/10, 2/10]
  [happyCat, katsuura, ackley, rastrigin, modifiedSchwefel, schaffersF7] 2000

/-! ## Composition functions -/

/-- A float as far as the composition functions distinguish them. -/
inductive Fl where
  | fin (a : ℝ)
  | inf
  | nan

/-- `w_sm += w[i]` on non-negative weights. -/
noncomputable def Fl.add : Fl → Fl → Fl
  | .fin a, .fin b => .fin (a + b)
  | .nan, _ => .nan
  | _, .nan => .nan
  | _, _ => .inf

/-- `w[i] / w_sm` on non-negative floats, the divisor not zero: `inf / inf` is `nan`. -/
noncomputable def Fl.div : Fl → Fl → Fl
  | .fin a, .fin b => .fin (a / b)
  | .fin _, .inf => .fin 0
  | .inf, .fin _ => .inf
  | _, _ => .nan

/-- `w[i] * v` for a finite `v`. -/
noncomputable def Fl.mul : Fl → ℝ → Fl
  | .fin a, v => .fin (a * v)
  | .inf, v => if v = 0 then .nan else .inf
  | .nan, _ => .nan

/-- `_calc_w` (`cec17.py` 546-555). -/
noncomputable def calcW (x : List ℝ) (sigma : ℝ) : Fl :=
  let w := sumOf (fun a => a * a) x
  if w ≠ 0 then .fin ((1 / w) ^ (0.5 : ℝ) * exp (-w / (2 * x.length * sigma * sigma)))
  else .inf

/-- One component of a composition function: what is evaluated on `(x, rotation, shift, shuffle)`, and
its `sigmas`, `lambdas` and `biases` entries. -/
structure Comp where
  f : List ℝ → List (List ℝ) → List ℝ → List ℕ → Py ℝ
  sigma : ℝ
  lam : ℝ
  bias : ℝ

/-- The loop `for i in range(0, N)` (`cec17.py` 583-587): each component's weight, and
`lambdas[i]*vals[i] + biases[i]`. -/
noncomputable def loop (x : List ℝ) : List Comp → List (List (List ℝ)) → List (List ℝ) →
    List (List ℕ) → Py (List (Fl × ℝ))
  | [], _, _, _ => .ok []
  | c :: cs, R :: Rs, s :: ss, p :: ps => do
    let d ← sub x (s.take x.length)
    let v ← c.f x R (s.take x.length) p
    let rest ← loop x cs Rs ss ps
    .ok ((calcW d c.sigma, c.lam * v + c.bias) :: rest)
  | _ :: _, _, _, _ => .error .indexError

/-- `w_sm` (`cec17.py` 587). -/
noncomputable def total (l : List (Fl × ℝ)) : Fl := (l.map Prod.fst).foldl Fl.add (.fin 0)

/-- `cec17.py` 589-594. -/
noncomputable def combine (l : List (Fl × ℝ)) (bias : ℝ) : Fl :=
  let W := total l
  let ws : List Fl := match W with
    | .fin a => if a = 0 then l.map fun p => (Fl.fin (1 / l.length)).mul p.2
      else l.map fun p => (p.1.div W).mul p.2
    | _ => l.map fun p => (p.1.div W).mul p.2
  (ws.foldl Fl.add (.fin 0)).add (.fin bias)

/-- The common body of `f21`-`f28` (`cec17.py` 557-881) and, with shuffles, of `f29` and `f30`
(883-970). -/
noncomputable def composition (T : Tables) (k : ℕ) (kf : Option ℕ) (cs : List Comp) (bias : ℝ)
    (x : List ℝ) (rotations : Option (List (List (List ℝ)))) (shifts : Option (List (List ℝ)))
    (shuffles : Option (List (List ℕ))) : Py Fl := do
  let Rs ← orDefault rotations (look rotKeys (fun nx => T.rotCf nx k) x.length)
  let ss ← orDefault shifts (.ok (T.shiftCf k))
  let ps ← match kf with
    | none => .ok (List.replicate cs.length [])
    | some q => orDefault shuffles (look shufKeys (fun nx => T.shufCf nx q) x.length)
  let l ← loop x cs Rs ss ps
  .ok (combine l bias)

/-- `vals[i] = funcs[i](np.matmul(rotations[i], x_shifted))` (`cec17.py` 585). -/
def plain (g : List ℝ → Py ℝ) (x : List ℝ) (R : List (List ℝ)) (s : List ℝ) (_ : List ℕ) : Py ℝ := do
  let d ← sub x s
  let z ← matmul R d
  g z

/-- `vals[i] = funcs[i](x, rotation=…, shift=…, shuffle=…); vals[i] -= offsets[i]`
(`cec17.py` 915-916). -/
def lessOffset (f : List ℝ → Option (List (List ℝ)) → Option (List ℝ) → Option (List ℕ) → Py ℝ)
    (off : ℝ) (x : List ℝ) (R : List (List ℝ)) (s : List ℝ) (p : List ℕ) : Py ℝ := do
  let v ← f x (some R) (some s) (some p)
  .ok (v - off)

/-- `cec17.py` 557-594. -/
noncomputable def f21 (T : Tables) := composition T 0 none
  [⟨plain rosenbrock, 10, 1, 0⟩, ⟨plain highConditionedElliptic, 20, 0.000001, 100⟩,
   ⟨plain rastrigin, 30, 1, 200⟩] 2100
/-- `cec17.py` 596-633. -/
noncomputable def f22 (T : Tables) := composition T 1 none
  [⟨plain rastrigin, 10, 1, 0⟩, ⟨plain griewank, 20, 10, 100⟩,
   ⟨plain modifiedSchwefel, 30, 1, 200⟩] 2200
/-- `cec17.py` 635-672. -/
noncomputable def f23 (T : Tables) := composition T 2 none
  [⟨plain rosenbrock, 10, 1, 0⟩, ⟨plain ackley, 20, 10, 100⟩, ⟨plain modifiedSchwefel, 30, 1, 200⟩,
   ⟨plain rastrigin, 40, 1, 300⟩] 2300
/-- `cec17.py` 674-711. -/
noncomputable def f24 (T : Tables) := composition T 3 none
  [⟨plain ackley, 10, 1, 0⟩, ⟨plain highConditionedElliptic, 20, 0.000001, 100⟩,
   ⟨plain griewank, 30, 10, 200⟩, ⟨plain rastrigin, 40, 1, 300⟩] 2400
/-- `cec17.py` 713-750. -/
noncomputable def f25 (T : Tables) := composition T 4 none
  [⟨plain rastrigin, 10, 10, 0⟩, ⟨plain happyCat, 20, 1, 100⟩, ⟨plain ackley, 30, 10, 200⟩,
   ⟨plain discus, 40, 0.000001, 300⟩, ⟨plain rosenbrock, 50, 1, 400⟩] 2500
/-- `cec17.py` 752-791. -/
noncomputable def f26 (T : Tables) := composition T 5 none
  [⟨plain expandedSchaffersF6, 10, 0.0005, 0⟩, ⟨plain modifiedSchwefel, 20, 1, 100⟩,
   ⟨plain griewank, 20, 10, 200⟩, ⟨plain rosenbrock, 30, 1, 300⟩, ⟨plain rastrigin, 40, 10, 400⟩] 2600
/-- `cec17.py` 793-836. -/
noncomputable def f27 (T : Tables) := composition T 6 none
  [⟨plain hgBat, 10, 10, 0⟩, ⟨plain rastrigin, 20, 10, 100⟩, ⟨plain modifiedSchwefel, 30, 2.5, 200⟩,
   ⟨plain bentCigar, 40, 1 / 10 ^ 26, 300⟩, ⟨plain highConditionedElliptic, 50, 0.000001, 400⟩,
   ⟨plain expandedSchaffersF6, 60, 0.0005, 500⟩] 2700
/-- `cec17.py` 838-881. -/
noncomputable def f28 (T : Tables) := composition T 7 none
  [⟨plain ackley, 10, 10, 0⟩, ⟨plain griewank, 20, 10, 100⟩, ⟨plain discus, 30, 0.000001, 200⟩,
   ⟨plain rosenbrock, 40, 1, 300⟩, ⟨plain happyCat, 50, 1, 400⟩,
   ⟨plain expandedSchaffersF6, 60, 0.0005, 500⟩] 2800
/-- `cec17.py` 883-925. -/
noncomputable def f29 (T : Tables) := composition T 8 (some 0)
  [⟨lessOffset (f15 T) 1500, 10, 1, 0⟩, ⟨lessOffset (f16 T) 1600, 30, 1, 100⟩,
   ⟨lessOffset (f17 T) 1700, 50, 1, 200⟩] 2900
/-- `cec17.py` 927-969. -/
noncomputable def f30 (T : Tables) := composition T 9 (some 1)
  [⟨lessOffset (f15 T) 1500, 10, 1, 0⟩, ⟨lessOffset (f18 T) 1800, 30, 1, 100⟩,
   ⟨lessOffset (f19 T) 1900, 50, 1, 200⟩] 3000

end Neorl.CEC17

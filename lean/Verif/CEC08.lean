import Verif.CEC17

/-!
# The CEC 2008 benchmark functions

`neorl/benchmarks/cec08.py`: the classes `F1`-`F7`, their `fit` and `return_global`.

Functions are over the real numbers.  The column of `tools/data08.csv` a class loads is a parameter
`data`; the file has a thousand rows.  `F7` draws from numpy's global generator, which is modelled as a
state machine with an arbitrary state type.
-/

set_option linter.unusedSectionVars false
set_option linter.unusedVariables false

namespace Neorl.CEC08

open Real Neorl.Classic

/-- `solution - shift_data` (`cec08.py` 54-55, 76-78, 97-98, 120-121, 140-141, 164-165), of as many coordinates each. -/
def diff (x data : List ℝ) : Py (List ℝ) := CEC17.sub x (data.take x.length)

/-- The common frame of `fit`: more than a thousand coordinates return `1` after a message
(`cec08.py` 51-53 and the like); otherwise shift, evaluate, add `f_bias`. -/
def frame (g : List ℝ → Py ℝ) (bias : ℝ) (data x : List ℝ) : Py ℝ :=
  if 1000 < x.length then .ok 1
  else do
    let z ← diff x data
    let y ← g z
    .ok (y + bias)

/-- `sum(z**2)` (`cec08.py` 55). -/
def f1 (z : List ℝ) : Py ℝ := .ok (sumOf (fun a => a ^ 2) z)

/-- `max(abs(z))` (`cec08.py` 78): numpy's `max` of an empty array raises. -/
noncomputable def f2 : List ℝ → Py ℝ
  | [] => .error .valueError
  | a :: t => .ok (t.foldl (fun m b => max m |b|) |a|)

/-- `cec08.py` 98-102, `z` shifted by one. -/
def f3 (d : List ℝ) : Py ℝ :=
  .ok (sumOf (fun p => 100 * (p.1 ^ 2 - p.2) ^ 2 + (p.1 - 1) ^ 2) (pairs (d.map fun a => a + 1)))

/-- `cec08.py` 122. -/
noncomputable def f4 (z : List ℝ) : Py ℝ := .ok (sumOf (fun a => a ^ 2 - 10 * cos (2 * π * a) + 10) z)

/-- `cec08.py` 142-146. -/
noncomputable def f5 (z : List ℝ) : Py ℝ :=
  .ok (sumOf (fun a => a ^ 2 / 4000) z
    - prodOf (fun p : ℝ × ℕ => cos (p.1 / √((p.2 : ℝ) + 1))) z.zipIdx + 1)

/-- `cec08.py` 166.  The mean of no coordinates is `nan` in numpy; the model raises. -/
noncomputable def f6 (z : List ℝ) : Py ℝ :=
  if z.length = 0 then .error .zeroDivision
  else .ok (-20 * exp (-0.2 * √(sumOf (fun a => a ^ 2) z / z.length))
    - exp (sumOf (fun a => cos (2 * π * a)) z / z.length) + 20 + exp 1)

/-- `F1.fit` (`cec08.py` 49-55). -/
def F1 := frame f1 (-450)
/-- `F2.fit` (`cec08.py` 71-78). -/
noncomputable def F2 := frame f2 (-450)
/-- `F3.fit` (`cec08.py` 92-102). -/
def F3 := frame f3 390
/-- `F4.fit` (`cec08.py` 115-122). -/
noncomputable def F4 := frame f4 (-330)
/-- `F5.fit` (`cec08.py` 135-146). -/
noncomputable def F5 := frame f5 (-180)
/-- `F6.fit` (`cec08.py` 159-166). -/
noncomputable def F6 := frame f6 (-140)

/-- `return_global` (`cec08.py` 57-62 and the like). -/
def returnGlobal (fit : List ℝ → List ℝ → Py ℝ) (data : List ℝ) (nx : ℕ) : Py (List ℝ × ℝ) := do
  let y ← fit data (data.take nx)
  .ok (data.take nx, y)

/-! ## `F7` -/

/-- numpy's global generator: its state after `seed(0)`, `choice([0, 1, 2])` and `uniform()`. -/
structure Rng (S : Type) where
  seeded : S
  choice : S → Fin 3 × S
  uniform : S → ℝ × S

/-- `__doubledip__` (`cec08.py` 187-191). -/
noncomputable def doubledip (x c s : ℝ) : ℝ :=
  if -0.5 < x ∧ x < 0.5 then (-6144 * (x - c) ^ 6 + 3088 * (x - c) ^ 4 - 392 * (x - c) ^ 2 + 1) * s
  else 0

variable {S : Type}

/-- `sum([__doubledip__(x, uniform(), 1.0/(2**(k-1)*(2-uniform()))) for _ in range(0, selected)])`
(`cec08.py` 200), `w` being `2**(k-1)`. -/
noncomputable def dips (G : Rng S) (x w : ℝ) : ℕ → S → ℝ × S
  | 0, s => (0, s)
  | c + 1, s =>
    let (u, s) := G.uniform s
    let (v, s) := G.uniform s
    let (r, s) := dips G x w c s
    (doubledip x u (1 / (w * (2 - v))) + r, s)

/-- The loop over `t` (`cec08.py` 198-200). -/
noncomputable def groups (G : Rng S) (x w : ℝ) : ℕ → S → ℝ × S
  | 0, s => (0, s)
  | t + 1, s =>
    let (k, s) := G.choice s
    let (a, s) := dips G x w k s
    let (b, s) := groups G x w t s
    (a + b, s)

/-- `__fractal1d__` (`cec08.py` 193-202): `range(1, 2**(k-1))` has `2**(k-1) - 1` elements. -/
noncomputable def fractal (G : Rng S) (x : ℝ) (s : S) : ℝ × S :=
  let (a, s) := groups G x 1 (1 - 1) s
  let (b, s) := groups G x 2 (2 - 1) s
  let (c, s) := groups G x 4 (4 - 1) s
  (a + b + c, s)

/-- `__twist__` (`cec08.py` 204-205). -/
def twist (y : ℝ) : ℝ := 4 * (y ^ 4 - 2 * y ^ 3 + y ^ 2)

/-- The loop over the coordinates (`cec08.py` 208-210): `i % problem_size + 1` is `i + 1`. -/
noncomputable def fractals (G : Rng S) : List (ℝ × ℝ) → S → ℝ × S
  | [], s => (0, s)
  | p :: ps, s =>
    let (a, s) := fractal G (p.1 + twist p.2) s
    let (b, s) := fractals G ps s
    (a + b, s)

/-- `F7.fit` (`cec08.py` 180-211): the value and the state of the global generator afterwards.
`solution[-1]` fails on an empty solution. -/
noncomputable def F7 (G : Rng S) (x : List ℝ) (_ : S) : Py ℝ × S :=
  let s := G.seeded
  if 1000 < x.length then (.ok 1, s)
  else match x with
    | [] => (.error .indexError, s)
    | a :: t =>
      let (r, s) := fractals G (pairs (a :: t)) s
      (.ok ((a :: t).getLast (by simp) + twist a + r), s)

end Neorl.CEC08

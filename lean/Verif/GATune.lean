import Verif.Py
import Mathlib.Algebra.Order.Field.Basic
import Mathlib.Tactic.Linarith
import Mathlib.Tactic.Ring
import Mathlib.Tactic.FieldSimp

/-!
# Mutation of hyperparameters by the genetic tuner

Model of `GATUNE.mutGATUNE` (`neorl/tune/runners/gatune.py` lines 437-496) and of the lists `LOW` and `UP` it is given (lines 204-223).  The two powers
`xy ** (eta + 1)` and `val ** mut_pow` are parameters (`pw`, `rt`).  Python's `float` and `int` values are told apart as `type(...)` does.  Simplified: `low` and
`up` are lists (the code also takes single numbers), the numbers of a stream of draws are functions of the coordinate.  The class is not used by `scripts.py`,
which sends `gatune` to `ESTUNE`.
-/

set_option linter.unusedSectionVars false
set_option linter.unusedVariables false

namespace Neorl.GATune
open Neorl

/-- A value of a hyperparameter. -/
inductive Val (K : Type) where
  | int (z : ℤ)
  | float (x : K)
  | str (s : String)
deriving DecidableEq

/-- A hyperparameter as parsed, lines 111-187. -/
inductive Param (K : Type) where
  | ints (lo hi : ℤ)
  | floats (lo hi : K)
  | grid (vals : List (Val K))

section
variable {K : Type} [Field K] [LinearOrder K] [IsStrictOrderedRing K]

/-- `self.param_dict[k]`, the list with the word for its kind at the end. -/
def raw : Param K → List (Val K)
  | .ints lo hi => [.int lo, .int hi, .str "randint"]
  | .floats lo hi => [.float lo, .float hi, .str "float"]
  | .grid vals => vals ++ [.str "grid"]

/-- `LOW`, line 222. -/
def low (p : Param K) : Py (Val K) := match (raw p)[0]? with | some v => .ok v | none => .error .indexError
/-- `UP`, line 223. -/
def up (p : Param K) : Py (Val K) := match (raw p)[1]? with | some v => .ok v | none => .error .indexError

/-- A number in arithmetic with floats; strings do not add. -/
def num : Val K → Py K
  | .int z => .ok z
  | .float x => .ok x
  | .str _ => .error .typeError

/-- The draws for one coordinate: three tests against `indpb`, the index for `random.sample`, the draw of the polynomial. -/
structure Draw (K : Type) where
  g : K
  pick : ℕ
  i : K
  f : K
  r : K

/-- The polynomial step, lines 477-495; the division fails for an empty range; `min(max(x, xl), xu)`. -/
def poly (pw rt : K → K) (r xl xu x : K) : Py K :=
  if xu - xl = 0 then .error .zeroDivision else
  let d1 := (x - xl) / (xu - xl)
  let d2 := (xu - x) / (xu - xl)
  let dq := if r < 1 / 2 then
      let xy := 1 - d1
      let val := 2 * r + (1 - 2 * r) * pw xy
      rt val - 1
    else
      let xy := 1 - d2
      let val := 2 * (1 - r) + 2 * (r - 1 / 2) * pw xy
      1 - rt val
  .ok (min (max (x + dq * (xu - xl)) xl) xu)

/-- The float branch, lines 475-495. -/
def floatStep (pw rt : K → K) (indpb : K) (d : Draw K) (xl xu : Val K) (v : Val K) : Py (Val K) :=
  match v with
  | .float x =>
    if d.f ≤ indpb then
      match num xl, num xu with
      | .ok l, .ok u => match poly pw rt d.r l u x with | .ok z => .ok (.float z) | .error e => .error e
      | .error e, _ => .error e
      | _, .error e => .error e
    else .ok v
  | _ => .ok v

/-- The integer branch, lines 471-473: `individual[i] == random.randint(xl, xu)` compares and changes nothing; an empty range is an error.
(Ends that are floats are an error here; some versions of Python accept whole ones.) -/
def intStep (indpb : K) (d : Draw K) (xl xu : Val K) (v : Val K) : Py (Val K) :=
  match v with
  | .int z =>
    if d.i ≤ indpb then
      match xl, xu with
      | .int l, .int u => if u < l then .error .valueError else .ok v
      | .str _, _ => .error .typeError
      | _, .str _ => .error .typeError
      | _, _ => .error .valueError
    else .ok v
  | _ => .ok v

/-- The grid branch, lines 466-469; `grid` is `self.paramvals[...]` if the index is in `self.paraminds`. -/
def gridStep (indpb : K) (d : Draw K) (grid : Option (List (Val K))) (v : Val K) : Py (Val K) :=
  match grid with
  | none => .ok v
  | some l =>
    if d.g ≤ indpb then
      match l[d.pick % l.length]? with
      | some w => .ok w
      | none => .error .valueError
    else .ok v

/-- The body of the loop, lines 464-495. -/
def coord (pw rt : K → K) (indpb : K) (d : Draw K) (grid : Option (List (Val K))) (xl xu v : Val K) : Py (Val K) :=
  match gridStep indpb d grid v with
  | .error e => .error e
  | .ok v1 =>
    match intStep indpb d xl xu v1 with
    | .error e => .error e
    | .ok v2 => floatStep pw rt indpb d xl xu v2

/-- The grid of a hyperparameter. -/
def gridOf : Param K → Option (List (Val K))
  | .grid l => some l
  | _ => none

/-- One hyperparameter. -/
def mut1 (pw rt : K → K) (indpb : K) (d : Draw K) (p : Param K) (v : Val K) : Py (Val K) :=
  match low p, up p with
  | .ok l, .ok u => coord pw rt indpb d (gridOf p) l u v
  | .error e, _ => .error e
  | _, .error e => .error e

/-- The loop, lines 464-495, from coordinate `i` on. -/
def mutate (pw rt : K → K) (indpb : K) (d : ℕ → Draw K) : ℕ → List (Param K) → List (Val K) → Py (List (Val K))
  | _, _, [] => .ok []
  | _, [], _ :: _ => .ok []
  | i, p :: ps, v :: vs =>
    match mut1 pw rt indpb (d i) p v with
    | .error e => .error e
    | .ok w => match mutate pw rt indpb d (i + 1) ps vs with | .ok ws => .ok (w :: ws) | .error e => .error e

/-- `mutGATUNE`, lines 437-496; `low` and `up` shorter than the individual are an error, longer ones are cut. -/
def mutGATUNE (pw rt : K → K) (indpb : K) (d : ℕ → Draw K) (ps : List (Param K)) (vs : List (Val K)) : Py (List (Val K)) :=
  if ps.length < vs.length then .error .indexError else mutate pw rt indpb d 0 ps vs

end
end Neorl.GATune

import Verif.Informed
import Verif.Best

/-!
# Initial populations

Model of how the optimisers of `neorl/evolu` (and NSGA-II) obtain their first population: the random generators of individuals, the treatment of the
initial guesses `x0`, and the exceptions to the rule in ACO, XNES, SA and TS.  Draws are arbitrary: `u` is what `random.random()` returns,
`z` picks one of the values of an integer range or of a list (every integer and every value of a list is the result for some `z`).
A bare `Exception` is reported as `valueError`.  `x0=None` and `x0=[]` take the same branch (`if x0:`) and are both `[]` here.
-/

set_option linter.unusedSectionVars false
set_option linter.unusedVariables false

namespace Neorl.InitPop
open Neorl Neorl.Informed

section
variable {K : Type} [Field K] [LinearOrder K] [IsStrictOrderedRing K] [FloorRing K]

/-- A variable of the `bounds` dictionary whose type may be none of `'int'`, `'float'`, `'grid'`. -/
inductive Kind (K : Type)
  | known (s : Spec K) | other

/-- The three forms of the generator: `plain` knows `int` and `float` and raises otherwise (`de.py` 121-141, `gwo.py` 88-100, `mfo.py` 91-103,
`hho.py` 247-264, `bat.py` 111-123, `cs.py` 89-101, `woa.py` 95-107, `ts.py` 95-107, `ssa.py` 90-102, `hclpso.py` 92-104, `hybrid/epso.py` 102-114, `hybrid/edev.py` 99-111);
`grids` also knows `grid` (`es.py` 120-141, `pso.py` 103-124, `sa.py` 130-150, `xnes.py` 122-135); `lax` knows all three and skips any other type
(`jaya.py` 86-96, `aco.py` 311-322). -/
inductive Gen
  | plain | grids | lax
  deriving DecidableEq

/-- What the random number generators return for one variable. -/
structure Draw (K : Type) where
  u : K
  z : ℕ

/-- `random.randint(lo, hi)`: both ends included; `ValueError` for ends that are not integers and for an empty range. -/
def randint (lo hi : K) (z : ℕ) : Py (Val K) :=
  if ((⌊lo⌋ : ℤ) : K) = lo ∧ ((⌊hi⌋ : ℤ) : K) = hi ∧ lo ≤ hi then .ok (.pyint (⌊lo⌋ + ((z % (⌊hi⌋ - ⌊lo⌋ + 1).toNat : ℕ) : ℤ)))
  else .error .valueError

/-- `random.uniform(lo, hi)`. -/
def uniform (lo hi u : K) : Val K := .float (lo + (hi - lo) * u)

/-- `random.sample(vals, 1)[0]`; `ValueError` for an empty list. -/
def pick (vals : List (Val K)) (z : ℕ) : Py (Val K) :=
  match vals[z % vals.length]? with
  | some v => .ok v
  | none => .error .valueError

/-- One round of the generators: the values appended for one variable, `es.py` lines 130-138, `de.py` lines 130-136, `jaya.py` lines 89-95. -/
def genVar (g : Gen) (k : Kind K) (d : Draw K) : Py (List (Val K)) :=
  match k with
  | .known (.int lo hi) =>
    match randint lo hi d.z with
    | .error e => .error e
    | .ok v => .ok [v]
  | .known (.float lo hi) => .ok [uniform lo hi d.u]
  | .known (.grid vals) =>
    if g = .plain then .error .valueError
    else
      match pick vals d.z with
      | .error e => .error e
      | .ok v => .ok [v]
  | .other => if g = .lax then .ok [] else .error .valueError

/-- `GenIndv`, `init_sample`, `gen_indv`, `GenES` (individual), `GenParticle` (position), `GenInd`: lines as listed at `Gen`. -/
def genIndv (g : Gen) : List (Kind K) → (ℕ → Draw K) → Py (List (Val K))
  | [], _ => .ok []
  | k :: ks, d =>
    match genVar g k (d 0) with
    | .error e => .error e
    | .ok vs =>
      match genIndv g ks (fun j => d (j + 1)) with
      | .error e => .error e
      | .ok r => .ok (vs ++ r)

/-- `n` random individuals, e.g. `gwo.py` lines 184-186, `de.py` lines 160-163, `pso.py` lines 198-201. -/
def genPop (g : Gen) (ks : List (Kind K)) (dr : ℕ → ℕ → Draw K) (n : ℕ) : Py (List (Row K)) :=
  mapRows (fun _ i => genIndv g ks (dr i)) 0 (List.range n)

/-- The variables of the encoded dictionary `self.bounds`, e.g. `gwo.py` lines 70-85. -/
def kinds (bs : Bounds K) : List (Kind K) := (encodeBounds bs).1.map (fun b => .known b.2)

/-- Where an initial individual is kept: in a row of a float matrix (`gwo.py` 172, `woa.py`, `ssa.py`, `bat.py`, `cs.py`, `hho.py`, `hclpso.py`, `edev.py`, `epso.py`)
or in a Python list (`de.py`, `es.py`, `pso.py`, `sa.py`, `ts.py`, and `jaya.py`, `mfo.py` before `np.array`). -/
inductive Store
  | matrix | list
  deriving DecidableEq

/-- `self.Positions[i,:] = row`: a row of the wrong length raises `ValueError`, except that a single value is spread over the row. -/
def storeRow (st : Store) (dim : ℕ) (r : Row K) : Py (Row K) :=
  match st with
  | .list => .ok r
  | .matrix =>
    match nums r with
    | .error e => .error e
    | .ok v => if v.length = dim then .ok (v.map .float) else if v.length = 1 then .ok (List.replicate dim (.float (v.headD 0))) else .error .valueError

/-- One given individual: check against the user's bounds, encode if there are grid variables, store; `gwo.py` lines 177-181, `de.py` lines 149-155,
`pso.py` lines 185-193, `jaya.py` lines 105-110. -/
def givenRow (st : Store) (bs : Bounds K) (r : Row K) : Py (Row K) :=
  match checkIndv bs r with
  | .error e => .error e
  | .ok () =>
    match (if hasGrid bs = true then encodeIndv (encodeBounds bs).2 bs r else .ok r) with
    | .error e => .error e
    | .ok e => storeRow st bs.length e

/-- The initial population: `gwo.py` lines 172-186, `woa.py` 239-250, `ssa.py` 237-249, `bat.py` 242-253, `cs.py` 227-239, `hho.py` 115-126, `hclpso.py` 241-252,
`edev.py` 224-236, `epso.py` 259-270, `de.py` 143-165 and 230-234, `es.py` 441-445, `pso.py` 371-379, `jaya.py` 98-116 and 214-218,
`mfo.py` 105-126 and 204-208, `nsgaII.py` 221-225. -/
def initial (st : Store) (g : Gen) (bs : Bounds K) (n : ℕ) (x0 : List (Row K)) (dr : ℕ → ℕ → Draw K) : Py (List (Row K)) :=
  match x0 with
  | [] => genPop g (kinds bs) dr n
  | _ :: _ => if x0.length = n then mapRows (fun _ r => givenRow st bs r) 0 x0 else .error .assertion

/-- The strategy vector of ES, `es.py` lines 140 and 170: `nx` draws from `[smin, smax]`. -/
def strategy (smin smax : K) (u : ℕ → K) (nx : ℕ) : List K := (List.range nx).map (fun j => smin + (smax - smin) * u j)

/-- `init_pop` of ES without the evaluation, `es.py` lines 155-180: individuals with their strategies. -/
def initES (bs : Bounds K) (lam : ℕ) (smin smax : K) (x0 : List (Row K)) (dr : ℕ → ℕ → Draw K) (us : ℕ → ℕ → K) : Py (List (Row K × List K)) :=
  match initial .list .grids bs lam x0 dr with
  | .error e => .error e
  | .ok pop => .ok (pop.mapIdx (fun i r => (r, strategy smin smax (us i) bs.length)))

/-- A particle with its speed, `pso.py` lines 122 and 188-193. -/
def withSpeed (v0 : K) (r : Row K) : Py (Row K × List K) :=
  match nums r with
  | .error e => .error e
  | .ok v => .ok (r, v.map (fun x => v0 * x))

/-- `InitSwarm` of PSO without the evaluation, `pso.py` lines 176-201. -/
def initSwarm (bs : Bounds K) (npar : ℕ) (v0 : K) (x0 : List (Row K)) (dr : ℕ → ℕ → Draw K) : Py (List (Row K × List K)) :=
  match initial .list .grids bs npar x0 dr with
  | .error e => .error e
  | .ok pop => mapRows (fun _ r => withSpeed v0 r) 0 pop

/-- ACO, `aco.py` lines 124-128 and 306-324: guesses are counted but neither checked nor encoded. -/
def initACO (bs : Bounds K) (nants : ℕ) (x0 : List (Row K)) (dr : ℕ → ℕ → Draw K) : Py (List (Row K)) :=
  match x0 with
  | [] => genPop .lax (bs.map (fun b => .known b.2)) dr nants
  | _ :: _ => if x0.length = nants then .ok x0 else .error .assertion

/-- XNES, `xnes.py` lines 168-172: the guess is the first mean, only its length is looked at. -/
def initXNES (bs : Bounds K) (x0 : Row K) (d : ℕ → Draw K) : Py (Row K) :=
  match x0 with
  | [] => genIndv .grids (kinds bs) d
  | _ :: _ => if x0.length = bs.length then .ok x0 else .error .assertion

/-- The argument `x0` of SA and TS: nothing, one individual, or a list of individuals. -/
inductive Guess (K : Type)
  | none | flat (r : Row K) | nested (rs : List (Row K))

/-- The loop of `InitChains`, `sa.py` lines 376-379.  It writes the encoded individuals into the list it was given: the first component is that list
after the loop (also if the loop ends with an error). -/
def chainLoop (bs : Bounds K) : List (Row K) → List (Row K) × Py Unit
  | [] => ([], .ok ())
  | r :: rs =>
    match checkIndv bs r with
    | .error e => (r :: rs, .error e)
    | .ok () =>
      match (if hasGrid bs = true then encodeIndv (encodeBounds bs).2 bs r else .ok r) with
      | .error e => (r :: rs, .error e)
      | .ok e => (e :: (chainLoop bs rs).1, (chainLoop bs rs).2)

/-- `x0` in `evolute` and `InitChains` of SA for a list of lists, `sa.py` lines 371-379 and 428-437: the user's list afterwards, and the starting points of the chains. -/
def nestedSA (bs : Bounds K) (ncores : ℕ) (rs : List (Row K)) : List (Row K) × Py (List (Row K)) :=
  if rs.any (fun r => decide (r.length ≠ (rs.headD []).length)) = true then (rs, .error .valueError)
  else if rs.length ≠ ncores then (rs, .error .assertion)
  else if (rs.headD []).length ≠ bs.length then (rs, .error .assertion)
  else
    match (chainLoop bs rs).2 with
    | .error e => ((chainLoop bs rs).1, .error e)
    | .ok () => ((chainLoop bs rs).1, .ok (chainLoop bs rs).1)

/-- SA: what is left in the user's argument and the starting points.  A single individual is first wrapped in a new list (`sa.py` line 433), so the user's list stays. -/
def initSA (bs : Bounds K) (ncores : ℕ) (x0 : Guess K) (dr : ℕ → ℕ → Draw K) : Guess K × Py (List (Row K)) :=
  match x0 with
  | .none => (.none, genPop .grids (kinds bs) dr ncores)
  | .flat [] => (.flat [], genPop .grids (kinds bs) dr ncores)
  | .nested [] => (.nested [], genPop .grids (kinds bs) dr ncores)
  | .flat r => (.flat r, (nestedSA bs ncores [r]).2)
  | .nested rs => (.nested (nestedSA bs ncores rs).1, (nestedSA bs ncores rs).2)

/-- The loop of TS over its guesses, `ts.py` lines 237-242: every round overwrites `self.Positions`. -/
def tabuLoop (bs : Bounds K) (cur : Row K) : List (Row K) → Py (Row K)
  | [] => .ok cur
  | r :: rs =>
    match givenRow .list bs r with
    | .error e => .error e
    | .ok e => tabuLoop bs e rs

/-- A list of guesses in TS, `ts.py` lines 234-242. -/
def nestedTS (bs : Bounds K) (ncores : ℕ) (rs : List (Row K)) : Py (Row K) :=
  if (rs.headD []).length ≠ bs.length then .error .assertion
  else if rs.length ≠ ncores then .error .assertion
  else tabuLoop bs [] rs

/-- The first position of TS, `ts.py` lines 228-251; `perm` is the shuffled list `1 .. ntabus`. -/
def initTS (bs : Bounds K) (swap : Bool) (ncores : ℕ) (x0 : Guess K) (perm : List ℕ) (d : ℕ → Draw K) : Py (Row K) :=
  let rnd := if swap then .ok (perm.map (fun (i : ℕ) => Val.pyint (i : ℤ))) else genIndv .plain (kinds bs) d
  match x0 with
  | .none => rnd
  | .flat [] => rnd
  | .nested [] => rnd
  | .flat r => if ncores = 1 then nestedTS bs ncores [r] else .error .typeError
  | .nested rs => nestedTS bs ncores rs

end
end Neorl.InitPop

import Verif.ES
import Verif.Grid

/-!
# Evolutionary hyperparameter search

Model of `neorl/tune/estune.py`: evolution strategies (`Verif/ES.lean`) over the encoded hyperparameter space (`Verif/Grid.lean`), and the table built from
`best_indvs` and `local_fitness`.  Not modelled: the plot, the CSV file (a copy of the table), printing, worker processes.
-/

set_option linter.unusedSectionVars false
set_option linter.unusedVariables false

namespace Neorl.ESTune

section
variable {K : Type} [Field K] [LinearOrder K] [IsStrictOrderedRing K] [FloorRing K]

/-- `self.lb`, `self.ub` of a variable, `neorl/evolu/es.py` lines 117-118 (after encoding there are no grids). -/
def specBounds : Spec K → K × K
  | .grid vals => (0, (vals.length : K) - 1)
  | .int l u => (l, u)
  | .float l u => (l, u)

/-- `self.datatype`, `neorl/evolu/es.py` lines 100-110. -/
def specType : Spec K → VType
  | .float _ _ => .float
  | _ => .int

/-- The encoded search space, `neorl/evolu/es.py` lines 100-118. -/
def space (expf : K → K) (bs : Bounds K) : Space K :=
  { bounds := (encodeBounds bs).1.map fun b => specBounds b.2, types := (encodeBounds bs).1.map fun b => specType b.2, method := .nearestInt, expf := expf }

/-- An encoded vector as Python values: `int` variables hold Python integers, the others floats. -/
def toVals (nb : Bounds K) (x : List K) : List (Val K) :=
  List.zipWith (fun b y => match b.2 with | .float _ _ => .float y | _ => .pyint (truncZ y)) nb x

/-- `fit_worker`, `neorl/evolu/es.py` lines 229-241: the hyperparameters given to the user's function.  (`decode_discrete_to_grid` does nothing without grids.) -/
def decode (bs : Bounds K) (x : List K) : Py (List (Val K)) := decodeIndv (encodeBounds bs).2 bs (toVals (encodeBounds bs).1 x)

/-- The fitness of an encoded vector; the decoding never fails on the vectors ES evaluates (`decode_ok`). -/
def fitOf (bs : Bounds K) (f : List (Val K) → K) (x : List K) : K :=
  match decode bs x with
  | .ok v => f v
  | .error _ => 0

/-- The settings of line 80-82 of `estune.py` and the defaults of `neorl/evolu/es.py` lines 51-52. -/
def conf (expf : K → K) (bs : Bounds K) (ngen : ℕ) : ES.Conf K :=
  { S := space expf bs, lam := 10, mu := 10, ngen := ngen, blend := false, alpha := 1 / 2, cxpb := 7 / 10, mutpb := 1 / 4, smin := 1 / 100, smax := 1 / 2, clip := true }

/-- `self.best_indvs`, `neorl/evolu/es.py` lines 440, 483-485: the first best survivor of every generation, encoded. -/
def bestIndvs (c : ES.Conf K) (fit : List K → K) (dr : ℕ → ℕ → ES.Draw K) (pop0 : List (List K × List K)) : ℕ → Py (List (List K))
  | 0 => .ok []
  | g + 1 =>
    match bestIndvs c fit dr pop0 g with
    | .error e => .error e
    | .ok l =>
      match ES.run c fit dr (fun _ => []) pop0 (g + 1) with
      | .error e => .error e
      | .ok s =>
        match ES.firstMax s.pop with
        | none => .error .valueError
        | some b => .ok (l ++ [b.ind])

/-- A row of the table. -/
structure Row (K : Type) where
  id : ℕ
  params : List (Val K)
  score : K

/-- The table returned, and as a ghost the hyperparameters given to the user's function, in order. -/
structure Result (K : Type) where
  table : List (Row K)
  calls : List (Py (List (Val K)))

/-- `tune`, lines 62-95.  `pop0` is the random initial population with its strategies, `m` is `mode == 'min'`. -/
def tune (expf : K → K) (bs : Bounds K) (m : Bool) (f : List (Val K) → K) (ngen : ℕ) (dr : ℕ → ℕ → ES.Draw K) (pop0 : List (List K × List K)) : Py (Result K) :=
  let c := conf expf bs ngen
  match ES.evolute c m (fitOf bs f) dr (fun _ => []) pop0 with
  | .error e => .error e
  | .ok r =>
    match bestIndvs c (fun x => sgn (!m) (fitOf bs f x)) dr pop0 ngen with
    | .error e => .error e
    | .ok l =>
      .ok { table := List.zipWith (fun (p : ℕ × List K) y => ⟨p.1, toVals (encodeBounds bs).1 p.2, y⟩) (l.mapIdx fun i x => (i + 1, x)) r.locals
            calls := (pop0.map (fun p => p.1) ++ r.log).map (decode bs) }

end

end Neorl.ESTune

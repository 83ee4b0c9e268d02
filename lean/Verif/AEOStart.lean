import Verif.AEO

/-!
# The start of the animorphic ensemble

Model of the first part of `AEO.evolute` (`neorl/hybrid/aeo.py` lines 671-710): sizes of the populations, starting positions with their population numbers, and
the names under which the populations are logged.  `get_algo_nmembers` (lines 179-202) is the list `sizes`; a sampled position is `sample k`; names are lists of
characters.
-/

set_option linter.unusedSectionVars false
set_option linter.unusedVariables false

namespace Neorl.AEO

section
variable {K : Type}

/-- Lines 683-684: `[[i] * npop0[i] for i in range(len(npop0))]`, chained. -/
def labels (npop0 : List ℕ) : List ℕ := (npop0.mapIdx fun i n => List.replicate n i).flatten

/-- Lines 671-684: the starting positions with their population numbers.  A missing `pop0` beside `x0`, and `pop0` alone, are errors of `len(None)` and
`sum(None)`. -/
def start (sizes : List ℕ) (sample : ℕ → List K) (npop0 : Option (List ℕ)) (x0 : Option (List (List K))) (pop0 : Option (List ℕ)) : Py (List (List K × ℕ)) :=
  let npop0 := match npop0, x0, pop0 with | none, none, none => some sizes | n, _, _ => n
  match x0 with
  | some xs =>
    match pop0 with
    | none => .error .typeError
    | some ps => if xs.length = ps.length then .ok (xs.zip ps) else .error .assertion
  | none =>
    match npop0 with
    | none => .error .typeError
    | some ns => .ok (((List.range ns.sum).map sample).zip (labels ns))

/-- The names of `detect_algo`, lines 76-97. -/
def Algo.chars : Algo → List Char
  | .woa => ['W', 'O', 'A']
  | .gwo => ['G', 'W', 'O']
  | .pso => ['P', 'S', 'O']
  | .mfo => ['M', 'F', 'O']
  | .hho => ['H', 'H', 'O']
  | .de => ['D', 'E']
  | .es => ['E', 'S']
  | .ssa => ['S', 'S', 'A']
  | .jaya => ['J', 'A', 'Y', 'A']

/-- `str(i).zfill(3)`. -/
def zfill3 (i : ℕ) : List Char := List.replicate (3 - (Nat.toDigits 10 i).length) '0' ++ Nat.toDigits 10 i

/-- Lines 707-708: `while algo + str(i).zfill(3) in popcoords: i += 1`, at most `fuel` times. -/
def free (used : List (List Char)) (a : Algo) : ℕ → ℕ → ℕ
  | 0, i => i
  | fuel + 1, i => if a.chars ++ zfill3 i ∈ used then free used a fuel (i + 1) else i

/-- The name of one more population, lines 700-710. -/
def nameOf (used : List (List Char)) (a : Algo) : List Char :=
  if a.chars ∈ used then a.chars ++ zfill3 (free used a used.length 2) else a.chars

/-- `popcoords`, lines 699-710. -/
def names : List (List Char) → List Algo → List (List Char)
  | used, [] => used
  | used, a :: as => names (used ++ [nameOf used a]) as

end
end Neorl.AEO

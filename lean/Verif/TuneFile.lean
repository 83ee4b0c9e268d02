import Verif.Tune
import Verif.InputFile
import Mathlib.Algebra.BigOperators.Group.List.Basic

/-!
# Hyperparameter search from an input file: templates, cases, tables

Model of `neorl/tune/runners/gridtune.py` and `neorl/tune/runners/randtune.py` (`GRIDTUNE`, `RANDTUNE`), whose `__init__`, case files
and `case_object` are repeated word for word in `bayestune.py` and `estune.py`.  Text is a list of characters; `int` and `float` on
text and `str` on floats are parameters, real numbers stand for floats.  The run of a case (a sub-process) is a parameter giving the
reward columns of the `*_out.csv` files found afterwards.  `sort_values` is a parameter: pandas does not promise the order of equal
keys.  The pool may append the rows of the cases in any order.  Not modelled: the confirmation asked for above a million cases,
copying of `extfiles`, directories, printing; `n_last_episodes` is a natural number.
-/

set_option linter.unusedSectionVars false
set_option linter.unusedVariables false

namespace Neorl.TuneFile

abbrev Str := List Char

/-- The last index, counted from `i`, of a line containing `m`, or `d`; lines 62-67 of `neorl/tune/runners/gridtune.py`. -/
def lastIdx (m : Str) : ℕ → ℕ → List Str → ℕ
  | _, d, [] => d
  | i, d, l :: ls => lastIdx m (i + 1) (if m <:+: l then i else d) ls

/-- `__init__`, lines 59-73: the file without its TUNE card.  `raise ('...')` with a string is a TypeError. -/
def template (lines : List Str) : Py Str :=
  let first := lastIdx "READ TUNE".toList 0 0 lines
  let last := lastIdx "END TUNE".toList 0 0 lines
  if first = 0 ∧ last = 0 then .error .typeError
  else .ok (lines.take first ++ lines.drop (max first (last + 1))).flatten

/-- `str.replace` for a non-empty pattern: scan from the left; the counter is the number of characters of a match still to be skipped. -/
def replaceAux (p v : Str) : ℕ → Str → Str
  | _, [] => []
  | k + 1, _ :: s => replaceAux p v k s
  | 0, c :: s => if p <+: c :: s then v ++ replaceAux p v (p.length - 1) s else c :: replaceAux p v 0 s

/-- `s.replace(p, v)`. -/
def replace (p v s : Str) : Str := replaceAux p v 0 s

/-- Lines 132-134: one replacement after the other; `vals[j]` is an IndexError when there are fewer values than names. -/
def fill : List Str → List Str → Str → Py Str
  | [], _, t => .ok t
  | _ :: _, [], _ => .error .indexError
  | n :: ns, v :: vs, t => fill ns vs (replace n v t)

/-- Lines 129-138: the case files; file `i` of the list is `case(i+1).inp`. -/
def caseFiles (ns : List Str) (t : Str) (cs : List (List Str)) : Py (List Str) := cs.mapM fun vs => fill ns vs t

section
variable {K : Type} [Field K] [LinearOrder K] [IsStrictOrderedRing K] [FloorRing K]

/-- A value of a hyperparameter. -/
inductive Val (K : Type)
  | int (z : ℤ)
  | num (x : K)
  | str (s : Str)
  deriving DecidableEq, Repr

/-- Python's conversions between text and numbers. -/
structure Lib (K : Type) where
  C : InputFile.Chars
  int? : Str → Option ℤ
  float? : Str → Option K
  showInt : ℤ → Str
  showNum : K → Str

/-- `str(value)`. -/
def Val.show (L : Lib K) : Val K → Str
  | .int z => L.showInt z
  | .num x => L.showNum x
  | .str s => s

/-- Lines 86-96: an integer if possible, else a float, else the stripped text. -/
def element (L : Lib K) (s : Str) : Val K :=
  let s := InputFile.strip L.C s
  match L.int? s with
  | some z => .int z
  | none =>
    match L.float? s with
    | some x => .num x
    | none => .str s

/-- Line 83: the keys of the card that name hyperparameters. -/
def isParam : Str → Bool
  | [] => false
  | c :: s => decide ('{' ∈ c :: s) && decide ('}' ∈ c :: s) && c != '#'

/-- `tune_count` of the grid search, lines 81-104. -/
def gridParams (L : Lib K) (t : Str) : List (Str × Str) → Py (List (Str × List (Val K)))
  | [] => .ok []
  | (k, v) :: rest =>
    if isParam k then
      if k <:+: t then (gridParams L t rest).map (((k, (InputFile.split ',' v).map (element L))) :: ·) else .error .valueError
    else gridParams L t rest

/-- Names and cases of the grid search, lines 81-107. -/
def gridCases (L : Lib K) (t : Str) (block : List (Str × Str)) : Py (List Str × List (List (Val K))) :=
  (gridParams L t block).map fun ps => (ps.map Prod.fst, Tune.product (ps.map Prod.snd))

/-! ### Random search -/

/-- Entries of a parsed value list. -/
def hasWord (w : String) (l : List (Val K)) : Bool := decide (Val.str w.toList ∈ l)

/-- `float(item)` of an entry. -/
def toFloat (L : Lib K) : Val K → Option K
  | .int z => some z
  | .num x => some x
  | .str s => L.float? s

/-- `int(item)` of an entry: floats are truncated. -/
def toInt (L : Lib K) : Val K → Option ℤ
  | .int z => some z
  | .num x => some (if 0 ≤ x then ⌊x⌋ else ⌈x⌉)
  | .str s => L.int? s

/-- `item_lst[0]=float(item_lst[0]); item_lst[1]=float(item_lst[1])`, lines 101-102 of `neorl/tune/runners/randtune.py`. -/
def floats (L : Lib K) : List (Val K) → Py (List (Val K))
  | a :: b :: l =>
    match toFloat L a, toFloat L b with
    | some x, some y => .ok (.num x :: .num y :: l)
    | _, _ => .error .runtimeError
  | _ => .error .runtimeError

/-- Lines 123-124. -/
def ints (L : Lib K) : List (Val K) → Py (List (Val K))
  | a :: b :: l =>
    match toInt L a, toInt L b with
    | some x, some y => .ok (.int x :: .int y :: l)
    | _, _ => .error .runtimeError
  | _ => .error .runtimeError

/-- Lines 134-151: every entry must still be text, for a number has no `strip`. -/
def gridEntries (L : Lib K) : List (Val K) → Py (List (Val K))
  | [] => .ok []
  | .str s :: l => (gridEntries L l).map (element L s :: ·)
  | _ :: _ => .error .runtimeError

/-- Lines 94-154: the value list of one hyperparameter. -/
def parseRand (L : Lib K) (v : Str) : Py (List (Val K)) := do
  let l := (InputFile.split ',' v).map fun s => Val.str (InputFile.strip L.C s)
  let l ← if hasWord "u" l || hasWord "float" l then floats L l else pure l
  let l ← if hasWord "n" l then floats L l else pure l
  let l ← if hasWord "randint" l || hasWord "int" l then ints L l else pure l
  if hasWord "grid" l then gridEntries L l else pure l

/-- Lines 85-156 over the card (its keys are distinct). -/
def randParams (L : Lib K) (t : Str) : List (Str × Str) → Py (List (Str × List (Val K)))
  | [] => .ok []
  | (k, v) :: rest =>
    if isParam k then
      if k <:+: t then do
        let p ← parseRand L v
        (randParams L t rest).map ((k, p) :: ·)
      else .error .valueError
    else randParams L t rest

/-- Draws for one hyperparameter of one case: `u` for `random.uniform`, `g` for `random.gauss`, `r` for `randint` and `sample`. -/
structure Draw (K : Type) where
  u : K
  g : K
  r : ℕ

/-- `random.uniform(low, high)`. -/
def sUniform (L : Lib K) (d : Draw K) : List (Val K) → Py (Val K)
  | .num a :: .num b :: _ => .ok (.num (a + (b - a) * d.u))
  | .int a :: .int b :: _ => .ok (.num (a + ((b : K) - a) * d.u))
  | _ => .error .typeError

/-- `random.gauss(mu, sigma)`. -/
def sGauss (L : Lib K) (d : Draw K) : List (Val K) → Py (Val K)
  | .num a :: .num b :: _ => .ok (.num (a + d.g * b))
  | .int a :: .int b :: _ => .ok (.num (a + d.g * b))
  | _ => .error .typeError

/-- `random.randint(low, high)`. -/
def sInt (d : Draw K) : List (Val K) → Py (Val K)
  | .int a :: .int b :: _ => if a ≤ b then .ok (.int (a + (d.r % ((b - a).toNat + 1) : ℕ))) else .error .valueError
  | _ => .error .typeError

/-- Lines 172-174: one entry of the list without the first `'grid'`. -/
def sGrid (d : Draw K) (l : List (Val K)) : Py (Val K) :=
  let g := l.erase (.str "grid".toList)
  match g[d.r % g.length]? with
  | some v => .ok v
  | none => .error .valueError

/-- One optional sample. -/
def optSample (b : Bool) (s : Py (Val K)) : Py (List (Val K)) := if b then s.map ([·]) else .ok []

/-- Lines 165-174: four separate `if`s. -/
def samples (L : Lib K) (d : Draw K) (l : List (Val K)) : Py (List (Val K)) := do
  let a ← optSample (hasWord "u" l || hasWord "float" l) (sUniform L d l)
  let b ← optSample (hasWord "n" l) (sGauss L d l)
  let c ← optSample (hasWord "randint" l || hasWord "int" l) (sInt d l)
  let e ← optSample (hasWord "grid" l) (sGrid d l)
  return a ++ b ++ c ++ e

/-- Lines 163-174: one case; parameter `j` has its own draws. -/
def sampleCase (L : Lib K) (d : ℕ → Draw K) : ℕ → List (List (Val K)) → Py (List (Val K))
  | _, [] => .ok []
  | j, l :: ls => do
    let a ← samples L (d j) l
    let b ← sampleCase L d (j + 1) ls
    return a ++ b

/-- Lines 161-176. -/
def randCases (L : Lib K) (d : ℕ → ℕ → Draw K) (ncases : ℕ) (ps : List (List (Val K))) : Py (List (List (Val K))) :=
  (List.range ncases).mapM fun i => sampleCase L (d i) 0 ps

/-- Names and cases of the random search. -/
def randAll (L : Lib K) (t : Str) (block : List (Str × Str)) (ncases : ℕ) (d : ℕ → ℕ → Draw K) : Py (List Str × List (List (Val K))) := do
  let ps ← randParams L t block
  let cs ← randCases L d ncases (ps.map Prod.snd)
  return (ps.map Prod.fst, cs)

/-- `gen_cases`, lines 184-194 (and 127-138 of the grid search): the case files. -/
def genFiles (L : Lib K) (t : Str) (nc : List Str × List (List (Val K))) : Py (List Str) := caseFiles nc.1 t (nc.2.map (·.map (Val.show L)))

/-! ### Results -/

/-- A line of `tune.csv`. -/
structure Row (K : Type) where
  caseid : ℕ
  vals : List (Val K)
  mean : K
  max : K
  deriving DecidableEq

/-- `reward_lst[-n:]`; `-0` is 0 and takes everything. -/
def lastN (n : ℕ) (r : List K) : List K := if n = 0 then r else r.drop (r.length - n)

/-- `np.mean` of a non-empty list. -/
def meanOf (r : List K) : K := r.sum / r.length

/-- `np.max`. -/
def maxOf : K → List K → K
  | m, [] => m
  | m, x :: xs => maxOf (if m < x then x else m) xs

/-- `case_object`, lines 156-187 of `neorl/tune/runners/gridtune.py`: `logs` are the reward columns of the `*_out.csv` files of the
case (`none`: no log directory).  `none`: the case failed. -/
def caseObject (n : ℕ) (logs : Option (List (List K))) (x : ℕ) (vals : List (Val K)) : Option (Row K) :=
  match logs with
  | some [r :: rs] => some { caseid := x, vals := vals, mean := meanOf (lastN n (r :: rs)), max := maxOf r rs }
  | _ => none

/-- Line 203: the results of all cases, case `i` of the list having number `i + 1`. -/
def results (n : ℕ) (logs : ℕ → Option (List (List K))) (cs : List (List (Val K))) : List (Option (Row K)) :=
  cs.mapIdx fun i vals => caseObject n (logs (i + 1)) (i + 1) vals

/-- What the summary says. -/
structure Summary (K : Type) where
  cases : ℕ
  failed : ℕ
  byMean : List (Row K)
  byMax : List (Row K)

/-- `run_cases`, lines 196-255: the final `tune.csv` and the summary.  `file` is `tune.csv` as the pool left it. -/
def runCases (asc : (Row K → ℕ) → List (Row K) → List (Row K)) (desc : (Row K → K) → List (Row K) → List (Row K)) (n : ℕ)
    (logs : ℕ → Option (List (List K))) (cs : List (List (Val K))) (file : List (Row K)) : List (Row K) × Summary K :=
  let top := fun l : List (Row K) => if l.length < 20 then l.take l.length else l.take 20
  (asc (·.caseid) file,
   { cases := cs.length, failed := ((results n logs cs).filter fun r => r.isNone).length,
     byMean := top (desc (·.mean) file), byMax := top (desc (·.max) file) })

end

end Neorl.TuneFile

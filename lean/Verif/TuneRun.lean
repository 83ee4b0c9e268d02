import Verif.TuneFile
import Verif.GARun

/-!
# Bayesian and evolutionary hyperparameter search from an input file

Model of `neorl/tune/runners/bayestune.py` (`BAYESTUNE`) and `neorl/tune/runners/estune.py` (`ESTUNE`, also used for GATUNE).  Values,
templates, case files and rows are those of `Verif.TuneFile`.  The run of a case is a parameter (its reward logs); `gp_minimize` of
scikit-optimize is a parameter that, given all points and answers so far, names the next point or raises.  The pool of processes is
modelled by independent copies.  `np.exp` of random numbers is an arbitrary draw.  Not modelled: directories, external files, printing;
the search-space objects of scikit-optimize; words that pandas reads as numbers or truth values.
-/

set_option linter.unusedSectionVars false
set_option linter.unusedVariables false

namespace Neorl.TuneRun

open TuneFile ES

section
variable {K : Type} [Field K] [LinearOrder K] [IsStrictOrderedRing K] [FloorRing K]

/-! ### The TUNE card -/

/-- Entries of `self.datatypes`, lines 128-187 of `neorl/tune/runners/estune.py`. -/
inductive Ty
  | float
  | int
  | grid
  deriving DecidableEq, Repr

/-- One of the three blocks of lines 130-187: if the keyword is there, convert and note the type. -/
def stage (b : Bool) (f : List (Val K) → Py (List (Val K))) (ty : Ty) (l : List (Val K)) : Py (List (Val K) × List Ty) :=
  if b then (f l).map (·, [ty]) else .ok (l, [])

/-- Lines 125-189 of `neorl/tune/runners/estune.py`: the value list of one hyperparameter and the types noted for it; lines 121-180 of
`neorl/tune/runners/bayestune.py` are the same without the types. -/
def parse (L : Lib K) (v : Str) : Py (List (Val K) × List Ty) := do
  let l := (InputFile.split ',' v).map fun s => Val.str (InputFile.strip L.C s)
  let a ← stage (hasWord "float" l || hasWord "u" l) (floats L) .float l
  let b ← stage (hasWord "int" a.1 || hasWord "randint" a.1) (ints L) .int a.1
  let c ← stage (hasWord "grid" b.1) (gridEntries L) .grid b.1
  return (c.1, a.2 ++ b.2 ++ c.2)

/-- `tune_count`, lines 116-189: names and value lists in the order of the card, and all noted types. -/
def tuneCount (L : Lib K) (t : Str) : List (Str × Str) → Py (List (Str × List (Val K)) × List Ty)
  | [] => .ok ([], [])
  | (k, v) :: rest =>
    if isParam k then
      if k <:+: t then do
        let p ← parse L v
        (tuneCount L t rest).map fun r => ((k, p.1) :: r.1, p.2 ++ r.2)
      else .error .valueError
    else tuneCount L t rest

/-! ### The end of a search -/

/-- What the summary says; `failed = none` stands for 'NA'. -/
structure Summary (K : Type) where
  cases : ℕ
  failed : Option ℕ
  byMean : List (Row K)
  byMax : List (Row K)

/-- A number in a column of the table. -/
def number : Val K → Py K
  | .int z => .ok (z : K)
  | .num x => .ok x
  | .str _ => .error .typeError

/-- Column `j` of a row of the table: the number, the hyperparameters, mean and maximum; `none` past the last column. -/
def column (j : ℕ) (r : Row K) : Py (Option K) :=
  if j = 0 then .ok (some r.caseid)
  else if h : j - 1 < r.vals.length then (number r.vals[j - 1]).map some
  else if j = r.vals.length + 1 then .ok (some r.mean)
  else if j = r.vals.length + 2 then .ok (some r.max)
  else .ok none

/-- `np.mean(des_data.iloc[:,4:5]).tolist()[0]`, lines 378-379 of `neorl/tune/runners/bayestune.py` and 589-590 of
`neorl/tune/runners/estune.py`, for a table with `n` hyperparameters: without a column 4 there is nothing to index. -/
def totalMean (n : ℕ) (rows : List (Row K)) : Py K :=
  if n + 3 ≤ 4 then .error .indexError
  else (rows.mapM (column 4)).map fun xs => meanOf (xs.map fun x => x.getD 0)

/-- Lines 372-421 of `neorl/tune/runners/bayestune.py` and 583-634 of `neorl/tune/runners/estune.py`: the sorted `tune.csv`, which is
written first, and the summary. -/
def finish (asc : (Row K → ℕ) → List (Row K) → List (Row K)) (desc : (Row K → K) → List (Row K) → List (Row K)) (n reported : ℕ)
    (failed : Option ℕ) (file : List (Row K)) : List (Row K) × Py (K × Summary K) :=
  let top := fun l : List (Row K) => if l.length < 20 then l.take l.length else l.take 20
  (asc (·.caseid) file,
   (totalMean n (desc (·.mean) file)).map fun m =>
     (m, { cases := reported, failed := failed, byMean := top (desc (·.mean) file), byMax := top (desc (·.max) file) }))

/-- An evaluated case: its number, the values, its input file, the row if it succeeded. -/
structure Eval (K : Type) where
  num : ℕ
  vals : List (Val K)
  file : Str
  row : Option (Row K)

/-! ### Bayesian search -/

/-- Lines 190-214: the three `if`s for one hyperparameter and one core. -/
def startSamples (L : Lib K) (d : Draw K) (l : List (Val K)) : Py (List (Val K)) := do
  let a ← optSample (hasWord "float" l || hasWord "u" l) (sUniform L d l)
  let b ← optSample (hasWord "int" l || hasWord "randint" l) (sInt d l)
  let c ← optSample (hasWord "grid" l) (sGrid d l)
  return a ++ b ++ c

/-- `self.initialparams[i]` for one core, lines 188-214. -/
def startPoint (L : Lib K) (d : ℕ → Draw K) : ℕ → List (List (Val K)) → Py (List (Val K))
  | _, [] => .ok []
  | j, l :: ls => do
    let a ← startSamples L (d j) l
    let b ← startPoint L d (j + 1) ls
    return a ++ b

/-- What a core needs to evaluate: names, template, `n_last_episodes`; `logs k` are the reward logs found after its evaluation `k`. -/
structure Core (K : Type) where
  L : Lib K
  names : List Str
  temp : Str
  n : ℕ
  logs : ℕ → Option (List (List K))

/-- `case_object`, lines 245-305, with `caseindex = i`, as evaluation `k` of the core.  When the file cannot be made `casenum` is not
bound and the handler raises. -/
def caseEval (c : Core K) (k i : ℕ) (x : List (Val K)) : Py (Eval K) :=
  match fill c.names (x.map (Val.show c.L)) c.temp with
  | .error _ => .error .unboundLocal
  | .ok f => .ok { num := i + 1, vals := x, file := f, row := caseObject c.n (c.logs k) (i + 1) x }

/-- What `case_object` returns: minus the mean, or a text. -/
def answer (e : Eval K) : Option K := e.row.map fun r => -r.mean

/-- `self.caseindex+=1`, line 299, is reached by successful cases only. -/
def next (i : ℕ) (e : Eval K) : ℕ := if e.row.isSome then i + 1 else i

/-- The calls of `gp_minimize` after the first: `ask` sees all points and answers.  `k` evaluations are done, `caseindex = i`. -/
def gpLoop (c : Core K) (ask : List (List (Val K) × Option K) → Py (List (Val K))) : ℕ → ℕ → ℕ → List (Eval K) → Py (List (Eval K))
  | 0, _, _, evs => .ok evs
  | n + 1, k, i, evs => do
    let x ← ask (evs.map fun e => (e.vals, answer e))
    let e ← caseEval c k i x
    gpLoop c ask n (k + 1) (next i e) (evs ++ [e])

/-- `gp_minimize(func, n_calls, x0)` of one core (lines 308-326 and 348-352): the given point first, then the points asked for. -/
def gpRun (c : Core K) (ask : List (List (Val K) × Option K) → Py (List (Val K))) (calls i : ℕ) (x0 : List (Val K)) : Py (List (Eval K)) := do
  let e ← caseEval c 0 i x0
  gpLoop c ask (calls - 1) 1 (next i e) [e]

/-- `run_cases` on one core, lines 341-352: the evaluations and the number of cases that is reported.  `failed` of the summary counts
the texts among the answers. -/
def bayesSerial (c : Core K) (ask : List (List (Val K) × Option K) → Py (List (Val K))) (ncases : ℕ) (x0 : List (Val K)) :
    Py (List (Eval K) × ℕ × Option ℕ) :=
  let ncases := if ncases < 11 then 11 else ncases
  (gpRun c ask ncases 0 x0).map fun evs => (evs, ncases, some ((evs.filter fun e => e.row.isNone).length))

/-- `n_calls`, lines 357-360. -/
def calls (ncases ncores : ℕ) : ℕ := if ncases / ncores < 11 then 11 else ncases / ncores

/-- `run_cases` on several cores, lines 353-369: core `j` starts at `caseindex = j * n_calls`.  The failures are looked up in a list by
a text, which raises and gives 'NA'. -/
def bayesParallel (cores : ℕ → Core K) (ask : ℕ → List (List (Val K) × Option K) → Py (List (Val K))) (ncases ncores : ℕ)
    (x0 : ℕ → List (Val K)) : Py (List (List (Eval K)) × ℕ × Option ℕ) :=
  (mapRows (fun _ j => gpRun (cores j) (ask j) (calls ncases ncores) (j * calls ncases ncores) (x0 j)) 0 (List.range ncores)).map fun r => (r, ncases, none)

/-! ### Evolutionary search -/

/-- The constants of a search: library, names, value lists, types, template, `n_last_episodes`, the logs of case `k`, and `INDPB`, which
is 0.1 for GATUNE and 1 for ESTUNE (lines 63-72). -/
structure Conf (K : Type) where
  L : Lib K
  names : List Str
  lists : List (List (Val K))
  types : List Ty
  temp : Str
  n : ℕ
  logs : ℕ → Option (List (List K))
  indpb : K

/-- `SMIN`, lines 194-197. -/
def smin (c : Conf K) : K := if c.lists.length ≤ 10 then 1 / 10 else 1 / (c.lists.length : K)

/-- `SMAX`, line 75. -/
def smax : K := 1 / 2

/-- Lines 230-246: `if`/`elif`; without a keyword `raise Exception`. -/
def genVal (L : Lib K) (d : Draw K) (l : List (Val K)) : Py (Val K) :=
  if hasWord "int" l || hasWord "randint" l then sInt d l
  else if hasWord "float" l || hasWord "u" l then sUniform L d l
  else if hasWord "grid" l then sGrid d l
  else .error .runtimeError

/-- Draws of `GenES`. -/
structure GenDraw (K : Type) where
  v : ℕ → Draw K
  s : ℕ → K

/-- `GenES`, lines 218-252.  (The bounds `LOW` and `UP` are the first two entries of every list.) -/
def genES (c : Conf K) (d : GenDraw K) : Py (List (Val K) × List K) :=
  match mapRows (fun j l => genVal c.L (d.v j) l) 0 c.lists with
  | .error e => .error e
  | .ok v => .ok (v, (List.range c.lists.length).map fun j => smin c + (smax - smin c) * d.s j)

/-- `random.choice(choices)` after `choices=list(range(LOW, UP+1)); choices.remove(x)`, lines 472-474. -/
def otherInt (a b z : ℤ) (k : ℕ) : Py ℤ := flipChoice a b z (k % (b - a).toNat)

/-- Lines 481-487: the value of a `float` hyperparameter is put back to a bound it has passed. -/
def clampVal (a b v : Val K) : Py (Val K) :=
  match number a, number b, number v with
  | .ok lo, .ok hi, .ok x => .ok (if x < lo then (if lo > hi then b else a) else if x > hi then b else v)
  | _, _, _ => .error .typeError

/-- Lines 478-482: strategy and value of a `float` hyperparameter, changed with probability `INDPB`. -/
def moveVal (indpb e t g : K) (x : Val K × K) : Py (Val K × K) :=
  if t < indpb then (number x.1).map fun v => (.num (v + x.2 * e * g), x.2 * e) else .ok x

/-- One hyperparameter of `mutES`, lines 435-490: value `x.1`, strategy `x.2`. -/
def mutVal (c : Conf K) (d : MutDraw K) (i : ℕ) (x : Val K × K) : Py (Val K × K) :=
  match c.types[i]?, c.lists[i]? with
  | some .grid, some l =>
    let s := fold (smin c) smax (1 / (1 + (1 - x.2) / x.2 * d.e i))
    if d.t i < s then
      if hasWord "int" l || hasWord "randint" l || hasWord "float" l || hasWord "u" l then .error .keyError
      else (sGrid (K := K) { u := 0, g := 0, r := d.pick i } l).map (·, s)
    else .ok (x.1, s)
  | some .int, some (.int a :: .int b :: _) =>
    let s := fold (smin c) smax (1 / (1 + (1 - x.2) / x.2 * d.e i))
    match x.1 with
    | .int z => (otherInt a b z (d.pick i)).map fun z => (.int z, s)
    | .num v => if ((⌊v⌋ : ℤ) : K) = v then (otherInt a b ⌊v⌋ (d.pick i)).map fun z => (.int z, s) else .error .valueError
    | .str _ => .error .valueError
  | some .float, some (a :: b :: _) => do
    let y ← moveVal c.indpb (d.e i) (d.t i) (d.g i) x
    let v ← clampVal a b y.1
    return (v, y.2)
  | none, _ => .error .indexError
  | _, _ => .error .typeError

/-- `mutES`, lines 421-492. -/
def mutES (c : Conf K) (d : MutDraw K) (v : List (Val K)) (s : List K) : Py (List (Val K) × List K) :=
  match mapRows (mutVal c d) 0 (List.zip v s) with
  | .error e => .error e
  | .ok l => .ok (l.map Prod.fst, l.map Prod.snd)

/-- `x[p:q] = y[p:q]`. -/
def splice {A : Type} (p q : ℕ) (x y : List A) : List A := x.take p ++ (y.drop p).take (q - p) ++ x.drop q

/-- A member of the population: values, strategy, fitness (`none`: the text of a failed case). -/
structure Mem (K : Type) where
  vals : List (Val K)
  strat : List K
  fit : Option K

/-- One offspring of `GenOffspring`, lines 505-534 (`CXPB = 0.5`, `MUTPB = 0.2`), with `cx`, lines 383-419. -/
def genOne (c : Conf K) (pop : List (Mem K)) (d : GARun.Draw K) : Py (List (Val K) × List K) :=
  let n := pop.length
  if d.alpha < 1 / 2 then
    if n < 2 then .error .valueError else
    let k1 := d.i1 % n
    let k2 := (k1 + 1 + d.i2 % (n - 1)) % n
    match pop[k1]?, pop[k2]? with
    | some p, some q =>
      match cxPoints (min p.vals.length q.vals.length) d.a d.b with
      | .error e => .error e
      | .ok r => .ok (splice r.1 r.2 p.vals q.vals, splice r.1 r.2 p.strat q.strat)
    | _, _ => .error .indexError
  else
    match pop[d.i1 % n]? with
    | none => .error .indexError
    | some p => if d.alpha < 1 / 2 + 1 / 5 then mutES c d.md p.vals p.strat else .ok (p.vals, p.strat)

/-- `fit`, lines 287-345, for case number `num`; as in the Bayesian search a file that cannot be made raises. -/
def fit (c : Conf K) (num : ℕ) (x : List (Val K)) : Py (Eval K) :=
  match fill c.names (x.map (Val.show c.L)) c.temp with
  | .error _ => .error .unboundLocal
  | .ok f => .ok { num := num, vals := x, file := f, row := caseObject c.n (c.logs num) num x }

/-- Ten vectors are evaluated under the numbers `cur`, `cur + 1`, ... (lines 270-284 and 556-577). -/
def evalAll (c : Conf K) (cur : ℕ) (xs : List (List (Val K) × List K)) : Py (List (Eval K)) := mapRows (fun i x => fit c i x.1) cur xs

/-- The members with their fitness. -/
def members (xs : List (List (Val K) × List K)) (evs : List (Eval K)) : List (Mem K) :=
  List.zipWith (fun x (e : Eval K) => { vals := x.1, strat := x.2, fit := e.row.map Row.mean }) xs evs

/-- `select`, lines 357-381, `MU = 5`: a stable sort by fitness.  A text and a number cannot be compared; ten texts are sorted in some
order `byText`. -/
def select (byText : List (Mem K) → List (Mem K)) (pop : List (Mem K)) : Py (List (Mem K)) :=
  if pop.all (fun m => m.fit.isSome) then .ok ((sortDesc (fun m : Mem K => m.fit.getD 0) pop).take 5)
  else if pop.all (fun m => m.fit.isNone) then .ok ((byText pop).take 5)
  else .error .typeError

/-- One generation, lines 555-580. -/
def gen (c : Conf K) (byText : List (Mem K) → List (Mem K)) (cur : ℕ) (d : ℕ → GARun.Draw K) (pop : List (Mem K)) : Py (List (Mem K) × List (Eval K)) :=
  match mapRows (fun _ i => genOne c pop (d i)) 0 (List.range 10) with
  | .error e => .error e
  | .ok xs =>
    match evalAll c cur xs with
    | .error e => .error e
    | .ok evs =>
      match select byText (members xs evs) with
      | .error e => .error e
      | .ok pop => .ok (pop, evs)

/-- `for gen in range(1, ngens)`, lines 554-580: `m` generations are left, `g` is the index of the next, `cur` its first number. -/
def loop (c : Conf K) (byText : List (Mem K) → List (Mem K)) (d : ℕ → ℕ → GARun.Draw K) : ℕ → ℕ → ℕ → List (Mem K) → Py (List (Mem K) × List (Eval K))
  | 0, _, _, pop => .ok (pop, [])
  | m + 1, g, cur, pop =>
    match gen c byText cur (d g) pop with
    | .error e => .error e
    | .ok r =>
      match loop c byText d m (g + 1) (cur + 10) r.1 with
      | .error e => .error e
      | .ok s => .ok (s.1, r.2 ++ s.2)

/-- `ngens`, lines 57-61. -/
def ngens (ncases : ℕ) : ℕ := if ncases < 10 then 1 else ncases / 10

/-- `init_pop`, lines 254-285. -/
def initPop (c : Conf K) (d0 : ℕ → GenDraw K) : Py (List (Mem K) × List (Eval K)) :=
  match mapRows (fun _ i => genES c (d0 i)) 0 (List.range 10) with
  | .error e => .error e
  | .ok xs =>
    match evalAll c 1 xs with
    | .error e => .error e
    | .ok evs => .ok (members xs evs, evs)

/-- `run_cases`, lines 551-580: the last population and all evaluations in the order of their numbers. -/
def esRun (c : Conf K) (byText : List (Mem K) → List (Mem K)) (d0 : ℕ → GenDraw K) (d : ℕ → ℕ → GARun.Draw K) (ncases : ℕ) : Py (List (Mem K) × List (Eval K)) :=
  match initPop c d0 with
  | .error e => .error e
  | .ok r =>
    match loop c byText d (ngens ncases - 1) 1 11 r.1 with
    | .error e => .error e
    | .ok s => .ok (s.1, r.2 ++ s.2)

/-- Lines 592-595: `for item in self.population` runs over the keys, which are numbers. -/
def esFailed (pop : List (Mem K)) : Option ℕ := some ((((List.range pop.length).map fun k => Val.int (K := K) k).filter fun v => match v with
  | .str _ => true
  | _ => false).length)

/-- The whole search: `tune.csv` and the summary; `order` is the order in which the pool wrote the rows. -/
def esTune (asc : (Row K → ℕ) → List (Row K) → List (Row K)) (desc : (Row K → K) → List (Row K) → List (Row K)) (order : List (Row K) → List (Row K))
    (c : Conf K) (byText : List (Mem K) → List (Mem K)) (d0 : ℕ → GenDraw K) (d : ℕ → ℕ → GARun.Draw K) (ncases : ℕ) :
    Py (List (Row K) × Py (K × Summary K)) :=
  match esRun c byText d0 d ncases with
  | .error e => .error e
  | .ok r => .ok (finish asc desc c.names.length ncases (esFailed r.1) (order (r.2.filterMap Eval.row)))

end

end Neorl.TuneRun

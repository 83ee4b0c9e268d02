import Verif.InputFile

/-!
# The files of `Monitor`: their names, and `load_results`

`neorl/rl/baselines/shared/monitor.py` lines 25, 38-48 (the name of the file) and 159-208 (`get_monitor_files`, `load_results`).

A file is what its parsing gives: the `t_start` of its first line and its rows; a row is its time and everything else.  pandas sorts with an algorithm that is not stable, so the
sort is an arbitrary function `srt` (in the theorems: one that sorts).  Rounding of times is left out.
-/

set_option linter.unusedSectionVars false
set_option linter.unusedVariables false

namespace Neorl.MonLoad

open Neorl.InputFile (Str)

/-! ### Names -/

/-- `Monitor.EXT`, line 25. -/
def ext : Str := "monitor.csv".toList

/-- Lines 42-46: directory and name of the file for a given directory part and last part; `isdir` if the whole is an existing directory. -/
def fileName (isdir : Bool) (dir : List Str) (last : Str) : List Str × Str :=
  if ext.isSuffixOf last then (dir, last)
  else if isdir then (dir ++ [last], ext)
  else (dir, last ++ '.' :: ext)

/-- `glob(os.path.join(path, "*" + e))`: the star does not match a leading dot. -/
def globEnd (e : Str) (names : List Str) : List Str := names.filter fun n => e.isSuffixOf n && n.head? != some '.'

/-- `get_monitor_files`, line 166, by the names in the directory. -/
def monitorFiles (names : List Str) : List Str := globEnd ext names

/-- Line 177. -/
def allFiles (names : List Str) : List Str := globEnd "monitor.json".toList names ++ monitorFiles names

/-! ### Contents -/

section
variable {K V : Type} [Field K] [LinearOrder K] [IsStrictOrderedRing K]

/-- One line of a log. -/
structure Row (K V : Type) where
  t : K
  data : V
deriving DecidableEq

/-- The first line of a CSV file. -/
inductive First (K : Type)
  | empty | noHash | start (t : K)

/-- A file, by what it holds. -/
inductive Content (K V : Type)
  | csv (first : First K) (rows : List (Row K V))
  | json (start : Option K) (rows : List (Row K V))

/-- Lines 183-201: `t_start` and the rows; a JSON file without episodes has no column `t`. -/
def readFile : Content K V → Py (K × List (Row K V))
  | .csv .empty _ => .error .indexError
  | .csv .noHash _ => .error .assertion
  | .csv (.start t) rows => .ok (t, rows)
  | .json none _ => .error .indexError
  | .json (some t) [] => .error .keyError
  | .json (some t) (r :: rows) => .ok (t, r :: rows)

/-- Reading all files, lines 182-203. -/
def readAll : List (Content K V) → Py (List (K × List (Row K V)))
  | [] => .ok []
  | c :: cs =>
    match readFile c with
    | .error e => .error e
    | .ok x =>
      match readAll cs with
      | .error e => .error e
      | .ok xs => .ok (x :: xs)

/-- A row of the result; `reset_index` keeps the old number in a new column (line 206). -/
structure Out (K V : Type) where
  index : ℕ
  t : K
  data : V
deriving DecidableEq

/-- Lines 202-204: `data_frame['t'] += header['t_start']`, numbered within the file, put one after the other. -/
def joined (xs : List (K × List (Row K V))) : List (Out K V) := xs.flatMap fun x => x.2.zipIdx.map fun p => ⟨p.2, p.1.t + x.1, p.1.data⟩

/-- `min` of a list that is not empty. -/
def least : K → List K → K
  | a, [] => a
  | a, b :: t => least (min a b) t

/-- `load_results`, lines 169-208. -/
def load (srt : List (Out K V) → List (Out K V)) (files : List (Content K V)) : Py (List (Out K V)) :=
  if files = [] then .error .runtimeError
  else
    match readAll files with
    | .error e => .error e
    | .ok [] => .error .valueError
    | .ok (x :: xs) => .ok ((srt (joined (x :: xs))).map fun o => { o with t := o.t - least x.1 (xs.map (·.1)) })

end

end Neorl.MonLoad

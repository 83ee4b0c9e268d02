import Verif.Py
import Verif.AEOStart

/-!
# Which logger is current, and where it writes

Model of `configure`, `reset`, `ScopedConfigure` and `make_output_format` (`neorl/rl/baselines/shared/logger.py` lines 251-272 and 569-634).  Loggers are
numbered in the order of their creation; 0 is `Logger.DEFAULT`, which prints to the terminal and owns no file, so that closing it does nothing.  Opening a file
for writing empties it; `opened` lists every such event.  What the formats write is in the model of the logger (C117); the lines "Logging to ..." and
"Reset logger" are left out.
-/

set_option linter.unusedSectionVars false
set_option linter.unusedVariables false

namespace Neorl.LogConf

/-- Text. -/
abbrev Str := List Char

/-- The formats of `make_output_format`, lines 261-272. -/
inductive Fmt | stdout | log | json | csv | tensorboard
deriving DecidableEq, Repr

/-- The names of the formats, lines 261-272. -/
def parse (s : Str) : Option Fmt :=
  if s = ['s', 't', 'd', 'o', 'u', 't'] then some .stdout
  else if s = ['l', 'o', 'g'] then some .log
  else if s = ['j', 's', 'o', 'n'] then some .json
  else if s = ['c', 's', 'v'] then some .csv
  else if s = ['t', 'e', 'n', 's', 'o', 'r', 'b', 'o', 'a', 'r', 'd'] then some .tensorboard
  else none

/-- The file (or directory of event files) of a format, lines 261-270; none for the terminal. -/
def Fmt.file (suf : Str) : Fmt → Option Str
  | .stdout => none
  | .log => some (['l', 'o', 'g'] ++ suf ++ ['.', 't', 'x', 't'])
  | .json => some (['p', 'r', 'o', 'g', 'r', 'e', 's', 's'] ++ suf ++ ['.', 'j', 's', 'o', 'n'])
  | .csv => some (['p', 'r', 'o', 'g', 'r', 'e', 's', 's'] ++ suf ++ ['.', 'c', 's', 'v'])
  | .tensorboard => some (['t', 'b'] ++ suf)

/-- The environment variables, the temporary directory with the time in it, and the rank of the process. -/
structure Env where
  dir : Option Str
  fmt : Option Str
  fmtMpi : Option Str
  tmp : Str
  rank : ℕ

/-- Arguments of `configure`. -/
structure Args where
  folder : Option Str
  formats : Option (List Str)

/-- Lines 580-583. -/
def folder (e : Env) (a : Args) : Str := (a.folder.orElse fun _ => e.dir).getD e.tmp

/-- `"-rank%03i" % rank`, line 593. -/
def rankSuffix (r : ℕ) : Str := ['-', 'r', 'a', 'n', 'k'] ++ AEO.zfill3 r

/-- Lines 588-595: the suffix and the names of the formats; `filter(None, ...)` drops empty names. -/
def formats (e : Env) (a : Args) : Str × List Str :=
  let r : Str × List Str := match a.formats with
    | some l => ([], l)
    | none =>
      if e.rank = 0 then ([], (e.fmt.getD ['s', 't', 'd', 'o', 'u', 't', ',', 'l', 'o', 'g', ',', 'c', 's', 'v']).splitOn ',')
      else (rankSuffix e.rank, (e.fmtMpi.getD ['l', 'o', 'g']).splitOn ',')
  (r.1, r.2.filter fun f => decide (f ≠ []))

/-- The list of line 596: the formats made, and whether all names were known (`ValueError` otherwise). -/
def makeAll : List Str → List Fmt × Bool
  | [] => ([], true)
  | s :: l =>
    match parse s with
    | none => ([], false)
    | some f => (f :: (makeAll l).1, (makeAll l).2)

/-- The paths opened for a list of formats. -/
def paths (dir suf : Str) (l : List Fmt) : List (Str × Str) := l.filterMap fun f => (f.file suf).map fun n => (dir, n)

/-- Loggers and files: the current logger, the number of loggers made, those closed, the files of each logger, every opening of a file, every line written. -/
structure St where
  current : ℕ
  next : ℕ
  closed : List ℕ
  files : List (List (Str × Str))
  opened : List (Str × Str)
  written : List (ℕ × Str)
deriving DecidableEq, Repr

/-- Line 569. -/
def St.start : St := { current := 0, next := 1, closed := [], files := [[]], opened := [], written := [] }

/-- `Logger.close`, lines 549-554; the default logger owns no file. -/
def St.close (s : St) : St := if s.current = 0 then s else { s with closed := s.current :: s.closed }

/-- `configure`, lines 572-599. -/
def configure (e : Env) (a : Args) (s : St) : St × Option PyErr :=
  let suf := (formats e a).1
  let m := makeAll (formats e a).2
  let ps := paths (folder e a) suf m.1
  let s := { s with opened := s.opened ++ ps }
  if m.2 then ({ s with current := s.next, next := s.next + 1, files := s.files ++ [ps] }, none) else (s, some .valueError)

/-- `reset`, lines 602-609. -/
def reset (s : St) : St := if s.current = 0 then s else { s.close with current := 0 }

/-- Programs that log: one after the other, `configure`, `reset`, writing a line, raising, and `with ScopedConfigure(...):`. -/
inductive Prog
  | skip
  | seq (p q : Prog)
  | configure (a : Args)
  | reset
  | log (v : Str)
  | raise (x : PyErr)
  | scope (a : Args) (p : Prog)

/-- Execution.  A scope is lines 628-634: `__exit__` runs when the body raises too, but not when `configure` in `__enter__` raises; writing to a closed file
is taken as a `ValueError` whatever the format (it does not happen, `C153_open`). -/
def exec (e : Env) : Prog → St → St × Option PyErr
  | .skip, s => (s, none)
  | .seq p q, s =>
    match exec e p s with
    | (s', none) => exec e q s'
    | r => r
  | .configure a, s => configure e a s
  | .reset, s => (LogConf.reset s, none)
  | .log v, s => if s.current ∈ s.closed then (s, some .valueError) else ({ s with written := s.written ++ [(s.current, v)] }, none)
  | .raise x, s => (s, some x)
  | .scope a p, s =>
    match LogConf.configure e a s with
    | (s', some x) => (s', some x)
    | (s', none) => ({ (exec e p s').1.close with current := s.current }, (exec e p s').2)

end Neorl.LogConf

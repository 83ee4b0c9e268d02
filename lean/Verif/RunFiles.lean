import Verif.InputFile

/-!
# The start of a run from an input file

Model of `neorl/scripts.py` (lines 102-195), the name of the log directory in `neorl/parsers/PARSER.py` (lines 33-40), `neorl/utils/initfiles.py` (the whole file) and `run_all` of
`neorl/utils/multiproc.py` (lines 105-151).  Text is a list of characters.  The file system is a function from paths to the files of the directory there (`none`: no such directory); a path is its list of
components, relative to the working directory, and an absolute path begins with an empty component.  Simplified: a rename onto an existing directory is an error (the operating system allows it if the directory
is empty); of the shell that runs `rm -Rf` only the splitting at blanks is modelled; `.` and `..` among the components and symbolic links are not.  The tuning classes and the agents themselves are modelled elsewhere (`TuneFile`,
`TuneRun`, `GARun`, `SavePlot`); here they are names.
-/

set_option linter.unusedSectionVars false
set_option linter.unusedVariables false

namespace Neorl.RunFiles

open Neorl.InputFile (Str split Alg)

/-- Directories and their files. -/
abbrev FS := List Str → Option (Str → Option Str)

/-- PARSER.py lines 37-38: the part of the name before the first dot, and `_log/`. -/
def logDir (file : Str) : Str := (split '.' file).headD [] ++ "_log/".toList

/-- The components of a path. -/
def comps (s : Str) : List Str :=
  match split '/' s with
  | [] => []
  | h :: t => h :: t.filter fun c => c ≠ []

/-- `os.path.exists` of a directory. -/
def has (fs : FS) (p : List Str) : Bool := (fs p).isSome

/-- Removal of a directory with everything below. -/
def rm (fs : FS) (p : List Str) : FS := fun q => if p.isPrefixOf q then none else fs q

/-- `os.system('rm -Rf {}'.format(s))`, initfiles.py line 39: the shell splits at blanks. -/
def shellRm (fs : FS) (s : Str) : FS := ((split ' ' s).filter fun w => w ≠ []).foldl (fun f w => rm f (comps w)) fs

/-- `os.rename` of a directory. -/
def rename (fs : FS) (p q : List Str) : Py FS :=
  if has fs p = false ∨ has fs q.dropLast = false ∨ has fs q = true then .error .runtimeError
  else .ok fun r => if q.isPrefixOf r then fs (p ++ r.drop q.length) else if p.isPrefixOf r then none else fs r

/-- `os.makedirs`: the directory and the missing ones above it. -/
def makedirs (fs : FS) (p : List Str) : Py FS :=
  if has fs p then .error .runtimeError
  else .ok fun q => if q.isPrefixOf p ∧ has fs q = false then some fun _ => none else fs q

/-- `open(path, 'w')` and writing of the text. -/
def openW (fs : FS) (path text : Str) : Py FS :=
  match fs (comps path).dropLast, (comps path).getLast? with
  | some d, some n => .ok fun q => if q = (comps path).dropLast then some fun m => if m = n then some text else d m else fs q
  | _, _ => .error .runtimeError

/-- Line 35. -/
def oldName (log : Str) : Str := "old_".toList ++ log

/-- An operation that leaves the file system as it was when it raises. -/
def lift (fs : FS) : Py FS → FS × Py Unit
  | .ok fs' => (fs', .ok ())
  | .error e => (fs, .error e)

/-- The next operation, unless an exception was raised. -/
def andThen (x : FS × Py Unit) (f : FS → FS × Py Unit) : FS × Py Unit :=
  match x.2 with
  | .ok _ => f x.1
  | .error e => (x.1, .error e)

/-- Lines 42-43 and 45-46. -/
def moveMake (fs : FS) (p o : List Str) : FS × Py Unit := andThen (lift fs (rename fs p o)) fun fs => lift fs (makedirs fs p)

/-- Lines 37-48. -/
def rotate (fs : FS) (log : Str) : FS × Py Unit :=
  if has fs (comps log) ∧ has fs (comps (oldName log)) then moveMake (shellRm fs (oldName log)) (comps log) (comps (oldName log))
  else if has fs (comps log) then moveMake fs (comps log) (comps (oldName log))
  else lift fs (makedirs fs (comps log))

/-- Lines 30-33: the number of names is compared with the size unless the first name is the default. -/
def headerOk (d : Str) (n : ℤ) : List Str → Bool
  | [] => true
  | h :: t => h == d || n == (h :: t).length

/-- Lines 50-61: `caseid`, `reward` and the columns. -/
def names (d : Str) (n : ℤ) (hs : List Str) : List Str :=
  ["caseid".toList, "reward".toList] ++ if hs = [d] then (List.range n.toNat).map fun i => d ++ Nat.toDigits 10 (i + 1) else hs

/-- Lines 66-70 and 73-77: commas between the names, a newline after the last. -/
def line : List Str → Str
  | [] => []
  | [a] => a ++ ['\n']
  | a :: b :: l => a ++ ',' :: line (b :: l)

/-- Lines 63-77. -/
def writeAll (log inp out : Str) : List Str → FS → FS × Py Unit
  | [], fs => (fs, .ok ())
  | m :: ms, fs =>
    andThen (lift fs (openW fs (log ++ m ++ "_inp.csv".toList) inp)) fun fs =>
      andThen (lift fs (openW fs (log ++ m ++ "_out.csv".toList) out)) fun fs => writeAll log inp out ms fs

/-- `initfiles`. -/
def initfiles (methods : List Str) (nx ny : ℤ) (inpH outH : List Str) (log : Str) (fs : FS) : FS × Py Unit :=
  if headerOk ['y'] ny outH = false then (fs, .error .assertion)
  else if headerOk ['x'] nx inpH = false then (fs, .error .assertion)
  else andThen (rotate fs log) fun fs => writeAll log (line (names ['x'] nx inpH)) (line (names ['y'] ny outH)) methods fs

/-! ### The command line -/

/-- The arguments of the command, scripts.py lines 102-108. -/
structure Args where
  input : Option Str
  check : Option Str
  test : Bool
  example_ : Bool
deriving DecidableEq

inductive Act
  | printExample | unitTests | help | run (file : Str)
deriving DecidableEq

/-- Lines 110-124.  An empty file name is false. -/
def dispatch (a : Args) : Act :=
  if a.example_ then .printExample
  else if a.test then .unitTests
  else match a.input with
    | some (c :: f) => .run (c :: f)
    | _ => .help

/-- The tuning classes. -/
inductive TuneClass
  | grid | rand | es (name : Str) | bayes
deriving DecidableEq

/-- Lines 139-150. -/
def tuneClass (method : Str) : Py TuneClass :=
  if method = "gridtune".toList then .ok .grid
  else if method = "randtune".toList then .ok .rand
  else if method = "gatune".toList then .ok (.es "gatune".toList)
  else if method = "bayestune".toList then .ok .bayes
  else if method = "estune".toList then .ok (.es "estune".toList)
  else .error .runtimeError

/-- Lines 154-163: whether the generated cases are run, or the exception. -/
def modeJob : Option Str → Py Bool
  | none => .ok true
  | some m => if m = "run".toList then .ok true else if m = "test".toList then .ok false else .error .runtimeError

/-- Lines 139-163: the class, whose cases are generated, and what happens then. -/
def tuneJob (method : Str) (mode : Option Str) : Py (TuneClass × Py Bool) :=
  match tuneClass method with
  | .error e => .error e
  | .ok c => .ok (c, modeJob mode)

/-- `run_all`, multiproc.py lines 105-151: the processes started, in order. -/
def runAll (flag : Alg → Bool) : List Alg := Alg.all.filter flag

/-- What the run does after the files are made. -/
inductive Job
  | procs (l : List Alg) | nothing | makeEnv
deriving DecidableEq

/-- Lines 177-195: the files, then the job of `neorl_mode`.  The first component is the file system afterwards, also when an exception is raised. -/
def regular (methods : List Str) (nx ny : ℤ) (inpH outH : List Str) (log mode : Str) (flag : Alg → Bool) (fs : FS) : FS × Py Job :=
  match initfiles methods nx ny inpH outH log fs with
  | (fs', .error e) => (fs', .error e)
  | (fs', .ok _) =>
    if mode = "run".toList then (fs', .ok (.procs (runAll flag)))
    else if mode = "test".toList then (fs', .ok .nothing)
    else if mode = "env_only".toList then (fs', .ok .makeEnv)
    else (fs', .error .runtimeError)

end Neorl.RunFiles

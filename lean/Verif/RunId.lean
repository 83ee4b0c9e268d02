import Verif.Py

/-!
# Run directories of TensorBoard logs

Model of `TensorboardWriter.__enter__` and `_get_latest_run_id`, `neorl/rl/baselines/shared/base_class.py` lines 1160-1187.

The log directory is the list of the names in it.  Assumed: the log name has no characters special to `glob` and names are ASCII (`str.isdigit` accepts other digits,
which `int` may refuse).
-/

set_option linter.unusedSectionVars false
set_option linter.unusedVariables false

namespace Neorl.RunId

/-- Text. -/
abbrev Str := List Char

/-- `glob.glob("{}/{}_[0-9]*")`, line 1180. -/
def globbed (name f : Str) : Bool :=
  (name ++ ['_']).isPrefixOf f && match f.drop (name.length + 1) with
    | c :: _ => c.isDigit
    | [] => false

/-- `file_name.split("_")[-1]`, line 1182. -/
def ext (f : Str) : Str := (f.reverse.takeWhile fun c => c ≠ '_').reverse

/-- `"_".join(file_name.split("_")[:-1])`, line 1183. -/
def stem (f : Str) : Str := ((f.reverse.dropWhile fun c => c ≠ '_').drop 1).reverse

/-- `ext.isdigit()`, line 1183. -/
def isDigits (s : Str) : Bool := s ≠ [] && s.all Char.isDigit

/-- `int(ext)`, lines 1183-1184. -/
def value (s : Str) : ℕ := Nat.ofDigitChars 10 s 0

/-- `_get_latest_run_id`, lines 1172-1185. -/
def latest (name : Str) (files : List Str) : ℕ :=
  (files.filter (globbed name)).foldl (fun m f => if name = stem f ∧ isDigits (ext f) ∧ value (ext f) > m then value (ext f) else m) 0

/-- `"{}_{}".format(self.tb_log_name, latest_run_id)`, line 1168. -/
def runName (name : Str) (i : ℕ) : Str := name ++ '_' :: Nat.toDigits 10 i

/-- `__enter__`, lines 1162-1170: the directory written to. -/
def enter (name : Str) (new : Bool) (files : List Str) : Str := runName name (if new then latest name files + 1 else latest name files)

/-- The log directory after a session. -/
def session (name : Str) (new : Bool) (files : List Str) : List Str := if enter name new files ∈ files then files else files ++ [enter name new files]

end Neorl.RunId

import Verif.Py

/-!
# Saving and loading models

Model of `neorl/rl/baselines/shared/save_util.py` and of `_save_to_file*`, `_load_from_file*`, `get_parameters`, `load_parameters` and the check of `policy_kwargs` in
`load` of `neorl/rl/baselines/shared/base_class.py`.

The libraries are modelled by their contracts: `json` at the level of trees (`dumps`, `loads`; the text is not modelled), `cloudpickle` with base64 by a function and its partial inverse
(parameters), `np.savez` as a table from names to arrays in any order, the file system as a table from paths to files.  Dictionary keys are strings, integers, or anything else;
keys that are floats, booleans or `None` are not modelled.  Subclasses of `float` or `int` (numpy scalars) are `obj`.
-/

set_option linter.unusedSectionVars false
set_option linter.unusedVariables false

namespace Neorl.Save

/-- Text. -/
abbrev Str := List Char

/-- Keys of a Python dictionary: strings, integers, others (tuples, objects). -/
inductive Key
  | str (s : Str)
  | int (z : ℤ)
  | other (i : ℕ)
  deriving DecidableEq

/-- Python values.  `obj i attrs` is any other object, with its `__dict__` if it has one. -/
inductive Val
  | null
  | bool (b : Bool)
  | int (z : ℤ)
  | flt (q : ℚ)
  | str (s : Str)
  | list (l : List Val)
  | tuple (l : List Val)
  | dict (es : List (Key × Val))
  | obj (i : ℕ) (attrs : Option (List (Str × Val)))

/-- JSON documents. -/
inductive JVal
  | null
  | bool (b : Bool)
  | int (z : ℤ)
  | flt (q : ℚ)
  | str (s : Str)
  | arr (l : List JVal)
  | obj (es : List (Str × JVal))

/-- Decimal numeral of an integer. -/
def intStr (z : ℤ) : Str := (toString z).toList

/-- Keys in JSON: integers become strings, others are a `TypeError`. -/
def keyStr : Key → Option Str
  | .str s => some s
  | .int z => some (intStr z)
  | .other _ => none

mutual
/-- `json.dumps`: `none` is the `TypeError`. -/
def dumps : Val → Option JVal
  | .null => some .null
  | .bool b => some (.bool b)
  | .int z => some (.int z)
  | .flt q => some (.flt q)
  | .str s => some (.str s)
  | .list l => (dumpsList l).map .arr
  | .tuple l => (dumpsList l).map .arr
  | .dict es => (dumpsEntries es).map .obj
  | .obj _ _ => none
/-- Elements of a list or tuple. -/
def dumpsList : List Val → Option (List JVal)
  | [] => some []
  | v :: l => match dumps v, dumpsList l with
    | some j, some r => some (j :: r)
    | _, _ => none
/-- Entries of a dictionary. -/
def dumpsEntries : List (Key × Val) → Option (List (Str × JVal))
  | [] => some []
  | (k, v) :: l => match keyStr k, dumps v, dumpsEntries l with
    | some s, some j, some r => some ((s, j) :: r)
    | _, _, _ => none
end

/-- `d[k] = v` on a dictionary in insertion order. -/
def dset {κ β : Type} [DecidableEq κ] (k : κ) (v : β) : List (κ × β) → List (κ × β)
  | [] => [(k, v)]
  | e :: es => if e.1 = k then (k, v) :: es else e :: dset k v es

/-- A dictionary filled from pairs. -/
def dfill {κ β : Type} [DecidableEq κ] (acc : List (κ × β)) : List (κ × β) → List (κ × β)
  | [] => acc
  | e :: es => dfill (dset e.1 e.2 acc) es

/-- `d[k]`. -/
def dget {κ β : Type} [DecidableEq κ] (k : κ) (es : List (κ × β)) : Option β := (es.find? fun e => e.1 = k).map Prod.snd

mutual
/-- `json.loads`: objects become dictionaries with string keys, the last of equal keys counts. -/
def loads : JVal → Val
  | .null => .null
  | .bool b => .bool b
  | .int z => .int z
  | .flt q => .flt q
  | .str s => .str s
  | .arr l => .list (loadsList l)
  | .obj es => .dict (dfill [] (loadsEntries es))
/-- Elements of an array. -/
def loadsList : List JVal → List Val
  | [] => []
  | j :: l => loads j :: loadsList l
/-- Entries of an object. -/
def loadsEntries : List (Str × JVal) → List (Key × Val)
  | [] => []
  | (s, j) :: l => (.str s, loads j) :: loadsEntries l
end

/-- `cloudpickle` followed by base64, and back (`none`: `UnpicklingError`); the texts `str(type(x))` and `str(x)`. -/
structure Lib where
  pickle : Val → Str
  unpickle : Str → Option Val
  typeName : Val → Str
  text : Val → Str

/-- `":type:"`, save_util.py line 60. -/
def typeKey : Str := ":type:".toList

/-- `":serialized:"`, save_util.py lines 61 and 109. -/
def serKey : Str := ":serialized:".toList

/-- `is_json_serializable`, save_util.py lines 11-24. -/
def isJson (v : Val) : Bool := (dumps v).isSome

/-- The items listed for an object, save_util.py lines 69-73: those of a dictionary or of `__dict__`. -/
def attrsOf : Val → List (Key × Val)
  | .dict es => es
  | .obj _ (some as) => as.map fun a => (Key.str a.1, a.2)
  | _ => []

/-- What is stored for an item that is not JSON, save_util.py lines 53-80. -/
def envelope (L : Lib) (v : Val) : Val :=
  .dict (dfill [(.str typeKey, .str (L.typeName v)), (.str serKey, .str (L.pickle v))] ((attrsOf v).map fun e => (e.1, if isJson e.2 then e.2 else .str (L.text e.2))))

/-- `data_to_json`, save_util.py lines 27-84. -/
def dataToJson (L : Lib) (data : List (Str × Val)) : Py JVal :=
  match dumps (.dict (data.map fun e => (.str e.1, if isJson e.2 then e.2 else envelope L e.2))) with
  | some j => .ok j
  | none => .error .typeError

/-- One item of `json_to_data`, save_util.py lines 105-128. -/
def readItem (L : Lib) (custom : Option (List (Str × Val))) (k : Str) (v : Val) : Py Val :=
  match custom.bind (dget k) with
  | some c => .ok c
  | none => match v with
    | .dict es => match dget (.str serKey) es with
      | some (.str s) => match L.unpickle s with
        | some x => .ok x
        | none => .error .runtimeError
      | some _ => .error .attributeError
      | none => .ok v
    | _ => .ok v

/-- The loop of `json_to_data`; after `json.loads` all keys are strings. -/
def readItems (L : Lib) (custom : Option (List (Str × Val))) : List (Key × Val) → Py (List (Str × Val))
  | [] => .ok []
  | (.str k, v) :: es => do
    let x ← readItem L custom k v
    let r ← readItems L custom es
    .ok ((k, x) :: r)
  | _ :: es => .error .typeError

/-- `json_to_data`, save_util.py lines 87-130. -/
def jsonToData (L : Lib) (custom : Option (List (Str × Val))) (j : JVal) : Py (List (Str × Val)) :=
  match loads j with
  | .dict es => readItems L custom es
  | _ => .error .attributeError

/-! ### Parameters -/

/-- `bytes_to_params`, save_util.py lines 154-175: `npz` is the archive, `KeyError` for a missing name. -/
def bytesToParams {A : Type} (npz : List (Str × A)) : List Str → Py (List (Str × A))
  | [] => .ok []
  | k :: ks => match dget k npz with
    | none => .error .keyError
    | some a => do
      let r ← bytesToParams npz ks
      .ok ((k, a) :: r)

/-- `get_parameters`, base_class.py lines 243-252: `vars` are the names of the variables in order, `w` their values. -/
def getParameters {A : Type} (vars : List Str) (w : Str → A) : List (Str × A) := vars.map fun k => (k, w k)

/-- The loop of `load_parameters`, base_class.py lines 488-498: the assignments, and the variables not mentioned. -/
def collect {A : Type} (vars : List Str) : List (Str × A) → List Str → Py (List (Str × A) × List Str)
  | [], left => .ok ([], left)
  | (k, a) :: ps, left =>
    if k ∉ vars then .error .keyError
    else if k ∉ left then .error .keyError
    else do
      let r ← collect vars ps (left.filter fun x => x ≠ k)
      .ok ((k, a) :: r.1, r.2)

/-- `load_parameters` with a dictionary, base_class.py lines 482-505: the new values of the variables. -/
def loadDict {A : Type} (vars : List Str) (w : Str → A) (exact : Bool) (ps : List (Str × A)) : Py (Str → A) := do
  let r ← collect vars ps vars
  if exact ∧ r.2 ≠ [] then .error .runtimeError
  else .ok fun k => (dget k r.1).getD (w k)

/-- `load_parameters` with a list, base_class.py lines 466-476. -/
def loadList {A : Type} (vars : List Str) (w : Str → A) (exact : Bool) (l : List A) : Py (Str → A) :=
  if l.length < vars.length then .error .indexError else loadDict vars w exact (vars.zip l)

/-! ### Files -/

/-- A saved model: a zip archive (`data` as JSON, arrays with the list of names), or a pickle. -/
inductive File (A : Type)
  | zip (data : Option JVal) (params : Option (List (Str × A) × List Str))
  | pkl (data : Option (List (Str × Val))) (params : Option (List (Str × A)))

/-- The files by path. -/
abbrev FS (A : Type) := Str → Option (File A)

/-- Write a file. -/
def FS.write {A : Type} (fs : FS A) (p : Str) (f : File A) : FS A := fun q => if q = p then some f else fs q

/-- `data` may be `None`, base_class.py lines 562-563. -/
def dumpData (L : Lib) : Option (List (Str × Val)) → Py (Option JVal)
  | some d => (dataToJson L d).map some
  | none => .ok none

/-- `_save_to_file_zip`, base_class.py lines 552-589; `hasExt` tells whether `os.path.splitext` finds an extension, `perm` is the order inside the archive. -/
def saveZip {A : Type} (L : Lib) (hasExt : Str → Bool) (perm : List (Str × A) → List (Str × A)) (fs : FS A) (p : Str) (data : Option (List (Str × Val))) (params : Option (List (Str × A))) : Py (FS A) := do
  let j ← dumpData L data
  .ok (fs.write (if hasExt p then p else p ++ ".zip".toList) (.zip j (params.map fun ps => (perm ps, ps.map Prod.fst))))

/-- `_save_to_file_cloudpickle`, base_class.py lines 533-549. -/
def savePkl {A : Type} (hasExt : Str → Bool) (fs : FS A) (p : Str) (data : Option (List (Str × Val))) (params : Option (List (Str × A))) : FS A :=
  fs.write (if hasExt p then p else p ++ ".pkl".toList) (.pkl data params)

/-- Which file is opened, base_class.py lines 645-652. -/
def resolve {A : Type} (fs : FS A) (p : Str) : Py (File A) :=
  match fs p with
  | some f => .ok f
  | none => match fs (p ++ ".zip".toList) with
    | some f => .ok f
    | none => .error .valueError

/-- Lines 664-668: no `data` in the archive is `None`. -/
def loadData (L : Lib) (custom : Option (List (Str × Val))) : Option JVal → Py (Option (List (Str × Val)))
  | some j => (jsonToData L custom j).map some
  | none => .ok none

/-- Lines 670-677: no `parameters` in the archive is `None`. -/
def loadParams {A : Type} : Option (List (Str × A) × List Str) → Py (Option (List (Str × A)))
  | some (npz, names) => (bytesToParams npz names).map some
  | none => .ok none

/-- `_load_from_file`, base_class.py lines 629-689; a pickle is read by `_load_from_file_cloudpickle` (the path exists by now, so that its own search for `.pkl` has no effect). -/
def loadFile {A : Type} (L : Lib) (custom : Option (List (Str × Val))) (fs : FS A) (p : Str) : Py (Option (List (Str × Val)) × Option (List (Str × A))) := do
  match ← resolve fs p with
  | .zip j ps =>
    let data ← loadData L custom j
    let params ← loadParams ps
    .ok (data, params)
  | .pkl d ps => .ok (d, ps)

/-- The check in `load`, base_class.py lines 937-940, with the equality of Python. -/
def checkKwargs (eq : Val → Val → Bool) (data : List (Str × Val)) (given : Option Val) : Py Unit :=
  match given with
  | none => .ok ()
  | some g => match dget "policy_kwargs".toList data with
    | none => .error .keyError
    | some s => if eq g s then .ok () else .error .valueError

end Neorl.Save

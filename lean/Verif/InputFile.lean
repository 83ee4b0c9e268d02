import Verif.Py
import Mathlib.Data.List.Infix

/-!
# The input file

Model of `neorl/parsers/PARSER.py` (the whole file), `neorl/parsers/TuneChecker.py` and the tables of `neorl/parsers/ParamList.py`.  Text is a list of characters; Python's `isspace` and `isalpha` are the parameters
`ws` and `alpha`.  `float` on text is a parameter (`none`: ValueError; infinities and nan are not represented, numbers are rationals), `json.loads` with `literal_eval` as fallback is the
parameter `ev`, `cpu_count` and `os.path.exists` are parameters.  A plain `Exception` is `.runtimeError`.  Printing is left out.
-/

set_option linter.unusedSectionVars false
set_option linter.unusedVariables false

namespace Neorl.InputFile

abbrev Str := List Char

/-- Python's classification of characters. -/
structure Chars where
  ws : Char → Bool
  alpha : Char → Bool

/-- `str.strip()`. -/
def strip (C : Chars) (l : Str) : Str := ((l.dropWhile C.ws).reverse.dropWhile C.ws).reverse

/-- `str.split(c)` for a single character. -/
def split (c : Char) : Str → List Str
  | [] => [[]]
  | x :: xs => if x = c then [] :: split c xs else
    match split c xs with
    | [] => [[x]]
    | h :: t => (x :: h) :: t

/-- `line1[:line1.rfind("#")]`, lines 82 and 88; without a `#` the index is -1 and the last character goes. -/
def cutHash (l : Str) : Str := if '#' ∈ l then (l.reverse.dropWhile fun c => c ≠ '#').tail.reverse else l.dropLast

/-- Line 86: as many opening as closing braces. -/
def balanced (l : Str) : Bool := l.count '{' == l.count '}'

/-- Line 81: `'env_data' in line1`. -/
def mentions (l : Str) : Bool := decide ("env_data".toList <:+: l)

/-- The reading loop, lines 77-94, with the lines still to come (each with its newline).  The first argument is `temp_data` while the inner loop 86-91 runs.  `none`: the inner loop never ends, since
`readline` keeps returning the empty string at the end of the file. -/
def readLoop (C : Chars) : Option Str → List Str → Option (List Str)
  | none, [] => some []
  | some _, [] => none
  | none, l :: ls =>
    if mentions l then
      let t := strip C (cutHash l)
      if balanced t then (readLoop C none ls).map (t :: ·) else readLoop C (some t) ls
    else (readLoop C none ls).map (strip C l :: ·)
  | some t, l :: ls =>
    let t := t ++ strip C (cutHash l)
    if balanced t then (readLoop C none ls).map (t :: ·) else readLoop C (some t) ls

/-- Lines 99-100: the first character of a line is refused. -/
def badFirst (C : Chars) : Str → Bool
  | [] => false
  | c :: _ => !C.alpha c && !(c == '#' || c == '{')

/-- Lines 98-110. -/
def clean (C : Chars) (items : List Str) : Py (List Str) :=
  if items.any (badFirst C) then .error .runtimeError else .ok ((items.filter fun s => s ≠ []).filter fun s => s.head? ≠ some '#')

/-- The first line of a card. -/
def readMark (card : Str) : Str := "READ ".toList ++ card

/-- The last line of a card. -/
def endMark (card : Str) : Str := "END ".toList ++ card

/-- `InputParser.__init__`, lines 75-119; the `raise` of a string in line 119 is a TypeError. -/
def readFile (C : Chars) (lines : List Str) : Option (Py (List Str)) :=
  (readLoop C none lines).map fun items => do
    let items ← clean C items
    if readMark "GENERAL".toList ∈ items ∧ endMark "GENERAL".toList ∈ items then .ok items else .error .typeError

/-- A value of a parsed card: text, or the converted `env_data`. -/
inductive Raw (D : Type)
  | str (s : Str)
  | data (d : D)
deriving DecidableEq

section Parse
variable {D : Type} {V : Type}

/-- `d[k] = v`: in place for a known key, else at the end. -/
def dset : List (Str × V) → Str → V → List (Str × V)
  | [], k, v => [(k, v)]
  | (k', v') :: d, k, v => if k' = k then (k, v) :: d else (k', v') :: dset d k v

/-- `d.get(k)`. -/
def dget : List (Str × V) → Str → Option V
  | [], _ => none
  | (k', v') :: d, k => if k' = k then some v' else dget d k

/-- The body of the loop, lines 134-148. -/
def entryOf (ev : Str → Option D) (fields : List Str) : Py (Str × Raw D) :=
  if "env_data".toList ∈ fields then
    match fields with
    | k :: v :: _ =>
      match ev v with
      | none => .error .valueError
      | some d => .ok (k, .data d)
    | _ => .error .valueError
  else
    match fields with
    | k :: v :: _ => .ok (k, .str v)
    | _ => .error .indexError

/-- Line 128: the lines between the first `READ card` and the first `END card`. -/
def blockOf (items : List Str) (card : Str) : Py (List Str) :=
  match items.idxOf? (readMark card), items.idxOf? (endMark card) with
  | some i, some j => .ok ((items.drop (i + 1)).take (j - (i + 1)))
  | _, _ => .error .valueError

/-- `parse_card`, lines 122-151. -/
def parseCard (C : Chars) (ev : Str → Option D) (items : List Str) (card : Str) : Py (List (Str × Raw D)) := do
  let block ← blockOf items card
  let block := block.filter fun s => s.head? ≠ some '#'
  let entries ← block.mapM fun item => entryOf ev ((split '=' item).map (strip C))
  .ok (entries.foldl (fun d e => dset d e.1 e.2) [])

/-- The algorithm cards in the order of `blocks` and `setup_input`. -/
inductive Alg
  | dqn | ppo | a2c | acer | ga | sa
deriving DecidableEq, Repr

def Alg.all : List Alg := [.dqn, .ppo, .a2c, .acer, .ga, .sa]

def Alg.card : Alg → Str
  | .dqn => "DQN".toList
  | .ppo => "PPO".toList
  | .a2c => "A2C".toList
  | .acer => "ACER".toList
  | .ga => "GA".toList
  | .sa => "SA".toList

/-- The blocks of the parser. -/
structure Parsed (D : Type) where
  gen : List (Str × Raw D)
  tune : Option (List (Str × Raw D))
  algs : List (Alg × List (Str × Raw D))
deriving DecidableEq

/-- The test before every card, lines 163-196. -/
def present (items : List Str) (card : Str) : Bool := readMark card ∈ items && endMark card ∈ items

/-- `blocks`, lines 153-206. -/
def blocks (C : Chars) (ev : Str → Option D) (items : List Str) : Py (Parsed D) := do
  let gen ← parseCard C ev items "GENERAL".toList
  let tune ← if present items "TUNE".toList then do
      let t ← parseCard C ev items "TUNE".toList
      if (dget t "method".toList).isSome then .ok (some t) else .error .runtimeError
    else .ok none
  let algs ← (Alg.all.filter fun a => present items a.card).mapM fun a => do
    let b ← parseCard C ev items a.card
    .ok (a, b)
  if tune.isSome then
    if algs.length > 1 then .error .runtimeError
    else if algs.length = 0 then .error .runtimeError
    else .ok ⟨gen, tune, algs⟩
  else .ok ⟨gen, tune, algs⟩

/-! ### Tables -/

/-- The third column of the tables. -/
inductive Ty
  | str | int | float | bool | strvec | vec | dict
deriving DecidableEq

/-- The second column: required, optional, required in special cases. -/
inductive Cat
  | r | o | rs
deriving DecidableEq

/-- Converted values. -/
inductive Val (D : Type)
  | none
  | str (s : Str)
  | int (n : ℤ)
  | flt (x : ℚ)
  | bool (b : Bool)
  | strvec (l : List Str)
  | vec (l : List ℚ)
  | data (d : D)
deriving DecidableEq

/-- A row of the tables. -/
structure Param (D : Type) where
  default : Val D
  cat : Cat
  ty : Ty

abbrev Table (D : Type) := List (Str × Param D)

/-- `gen_dict`, ParamList.py lines 46-60. -/
def genTable : Table D :=
  [("neorl_mode".toList, ⟨.str "run".toList, .o, .str⟩), ("env".toList, ⟨.none, .r, .str⟩), ("env_data".toList, ⟨.none, .o, .dict⟩), ("exepath".toList, ⟨.none, .o, .str⟩),
   ("maxcores".toList, ⟨.int 16, .o, .int⟩), ("daemon".toList, ⟨.bool true, .o, .bool⟩), ("nactions".toList, ⟨.none, .r, .int⟩), ("xsize".toList, ⟨.none, .r, .int⟩),
   ("xsize_plot".toList, ⟨.none, .o, .int⟩), ("ysize".toList, ⟨.none, .r, .int⟩), ("ynames".toList, ⟨.strvec ["y".toList], .o, .strvec⟩), ("xnames".toList, ⟨.strvec ["x".toList], .o, .strvec⟩),
   ("plot_mode".toList, ⟨.str "subplot".toList, .o, .str⟩)]

/-- `tune_dict`, ParamList.py lines 65-73. -/
def tuneTable : Table D :=
  [("flag".toList, ⟨.bool false, .o, .bool⟩), ("ncores".toList, ⟨.int 1, .o, .int⟩), ("mode".toList, ⟨.str "run".toList, .o, .str⟩), ("method".toList, ⟨.none, .r, .str⟩),
   ("n_last_episodes".toList, ⟨.int 50, .o, .int⟩), ("ncases".toList, ⟨.int 100, .o, .int⟩), ("extfiles".toList, ⟨.none, .o, .strvec⟩)]

/-- `dqn_dict`, ParamList.py lines 78-112. -/
def dqnTable : Table D :=
  [("mode".toList, ⟨.str "train".toList, .r, .str⟩), ("time_steps".toList, ⟨.int 50000, .rs, .int⟩), ("flag".toList, ⟨.bool false, .o, .bool⟩),
   ("casename".toList, ⟨.str "dqn".toList, .o, .str⟩), ("ncores".toList, ⟨.int 1, .o, .int⟩), ("gamma".toList, ⟨.flt (99 / 100), .o, .float⟩),
   ("learning_rate".toList, ⟨.flt (1 / 1000), .o, .float⟩), ("buffer_size".toList, ⟨.int 50000, .o, .int⟩), ("exploration_fraction".toList, ⟨.flt (1 / 10), .o, .float⟩),
   ("exploration_final_eps".toList, ⟨.flt (1 / 50), .o, .float⟩), ("exploration_initial_eps".toList, ⟨.flt (1 / 1), .o, .float⟩), ("train_freq".toList, ⟨.int 1, .o, .float⟩),
   ("batch_size".toList, ⟨.int 32, .o, .int⟩), ("double_q".toList, ⟨.bool true, .o, .bool⟩), ("learning_starts".toList, ⟨.int 1000, .o, .int⟩),
   ("target_network_update_freq".toList, ⟨.int 1000, .o, .int⟩), ("prioritized_replay".toList, ⟨.bool false, .o, .bool⟩), ("prioritized_replay_alpha".toList, ⟨.flt (3 / 5), .o, .float⟩),
   ("prioritized_replay_beta0".toList, ⟨.flt (2 / 5), .o, .float⟩), ("model_load_path".toList, ⟨.none, .rs, .str⟩), ("check_freq".toList, ⟨.int 1000, .o, .int⟩),
   ("avg_episodes".toList, ⟨.int 20, .o, .int⟩), ("tensorboard".toList, ⟨.bool false, .o, .bool⟩), ("n_eval_episodes".toList, ⟨.none, .rs, .int⟩), ("render".toList, ⟨.bool false, .o, .bool⟩)]

/-- `ppo_dict`, ParamList.py lines 117-146. -/
def ppoTable : Table D :=
  [("mode".toList, ⟨.str "train".toList, .r, .str⟩), ("time_steps".toList, ⟨.int 50000, .rs, .int⟩), ("flag".toList, ⟨.bool false, .o, .bool⟩),
   ("casename".toList, ⟨.str "ppo".toList, .o, .str⟩), ("ncores".toList, ⟨.int 1, .o, .int⟩), ("n_steps".toList, ⟨.int 128, .o, .int⟩), ("gamma".toList, ⟨.flt (99 / 100), .o, .float⟩),
   ("learning_rate".toList, ⟨.flt (1 / 4000), .o, .float⟩), ("ent_coef".toList, ⟨.flt (1 / 100), .o, .float⟩), ("vf_coef".toList, ⟨.flt (1 / 2), .o, .float⟩),
   ("max_grad_norm".toList, ⟨.flt (1 / 2), .o, .float⟩), ("lam".toList, ⟨.flt (19 / 20), .o, .float⟩), ("nminibatches".toList, ⟨.int 4, .o, .int⟩), ("noptepochs".toList, ⟨.int 4, .o, .int⟩),
   ("cliprange".toList, ⟨.flt (1 / 5), .o, .float⟩), ("cliprange_vf".toList, ⟨.flt (1 / 5), .o, .float⟩), ("check_freq".toList, ⟨.int 1000, .o, .int⟩),
   ("avg_episodes".toList, ⟨.int 20, .o, .int⟩), ("tensorboard".toList, ⟨.bool false, .o, .bool⟩), ("model_load_path".toList, ⟨.none, .rs, .str⟩), ("n_eval_episodes".toList, ⟨.none, .rs, .int⟩),
   ("render".toList, ⟨.bool false, .o, .bool⟩)]

/-- `a2c_dict`, ParamList.py lines 151-178. -/
def a2cTable : Table D :=
  [("mode".toList, ⟨.str "train".toList, .r, .str⟩), ("time_steps".toList, ⟨.int 50000, .rs, .int⟩), ("flag".toList, ⟨.bool false, .o, .bool⟩),
   ("casename".toList, ⟨.str "a2c".toList, .o, .str⟩), ("ncores".toList, ⟨.int 1, .o, .int⟩), ("n_steps".toList, ⟨.int 5, .o, .int⟩), ("gamma".toList, ⟨.flt (99 / 100), .o, .float⟩),
   ("learning_rate".toList, ⟨.flt (7 / 10000), .o, .float⟩), ("vf_coef".toList, ⟨.flt (1 / 4), .o, .float⟩), ("max_grad_norm".toList, ⟨.flt (1 / 2), .o, .float⟩),
   ("ent_coef".toList, ⟨.flt (1 / 100), .o, .float⟩), ("momentum".toList, ⟨.flt (0 / 1), .o, .float⟩), ("alpha".toList, ⟨.flt (99 / 100), .o, .float⟩),
   ("epsilon".toList, ⟨.flt (1 / 100000), .o, .float⟩), ("lr_schedule".toList, ⟨.str "constant".toList, .o, .str⟩), ("model_load_path".toList, ⟨.none, .rs, .str⟩),
   ("check_freq".toList, ⟨.int 1000, .o, .int⟩), ("avg_episodes".toList, ⟨.int 20, .o, .int⟩), ("tensorboard".toList, ⟨.bool false, .o, .bool⟩), ("n_eval_episodes".toList, ⟨.none, .rs, .int⟩),
   ("render".toList, ⟨.bool false, .o, .bool⟩)]

/-- `acer_dict`, ParamList.py lines 183-216. -/
def acerTable : Table D :=
  [("mode".toList, ⟨.str "train".toList, .r, .str⟩), ("time_steps".toList, ⟨.int 50000, .rs, .int⟩), ("flag".toList, ⟨.bool false, .o, .bool⟩),
   ("casename".toList, ⟨.str "acer".toList, .o, .str⟩), ("ncores".toList, ⟨.int 1, .o, .int⟩), ("n_steps".toList, ⟨.int 20, .o, .int⟩), ("gamma".toList, ⟨.flt (99 / 100), .o, .float⟩),
   ("learning_rate".toList, ⟨.flt (7 / 10000), .o, .float⟩), ("q_coef".toList, ⟨.flt (1 / 2), .o, .float⟩), ("max_grad_norm".toList, ⟨.int 10, .o, .float⟩),
   ("ent_coef".toList, ⟨.flt (1 / 100), .o, .float⟩), ("alpha".toList, ⟨.flt (99 / 100), .o, .float⟩), ("lr_schedule".toList, ⟨.str "linear".toList, .o, .str⟩),
   ("rprop_alpha".toList, ⟨.flt (99 / 100), .o, .float⟩), ("rprop_epsilon".toList, ⟨.flt (1 / 100000), .o, .float⟩), ("buffer_size".toList, ⟨.int 5000, .o, .int⟩),
   ("replay_ratio".toList, ⟨.int 4, .o, .float⟩), ("replay_start".toList, ⟨.int 1000, .o, .int⟩), ("correction_term".toList, ⟨.int 10, .o, .float⟩),
   ("trust_region".toList, ⟨.bool true, .o, .bool⟩), ("delta".toList, ⟨.int 1, .o, .float⟩), ("model_load_path".toList, ⟨.none, .rs, .str⟩), ("check_freq".toList, ⟨.int 1000, .o, .int⟩),
   ("avg_episodes".toList, ⟨.int 20, .o, .int⟩), ("tensorboard".toList, ⟨.bool false, .o, .bool⟩), ("n_eval_episodes".toList, ⟨.none, .rs, .int⟩), ("render".toList, ⟨.bool false, .o, .bool⟩)]

/-- `ga_dict`, ParamList.py lines 221-240. -/
def gaTable : Table D :=
  [("flag".toList, ⟨.bool false, .o, .bool⟩), ("mode".toList, ⟨.none, .r, .str⟩), ("pop".toList, ⟨.none, .r, .int⟩), ("lambda".toList, ⟨.none, .o, .int⟩), ("ngen".toList, ⟨.none, .r, .int⟩),
   ("casename".toList, ⟨.str "ga".toList, .o, .str⟩), ("lbound".toList, ⟨.none, .o, .vec⟩), ("ubound".toList, ⟨.none, .o, .vec⟩), ("type".toList, ⟨.none, .o, .strvec⟩),
   ("kbs_path".toList, ⟨.none, .o, .str⟩), ("kbs_frac".toList, ⟨.flt (1 / 10), .o, .float⟩), ("ncores".toList, ⟨.int 1, .o, .int⟩), ("indpb".toList, ⟨.flt (1 / 20), .o, .float⟩),
   ("cxpb".toList, ⟨.flt (1 / 2), .o, .float⟩), ("mutpb".toList, ⟨.flt (1 / 5), .o, .float⟩), ("smin".toList, ⟨.flt (1 / 100), .o, .float⟩), ("smax".toList, ⟨.flt (1 / 2), .o, .float⟩),
   ("check_freq".toList, ⟨.int 1, .o, .int⟩)]

/-- `sa_dict`, ParamList.py lines 245-263. -/
def saTable : Table D :=
  [("flag".toList, ⟨.bool false, .o, .bool⟩), ("steps".toList, ⟨.none, .r, .int⟩), ("casename".toList, ⟨.str "sa".toList, .o, .str⟩), ("ncores".toList, ⟨.int 1, .o, .int⟩),
   ("cooling".toList, ⟨.str "fast".toList, .o, .str⟩), ("swap".toList, ⟨.str "kbs".toList, .r, .str⟩), ("indpb_kbs".toList, ⟨.flt (1 / 2), .o, .float⟩), ("kbs_path".toList, ⟨.none, .rs, .str⟩),
   ("indpb".toList, ⟨.flt (1 / 20), .o, .float⟩), ("lbound".toList, ⟨.none, .o, .vec⟩), ("ubound".toList, ⟨.none, .o, .vec⟩), ("type".toList, ⟨.none, .o, .strvec⟩),
   ("Tmin".toList, ⟨.int 1, .o, .int⟩), ("Tmax".toList, ⟨.int 25000, .o, .int⟩), ("initstate".toList, ⟨.none, .o, .vec⟩), ("check_freq".toList, ⟨.int 50, .o, .int⟩),
   ("avg_step".toList, ⟨.int 50, .o, .int⟩)]

/-- The table of an algorithm. -/
def Alg.table : Alg → Table D
  | .dqn => dqnTable
  | .ppo => ppoTable
  | .a2c => a2cTable
  | .acer => acerTable
  | .ga => gaTable
  | .sa => saTable

/-! ### Checks -/

/-- `str_to_bool`, lines 24-30. -/
def strToBool (s : Str) : Option Bool := if s = "True".toList then some true else if s = "False".toList then some false else none

/-- The conversions, lines 247-258; `none` where they raise.  `env_data` (type `dict`) is not converted. -/
def conv (C : Chars) (num : Str → Option ℚ) : Ty → Raw D → Option (Val D)
  | .str, .str s => some (.str (strip C s))
  | .int, .str s => (num s).map fun x => .int (truncZ x)
  | .float, .str s => (num s).map fun x => .flt x
  | .bool, .str s => (strToBool s).map fun b => .bool b
  | .strvec, .str s => some (.strvec ((split ',' s).map (strip C)))
  | .vec, .str s => (((split ',' s).map (strip C)).mapM num).map fun l => .vec l
  | .dict, .str s => some (.str s)
  | .dict, .data d => some (.data d)
  | _, .data _ => none

/-- The first loop of `check_input`, lines 241-261: unknown names and failed conversions are ValueErrors. -/
def convAll (C : Chars) (num : Str → Option ℚ) (T : Table D) (user : List (Str × Raw D)) : Py (List (Str × Val D)) :=
  user.mapM fun e =>
    match dget T e.1 with
    | none => .error .valueError
    | some p =>
      match conv C num p.ty e.2 with
      | none => .error .valueError
      | some v => .ok (e.1, v)

/-- `parser['mode'][0]`, lines 273 and 276: the first character of the (converted) text. -/
def modeFirst (user : List (Str × Val D)) : Py Str :=
  match dget user "mode".toList with
  | none => .error .keyError
  | some (.str (c :: _)) => .ok [c]
  | some (.str []) => .error .indexError
  | some _ => .error .typeError

/-- Line 273: the special case of `model_load_path`; lines 276: of `time_steps`. -/
def special (user : List (Str × Val D)) (k : Str) : Py Unit := do
  if k = "model_load_path".toList then
    let m ← modeFirst user
    if m ∈ ["test".toList, "continue".toList] then .error .runtimeError else .ok ()
  else if k = "time_steps".toList then
    let m ← modeFirst user
    if m ∈ ["train".toList, "continue".toList] then .error .runtimeError else .ok ()
  else .ok ()

/-- The second loop, lines 263-277. -/
def checkParams (user : List (Str × Val D)) : Table D → Py Unit
  | [] => .ok ()
  | (k, p) :: rest =>
    if p.cat = .r ∧ (dget user k).isNone then .error .runtimeError
    else if p.cat = .rs ∧ (dget user k).isNone then do
      special user k
      checkParams user rest
    else checkParams user rest

/-- `parser['mode'] in [...]`. -/
def modeIs (user : List (Str × Val D)) (m : Str) : Py Bool :=
  match dget user "mode".toList with
  | none => .error .keyError
  | some (.str s) => .ok (s == m)
  | some _ => .ok false

/-- `if parser['mode'] in [...]: except_var=[...]; if len(except_var) > 0: raise`. -/
def forbid (b : Bool) (bad : List Str) : Py Unit := if b = true ∧ bad ≠ [] then .error .runtimeError else .ok ()

/-- Lines 281-295, for the cards DQN, PPO, A2C and ACER. -/
def modeRules (user : List (Str × Val D)) : Py Unit := do
  let train ← modeIs user "train".toList
  forbid train (["model_load_path".toList, "n_eval_episodes".toList, "render".toList].filter fun k => (dget user k).isSome)
  let cont ← modeIs user "continue".toList
  forbid cont (["n_eval_episodes".toList, "render".toList].filter fun k => (dget user k).isSome)
  let test ← modeIs user "test".toList
  forbid test ((user.map Prod.fst).filter fun k => k ∉ ["casename".toList, "mode".toList, "model_load_path".toList, "n_eval_episodes".toList, "render".toList])

/-- The cards whose modes are checked, line 280. -/
def Alg.rl : Alg → Bool
  | .dqn | .ppo | .a2c | .acer => true
  | .ga | .sa => false

/-- `check_input` for an algorithm card. -/
def checkAlg (C : Chars) (num : Str → Option ℚ) (T : Table D) (a : Alg) (user : List (Str × Raw D)) : Py (List (Str × Val D)) := do
  let u ← convAll C num T user
  checkParams u T
  if a.rl then modeRules u else .ok ()
  .ok u

/-- `check_input` for the GENERAL card, with lines 299-302. -/
def checkGen (C : Chars) (num : Str → Option ℚ) (T : Table D) (user : List (Str × Raw D)) : Py (List (Str × Val D)) := do
  let u ← convAll C num T user
  checkParams u T
  if (dget u "xsize_plot".toList).isNone then
    match dget u "xsize".toList with
    | some v => .ok (u ++ [("xsize_plot".toList, v)])
    | none => .error .keyError
  else .ok u

/-! ### Setup -/

/-- The dictionary of a card after the user's values are entered. -/
def override (T : Table D) (user : List (Str × Val D)) : List (Str × Val D) := T.map fun r => (r.1, (dget user r.1).getD r.2.default)

/-- The same for an algorithm card: `flag` is set to True before (lines 365, 375, 394, 412, 430, 439). -/
def overrideAlg (T : Table D) (user : List (Str × Val D)) : List (Str × Val D) :=
  T.map fun r => (r.1, (dget user r.1).getD (if r.1 = "flag".toList then .bool true else r.2.default))

/-- An entry used as an integer. -/
def getInt (d : List (Str × Val D)) (k : Str) : Py ℤ :=
  match dget d k with
  | none => .error .keyError
  | some (.int n) => .ok n
  | some _ => .error .typeError

/-- Lines 380-386 (PPO), 399-405 (A2C), 417-423 (ACER). -/
def roundUp (freq cores : ℤ) : ℤ := if freq % cores ≠ 0 then freq + cores - freq % cores else freq

/-- The cards that round `check_freq`. -/
def Alg.rounds : Alg → Bool
  | .ppo | .a2c | .acer => true
  | _ => false

def adjust (a : Alg) (d : List (Str × Val D)) : Py (List (Str × Val D)) :=
  if a.rounds then do
    let n ← getInt d "ncores".toList
    if n > 1 then do
      let f ← getInt d "check_freq".toList
      .ok (dset d "check_freq".toList (.int (roundUp f n)))
    else .ok d
  else .ok d

/-- What `setup_input` leaves behind: dictionaries, `methods` and `used_cores`. -/
structure Setup (D : Type) where
  gen : List (Str × Val D)
  cards : List (Alg × List (Str × Val D))
  methods : List (Val D)
  used : ℤ
deriving DecidableEq

/-- One algorithm card, lines 362-444. -/
def setupCard (C : Chars) (num : Str → Option ℚ) (tab : Alg → Table D) (a : Alg) (user : List (Str × Raw D)) (s : Setup D) : Py (Setup D) := do
  let u ← checkAlg C num (tab a) a user
  let d ← adjust a (overrideAlg (tab a) u)
  match dget d "casename".toList with
  | none => .error .keyError
  | some m => do
    let n ← getInt d "ncores".toList
    .ok ⟨s.gen, s.cards ++ [(a, d)], s.methods ++ [m], s.used + n⟩

def setupCards (C : Chars) (num : Str → Option ℚ) (tab : Alg → Table D) : List (Alg × List (Str × Raw D)) → Setup D → Py (Setup D)
  | [], s => .ok s
  | (a, user) :: rest, s => do
    let s ← setupCard C num tab a user s
    setupCards C num tab rest s

/-- `max_cores`, lines 346-354: `none` if not given by the user. -/
def maxCores (cpus : ℤ) (u : List (Str × Val D)) : Py (Option ℤ) :=
  match dget u "maxcores".toList with
  | none => .ok none
  | some (.int n) => .ok (some (if n ≤ 0 then cpus else n))
  | some _ => .error .typeError

/-- `setup_input`, lines 332-447. -/
def setup (C : Chars) (num : Str → Option ℚ) (cpus : ℤ) (genT : Table D) (tab : Alg → Table D) (p : Parsed D) : Py (Setup D) := do
  let g ← checkGen C num genT p.gen
  let mc ← maxCores cpus g
  let s ← setupCards C num tab p.algs ⟨override genT g, [], [], 0⟩
  match mc with
  | none => .ok s
  | some m => if s.used ≤ m then .ok s else .error .assertion

/-! ### The TUNE card -/

/-- TuneChecker.py lines 58-70: as `conv`, with `bool(text)`. -/
def convTune (C : Chars) (num : Str → Option ℚ) : Ty → Raw D → Option (Val D)
  | .bool, .str s => some (.bool (s ≠ []))
  | ty, r => conv C num ty r

/-- Lines 86-89: the external files exist. -/
def extOk (ex : Str → Bool) (u : List (Str × Val D)) : Py Unit :=
  match dget u "extfiles".toList with
  | some (.strvec fs) => if fs.all ex then .ok () else .error .runtimeError
  | _ => .ok ()

/-- `TuneChecker.check_input`, lines 33-95; names with braces are the hyperparameters and kept as they are. -/
def tuneCheck (C : Chars) (num : Str → Option ℚ) (ex : Str → Bool) (T : Table D) (user : List (Str × Raw D)) : Py (List (Str × Val D)) := do
  let u : List (Str × Val D) ← user.mapM fun e =>
    if '{' ∈ e.1 ∨ '}' ∈ e.1 then
      match e.2 with
      | .str s => .ok (e.1, .str s)
      | .data d => .ok (e.1, .data d)
    else
      match dget T e.1 with
      | none => .error .valueError
      | some p =>
        match convTune C num p.ty e.2 with
        | none => .error .valueError
        | some v => .ok (e.1, v)
  if T.any fun r => r.2.cat = .r ∧ (dget u r.1).isNone then .error .runtimeError
  let d := u.foldl (fun d e => dset d e.1 e.2) (T.map fun r => (r.1, r.2.default))
  extOk ex u
  .ok (dset (d.filter fun e => match e.2 with | .none => false | _ => true) "flag".toList (.bool true))

end Parse

end Neorl.InputFile

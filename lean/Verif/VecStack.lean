import Verif.Py

/-!
# Frame stacking and nan checking

Model of `VecFrameStack` (`neorl/rl/baselines/shared/vec_env/vec_frame_stack.py`) and `VecCheckNan` (`.../vec_check_nan.py`).

* The answers of the wrapped environments are arbitrary, a run is the list of what they answer.
* Frame stack: observations with one axis of `d` entries.  Arrays live in a heap, because `reset` writes into an array it has already given away.
* Nan check: an array is the list of its entries, each a number, an infinity or nan; the text of the message is kept as data.
-/

set_option linter.unusedSectionVars false
set_option linter.unusedVariables false

namespace Neorl.VecStack

variable {K : Type} [Zero K] {n : ℕ}

/-- `np.roll(row, shift=-d)`. -/
def roll (d : ℕ) (row : List K) : List K := row.drop d ++ row.take d

/-- `row[:-d]` followed by other entries: `np.concatenate((row[:-d], o))`, and the effect of `row[-d:] = o`. -/
def putLast (d : ℕ) (row o : List K) : List K := row.take (row.length - d) ++ o

/-- What the wrapped environments answer: the observations of a reset; or observations, `dones` and the entry `terminal_observation` of the infos, if there. -/
inductive Ev (n : ℕ) (K : Type)
  | reset (obs : Fin n → List K)
  | step (obs : Fin n → List K) (dones : Fin n → Bool) (term : Fin n → Option (List K))

/-- An array with one row per environment. -/
abbrev Arr (n : ℕ) (K : Type) := Fin n → List K

/-- The arrays allocated so far, and which of them `self.stackedobs` is. -/
structure St (n : ℕ) (K : Type) where
  heap : List (Arr n K)
  cur : ℕ

/-- The array `self.stackedobs`. -/
def St.arr (s : St n K) : Arr n K := s.heap.getD s.cur fun _ => []

/-- `__init__`, vec_frame_stack.py lines 17-25. -/
def init (n nStack d : ℕ) : St n K := { heap := [fun _ => List.replicate (nStack * d) 0], cur := 0 }

/-- What is returned: which array, and the entries `terminal_observation`. -/
structure Out (n : ℕ) (K : Type) where
  ref : ℕ
  term : Fin n → Option (List K)

/-- The new row of one environment in `step_wait`: rolled (line 30), zeroed if done (line 42), the observation written at the end (line 43). -/
def stepRow (d : ℕ) (row : List K) (done : Bool) (obs : List K) : List K :=
  putLast d (if done then List.replicate (roll d row).length 0 else roll d row) obs

/-- The new terminal observation, lines 32-38. -/
def stepTerm (d : ℕ) (row : List K) (done : Bool) (term : Option (List K)) : Option (List K) :=
  if done then term.map fun t => putLast d (roll d row) t else term

/-- `step_wait`, lines 27-44.  The loop over the environments treats each row on its own. -/
def stepWait (d : ℕ) (s : St n K) (obs : Fin n → List K) (dones : Fin n → Bool) (term : Fin n → Option (List K)) : St n K × Out n K :=
  ({ heap := s.heap ++ [fun i => stepRow d (s.arr i) (dones i) (obs i)], cur := s.heap.length },
    { ref := s.heap.length, term := fun i => stepTerm d (s.arr i) (dones i) (term i) })

/-- `reset`, lines 46-53: the present array is overwritten. -/
def reset (d : ℕ) (s : St n K) (obs : Fin n → List K) : St n K × Out n K :=
  ({ s with heap := s.heap.set s.cur fun i => putLast d (List.replicate (s.arr i).length 0) (obs i) }, { ref := s.cur, term := fun _ => none })

/-- One call. -/
def exec (d : ℕ) (s : St n K) : Ev n K → St n K × Out n K
  | .reset obs => reset d s obs
  | .step obs dones term => stepWait d s obs dones term

/-- A run. -/
def run (d : ℕ) : St n K → List (Ev n K) → St n K × List (Out n K)
  | s, [] => (s, [])
  | s, e :: es => ((run d (exec d s e).1 es).1, (exec d s e).2 :: (run d (exec d s e).1 es).2)

/-- `np.repeat(low, n_stack, axis=-1)`, lines 21-22: each entry is repeated. -/
def repeatEach (nStack : ℕ) (l : List K) : List K := l.flatMap fun v => List.replicate nStack v

/-! ### Checking for nan and infinities -/

/-- An entry of an array of floats. -/
inductive Fl (K : Type)
  | num (v : K)
  | inf (neg : Bool)
  | nan
deriving DecidableEq

def Fl.isNan {K : Type} : Fl K → Bool
  | .nan => true
  | _ => false

def Fl.isInf {K : Type} : Fl K → Bool
  | .inf _ => true
  | _ => false

/-- The arguments of the constructor, vec_check_nan.py line 19. -/
structure Conf where
  raiseException : Bool
  warnOnce : Bool
  checkInf : Bool

/-- Where a message says that the values come from, lines 74-80. -/
inductive Origin (K : Type)
  | atReset
  | action (a : List (Fl K))
  | model (obs : Option (List (Fl K)))
deriving DecidableEq

/-- A message: what was found in which array, and the origin. -/
structure Msg (K : Type) where
  found : List (String × String)
  origin : Origin K
deriving DecidableEq

/-- The attributes, and `given`: the actions passed to the wrapped environments. -/
structure Chk (K : Type) where
  actions : Option (List (Fl K))
  observations : Option (List (Fl K))
  warned : Bool
  given : List (List (Fl K))

/-- `__init__`, lines 19-26. -/
def chk0 (K : Type) : Chk K := { actions := none, observations := none, warned := false, given := [] }

/-- The loop over the arrays, lines 55-62. -/
def findBad {K : Type} (c : Conf) : List (String × List (Fl K)) → List (String × String)
  | [] => []
  | (name, val) :: rest =>
    (if c.checkInf && val.any Fl.isInf then [(name, "inf")] else []) ++ (if val.any Fl.isNan then [(name, "nan")] else []) ++ findBad c rest

/-- The result of a check: the exception, or the warning if any. -/
inductive Res (K : Type)
  | raised (m : Msg K)
  | done (w : Option (Msg K))
deriving DecidableEq

/-- `_check_val`, lines 50-85. -/
def checkVal {K : Type} (c : Conf) (asyncStep : Bool) (vals : List (String × List (Fl K))) (s : Chk K) : Chk K × Res K :=
  if !c.raiseException && c.warnOnce && s.warned then (s, .done none)
  else if findBad c vals = [] then (s, .done none)
  else
    let m : Msg K := { found := findBad c vals
                       origin := if !asyncStep then (match s.actions with | none => .atReset | some a => .action a) else .model s.observations }
    ({ s with warned := true }, if c.raiseException then .raised m else .done (some m))

/-- A call of the wrapper with what the wrapped environments answer. -/
inductive Call (K : Type)
  | async (actions : List (Fl K))
  | wait (obs rews : List (Fl K))
  | reset (obs : List (Fl K))

/-- `step_async`, `step_wait` and `reset`, lines 28-48.  (`news` is an array of booleans and never contains nan.) -/
def call {K : Type} (c : Conf) (s : Chk K) : Call K → Chk K × Res K
  | .async a =>
    match checkVal c true [("actions", a)] s with
    | (s1, .raised m) => (s1, .raised m)
    | (s1, .done w) => ({ s1 with actions := some a, given := s1.given ++ [a] }, .done w)
  | .wait o r =>
    match checkVal c false [("observations", o), ("rewards", r), ("news", [])] s with
    | (s1, .raised m) => (s1, .raised m)
    | (s1, .done w) => ({ s1 with observations := some o }, .done w)
  | .reset o =>
    match checkVal c false [("observations", o)] { s with actions := none } with
    | (s1, .raised m) => (s1, .raised m)
    | (s1, .done w) => ({ s1 with observations := some o }, .done w)

/-- A sequence of calls (the caller goes on after an exception). -/
def calls {K : Type} (c : Conf) : Chk K → List (Call K) → Chk K × List (Res K)
  | s, [] => (s, [])
  | s, e :: es => ((calls c (call c s e).1 es).1, (call c s e).2 :: (calls c (call c s e).1 es).2)

end Neorl.VecStack

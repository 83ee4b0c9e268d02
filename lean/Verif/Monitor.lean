import Verif.Py

/-!
# Monitor and evaluate_policy

Model of `neorl/rl/baselines/shared/monitor.py` (class `Monitor`) and `shared/evaluation.py`.

* The time stamps and the file are left out: the rows written are a list.  Rounding to six decimals is an arbitrary function `rnd`.
* An environment is a machine whose calls can raise; `predict` of the model is an arbitrary function with a hidden state for recurrent policies.
-/

set_option linter.unusedSectionVars false
set_option linter.unusedVariables false

namespace Neorl.Monitor

variable {K V E O A S : Type}

/-! ### Monitor -/

/-- Arguments of the constructor, lines 28-33. -/
structure Cfg (K : Type) where
  early : Bool
  resetKeys : List String
  infoKeys : List String
  rnd : K → K

/-- A row of the log: `r`, `l`, the values of `info_keywords` and those of `reset_keywords`. -/
structure Line (K V : Type) where
  r : K
  l : ℕ
  info : List (String × V)
  reset : List (String × V)

/-- The attributes, lines 52-61; `reset` is `current_reset_info`. -/
structure Mon (K V : Type) where
  rewards : Option (List K)
  needsReset : Bool
  epRews : List K
  epLens : List ℕ
  total : ℕ
  resetInfo : List (String × V)
  rows : List (Line K V)

/-- `__init__`. -/
def new : Mon K V := ⟨none, true, [], [], 0, [], []⟩

/-- `d[key] = value` on a dict. -/
def put (d : List (String × V)) (k : String) (v : V) : List (String × V) :=
  if k ∈ d.map Prod.fst then d.map fun p => if p.1 = k then (k, v) else p else d ++ [(k, v)]

/-- The loop over `reset_keywords`, lines 75-79. -/
def resetLoop (kw : String → Option V) : List String → List (String × V) → List (String × V) × Py Unit
  | [], d => (d, .ok ())
  | k :: ks, d =>
    match kw k with
    | none => (d, .error .valueError)
    | some v => resetLoop kw ks (put d k v)

/-- `reset` without the call to the environment's `reset` (line 80), which follows if this returns: lines 70-79. -/
def reset (c : Cfg K) (kw : String → Option V) (m : Mon K V) : Mon K V × Py Unit :=
  if !c.early && !m.needsReset then (m, .error .runtimeError)
  else
    let r := resetLoop kw c.resetKeys m.resetInfo
    ({ m with rewards := some [], needsReset := false, resetInfo := r.1 }, r.2)

/-- Lines 89-90 of `step`: the refusal, before the environment is called. -/
def check (m : Mon K V) : Py Unit := if m.needsReset then .error .runtimeError else .ok ()

/-- The loop over `info_keywords`, lines 98-99. -/
def infoLoop (info : String → Option V) : List String → Py (List (String × V))
  | [] => .ok []
  | k :: ks =>
    match info k with
    | none => .error .keyError
    | some v =>
      match infoLoop info ks with
      | .error e => .error e
      | .ok l => .ok ((k, v) :: l)

/-- The rest of `step`, lines 92-110: `rew`, `done`, `info` are what the environment returned; also the value put into `info['episode']`. -/
def record [Add K] [Zero K] (c : Cfg K) (rew : K) (done : Bool) (info : String → Option V) (m : Mon K V) : Mon K V × Py (Option (Line K V)) :=
  match m.rewards with
  | none => (m, .error .attributeError)
  | some rs =>
    let m1 := { m with rewards := some (rs ++ [rew]) }
    if done then
      let m2 := { m1 with needsReset := true }
      match infoLoop info c.infoKeys with
      | .error e => (m2, .error e)
      | .ok l =>
        let line : Line K V := ⟨c.rnd (rs ++ [rew]).sum, (rs ++ [rew]).length, l, m.resetInfo⟩
        ({ m2 with epRews := m.epRews ++ [(rs ++ [rew]).sum], epLens := m.epLens ++ [(rs ++ [rew]).length], rows := m.rows ++ [line], total := m.total + 1 }, .ok (some line))
    else ({ m1 with total := m.total + 1 }, .ok none)

/-- A call of `reset` or of `step` (with what the environment would answer). -/
inductive Call (K V : Type)
  | reset (kw : String → Option V)
  | step (rew : K) (done : Bool) (info : String → Option V)

/-- One call; the flag says whether it returned. -/
def call [Add K] [Zero K] (c : Cfg K) (m : Mon K V) : Call K V → Mon K V × Bool
  | .reset kw => ((reset c kw m).1, (reset c kw m).2.isOk)
  | .step r d info =>
    match check m with
    | .error _ => (m, false)
    | .ok _ => ((record c r d info m).1, (record c r d info m).2.isOk)

/-- Calls one after the other (exceptions are caught); which of them returned. -/
def run [Add K] [Zero K] (c : Cfg K) : Mon K V → List (Call K V) → Mon K V × List Bool
  | m, [] => (m, [])
  | m, x :: xs =>
    let r := call c m x
    ((run c r.1 xs).1, r.2 :: (run c r.1 xs).2)

/-! ### Environments as machines -/

/-- An environment. -/
structure Machine (E O A K : Type) where
  reset : E → Py (E × O)
  step : E → A → Py (E × O × K × Bool)

/-- `Monitor(env, None, allow_early_resets=early)`. -/
def monitored [Add K] [Zero K] (early : Bool) (env : Machine E O A K) : Machine (Mon K Unit × E) O A K where
  reset := fun s =>
    match reset ⟨early, [], [], id⟩ (fun _ => none) s.1 with
    | (_, .error e) => .error e
    | (m, .ok _) =>
      match env.reset s.2 with
      | .error e => .error e
      | .ok (e, o) => .ok ((m, e), o)
  step := fun s a =>
    match check s.1 with
    | .error e => .error e
    | .ok _ =>
      match env.step s.2 a with
      | .error e => .error e
      | .ok (e, o, r, d) =>
        match record ⟨early, [], [], id⟩ r d (fun _ => none) s.1 with
        | (_, .error e) => .error e
        | (m, .ok _) => .ok ((m, e), o, r, d)

/-- `DummyVecEnv` with one environment (dummy_vec_env.py lines 42-54): it resets itself at the end of an episode. -/
def vec1 (env : Machine E O A K) : Machine E O A K where
  reset := env.reset
  step := fun e a =>
    match env.step e a with
    | .error x => .error x
    | .ok (e1, o1, r, d) =>
      if d then
        match env.reset e1 with
        | .error x => .error x
        | .ok (e2, o2) => .ok (e2, o2, r, d)
      else .ok (e1, o1, r, d)

/-! ### evaluate_policy -/

/-- The inner loop, evaluation.py lines 36-45: at most `fuel` steps; `none` if it has not ended by then. -/
def episode [Add K] (env : Machine E O A K) (predict : O → Option S → A × S) : ℕ → E → O → Option S → K → ℕ → Py (Option (E × K × ℕ))
  | 0, _, _, _, _, _ => .ok none
  | fuel + 1, e, o, st, acc, len =>
    let p := predict o st
    match env.step e p.1 with
    | .error x => .error x
    | .ok (e1, o1, r, d) => if d then .ok (some (e1, acc + r, len + 1)) else episode env predict fuel e1 o1 (some p.2) (acc + r) (len + 1)

/-- The loop over the episodes, lines 31-47. -/
def episodes [Add K] [Zero K] (env : Machine E O A K) (predict : O → Option S → A × S) (fuel : ℕ) : ℕ → E → Py (Option (E × List (K × ℕ)))
  | 0, e => .ok (some (e, []))
  | n + 1, e =>
    match env.reset e with
    | .error x => .error x
    | .ok (e1, o1) =>
      match episode env predict fuel e1 o1 none 0 0 with
      | .error x => .error x
      | .ok none => .ok none
      | .ok (some (e2, r, l)) =>
        match episodes env predict fuel n e2 with
        | .error x => .error x
        | .ok none => .ok none
        | .ok (some (e3, rs)) => .ok (some (e3, (r, l) :: rs))

/-- The end, lines 49-57, for at least one episode: the mean reward, after the comparison with the threshold. -/
def verdict [Field K] [LinearOrder K] (thr : Option K) (rs : List (K × ℕ)) : Py K :=
  let mean := (rs.map Prod.fst).sum / rs.length
  match thr with
  | none => .ok mean
  | some t => if t < mean then .ok mean else .error .assertion

end Neorl.Monitor

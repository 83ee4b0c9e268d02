import Verif.Py
import Mathlib.Data.List.FinRange
import Mathlib.Order.Defs.LinearOrder

/-!
# Callbacks of the RL baselines

Model of `neorl/rl/baselines/shared/callbacks.py`.

* A callback is a machine: `on_step` with the model's `num_timesteps` gives a new state and what the Python function returns, of which only three things matter: the object `False`, any
  other false value (`None`, `np.False_`, `0`), or a true value.
* A child reads its `parent` attribute; the parent is passed along: nothing, a parent without `best_mean_reward`, or one with it.
* Evaluating the policy, saving the model, printing: the mean reward of the k-th evaluation is an arbitrary function of k, saved models are recorded with `num_timesteps`.
-/

set_option linter.unusedSectionVars false
set_option linter.unusedVariables false

namespace Neorl.Callbacks

/-- The value returned by `on_step`. -/
inductive Ret
  | no
  | falsy
  | truthy
deriving DecidableEq

/-- Python's `a and b`. -/
def Ret.and : Ret → Ret → Ret
  | .truthy, b => b
  | a, _ => a

/-- What `self.parent` is; `best none` is a parent whose `best_mean_reward` is `-inf`. -/
inductive Parent (K : Type)
  | absent
  | plain
  | best (b : Option K)

/-- A callback: its state, and `on_step` (callbacks.py lines 83-95) including the count of calls. -/
structure Mach (σ K : Type) where
  onStep : σ → ℕ → Parent K → Py (σ × Ret)

variable {σ K : Type} {n : ℕ}

/-- A run: `on_step` is called with these values of `num_timesteps`. -/
def feed (m : Mach σ K) (p : Parent K) : σ → List ℕ → Py (σ × List Ret)
  | s, [] => .ok (s, [])
  | s, t :: ts =>
    match m.onStep s t p with
    | .error e => .error e
    | .ok (s1, r) =>
      match feed m p s1 ts with
      | .error e => .error e
      | .ok (s2, rs) => .ok (s2, r :: rs)

/-- The training loops (e.g. deepq/dqn.py lines 194-220): after each environment step the callback is called, training goes on unless it `is False`.  Returns the values of
`num_timesteps` at which a step was made. -/
def train (m : Mach σ K) : σ → List ℕ → Py (σ × List ℕ)
  | s, [] => .ok (s, [])
  | s, t :: ts =>
    match m.onStep s t .absent with
    | .error e => .error e
    | .ok (s1, .no) => .ok (s1, [t])
    | .ok (s1, _) =>
      match train m s1 ts with
      | .error e => .error e
      | .ok (s2, l) => .ok (s2, t :: l)

/-- The loop of `CallbackList._on_step`, lines 164-169.  The components do not have the list as parent. -/
def listLoop (ms : Fin n → Mach σ K) (t : ℕ) : List (Fin n) → (Fin n → σ) → Ret → Py ((Fin n → σ) × Ret)
  | [], s, acc => .ok (s, acc)
  | i :: is, s, acc =>
    match (ms i).onStep (s i) t .absent with
    | .error e => .error e
    | .ok (si, r) => listLoop ms t is (Function.update s i si) (r.and acc)

/-- `CallbackList`, lines 141-178. -/
def callbackList (ms : Fin n → Mach σ K) : Mach (Fin n → σ) K :=
  ⟨fun s t _ => listLoop ms t (List.finRange n) s .truthy⟩

/-- `CheckpointCallback`, lines 181-206; the state is `n_calls` and the list of names (their number of steps) under which the model was saved. -/
def checkpoint (freq : ℕ) : Mach (ℕ × List ℕ) K :=
  ⟨fun s t _ =>
    if freq = 0 then .error .zeroDivision
    else .ok ((s.1 + 1, if (s.1 + 1) % freq = 0 then s.2 ++ [t] else s.2), .truthy)⟩

/-- `EveryNTimesteps`, lines 359-380; the state is `last_time_trigger`, the times at which the event was triggered, and the state of the child. -/
structure EverySt (σ : Type) where
  last : ℕ
  trig : List ℕ
  child : σ

def everyN (k : ℕ) (c : Mach σ K) : Mach (EverySt σ) K :=
  ⟨fun s t _ =>
    if (k : ℤ) ≤ (t : ℤ) - s.last then
      match c.onStep s.child t .plain with
      | .error e => .error e
      | .ok (c1, r) => .ok ({ last := t, trig := s.trig ++ [t], child := c1 }, r)
    else .ok (s, .truthy)⟩

/-- `best < v` where `none` is `-inf`. -/
def below [LT K] [DecidableLT K] (b : Option K) (v : K) : Bool := match b with | none => true | some b => decide (b < v)

/-- The attributes of `EvalCallback`: `calls` is `n_calls`, `means` the mean rewards of the evaluations so far, `best` and `last` are `best_mean_reward` and `last_mean_reward`
(`none` is `-inf`), `saved` records the mean reward of each model saved as best model. -/
structure EvalSt (σ K : Type) where
  calls : ℕ
  means : List K
  best : Option K
  last : Option K
  saved : List K
  child : σ

/-- `EvalCallback._on_step`, lines 286-327.  `ev k` is the mean reward found by evaluation number `k`; `c = none` is no callback on a new best. -/
def evalStep [LT K] [DecidableLT K] (freq : ℕ) (ev : ℕ → K) (c : Option (Mach σ K)) (s : EvalSt σ K) (t : ℕ) : Py (EvalSt σ K × Ret) :=
  let s1 := { s with calls := s.calls + 1 }
  if 0 < freq ∧ s1.calls % freq = 0 then
    let mean := ev s1.means.length
    let s2 := { s1 with means := s1.means ++ [mean], last := some mean }
    if below s2.best mean then
      let s3 := { s2 with best := some mean, saved := s2.saved ++ [mean] }
      match c with
      | none => .ok (s3, .truthy)
      | some c =>
        match c.onStep s3.child t (.best s3.best) with
        | .error e => .error e
        | .ok (c1, r) => .ok ({ s3 with child := c1 }, r)
    else .ok (s2, .truthy)
  else .ok (s1, .truthy)

/-- `EvalCallback`, lines 229-327. -/
def evalCb [LT K] [DecidableLT K] (freq : ℕ) (ev : ℕ → K) (c : Option (Mach σ K)) : Mach (EvalSt σ K) K := ⟨fun s t _ => evalStep freq ev c s t⟩

/-- A new `EvalCallback`. -/
def evalInit (child : σ) : EvalSt σ K := { calls := 0, means := [], best := none, last := none, saved := [], child := child }

/-- `StopTrainingOnRewardThreshold`, lines 330-356. -/
def stopOn [LT K] [DecidableLT K] (thr : K) : Mach Unit K :=
  ⟨fun s t p =>
    match p with
    | .absent => .error .assertion
    | .plain => .error .attributeError
    | .best b => .ok (s, if below b thr then .truthy else .no)⟩

end Neorl.Callbacks

import Verif.Py
import Mathlib.Data.Fintype.BigOperators
import Mathlib.Data.List.OfFn
import Mathlib.Logic.Function.Basic

/-!
# Several environments at once

Models of `DummyVecEnv` (`neorl/rl/baselines/shared/vec_env/dummy_vec_env.py`) and `SubprocVecEnv` (`subproc_vec_env.py`), which the reinforcement learners of
NEORL use for `ncores = 1` and `ncores > 1`.

* An environment is a state together with `step` and `reset`, which do not raise; randomness is part of the state.  The environments of one vector may differ: the
  type of states can be a sum.
* Observations are of one type (an unstructured space); `f32` is the rounding to 32 bit of `buf_rews`.
* An `info` dictionary is the environment's own part and the entry `terminal_observation`.
* The processes of `SubprocVecEnv` and the main program run in any interleaving; a pipe is a pair of queues; `recv` waits for a message.  Rendering, attributes
  and `close` are left out.
-/

set_option linter.unusedSectionVars false
set_option linter.unusedVariables false

namespace Neorl.VecEnv

/-- The methods of a gym environment: `step` and `reset`. -/
structure Gym (S A O K I : Type) where
  step : S → A → S × O × K × Bool × I
  reset : S → S × O

/-- What `step` reports about one environment: observation, reward, done, the environment's info and `info['terminal_observation']`. -/
structure Row (O K I : Type) where
  obs : O
  rew : K
  done : Bool
  info : I
  term : Option O
deriving DecidableEq

/-- A call of the user: `reset()` or `step(actions)`. -/
inductive Cmd (A : Type)
  | reset
  | step (acts : List A)

/-- What a call returns. -/
inductive Resp (O K I : Type)
  | obs (l : List O)
  | rows (l : List (Row O K I))
deriving DecidableEq

section Dummy

variable {S A O K I : Type}

/-- The attributes of `DummyVecEnv`, dummy_vec_env.py lines 22-37. -/
structure Dummy (S A O K I : Type) where
  envs : List S
  obs : List O
  rews : List K
  dones : List Bool
  infos : List (I × Option O)
  actions : Option (List A)

/-- `DummyVecEnv.__init__`, lines 22-37: the buffers are filled with zeros; `self.envs[0]` fails without environments. -/
def create (o0 : O) (k0 : K) (i0 : I) (envs : List S) : Py (Dummy S A O K I) :=
  match envs with
  | [] => .error .indexError
  | _ => .ok { envs := envs, obs := List.replicate envs.length o0, rews := List.replicate envs.length k0, dones := List.replicate envs.length false,
               infos := List.replicate envs.length (i0, none), actions := none }

/-- The body of the loop of `step_wait`, lines 44-50. -/
def stepOne (g : Gym S A O K I) (f32 : K → K) (s : S) (a : A) (idx : ℕ) (d : Dummy S A O K I) : Dummy S A O K I :=
  let t := g.step s a
  let d1 := { d with rews := d.rews.set idx (f32 t.2.2.1), dones := d.dones.set idx t.2.2.2.1, infos := d.infos.set idx (t.2.2.2.2, none) }
  if t.2.2.2.1 then
    let u := g.reset t.1
    { d1 with infos := d1.infos.set idx (t.2.2.2.2, some t.2.1), envs := d1.envs.set idx u.1, obs := d1.obs.set idx u.2 }
  else { d1 with envs := d1.envs.set idx t.1, obs := d1.obs.set idx t.2.1 }

/-- The loop of `step_wait`, lines 43-50, from index `idx` on for `k` environments.  `self.actions[env_idx]` can be out of range; the environments already
stepped stay stepped. -/
def stepLoop (g : Gym S A O K I) (f32 : K → K) (acts : List A) : ℕ → ℕ → Dummy S A O K I → Dummy S A O K I × Option PyErr
  | _, 0, d => (d, none)
  | idx, k + 1, d =>
    match d.envs[idx]?, acts[idx]? with
    | some s, some a => stepLoop g f32 acts (idx + 1) k (stepOne g f32 s a idx d)
    | _, _ => (d, some .indexError)

/-- The rows returned by `step_wait`, lines 51-52 (copies of the buffers). -/
def rowsOf (d : Dummy S A O K I) : List (Row O K I) :=
  (List.zip d.obs (List.zip d.rews (List.zip d.dones d.infos))).map fun t => { obs := t.1, rew := t.2.1, done := t.2.2.1, info := t.2.2.2.1, term := t.2.2.2.2 }

/-- `step_wait`, lines 42-52: without `step_async` the actions are `None`. -/
def stepWait (g : Gym S A O K I) (f32 : K → K) (d : Dummy S A O K I) : Dummy S A O K I × Py (List (Row O K I)) :=
  match d.actions with
  | none => (d, .error .typeError)
  | some acts =>
    match stepLoop g f32 acts 0 d.envs.length d with
    | (d', some e) => (d', .error e)
    | (d', none) => (d', .ok (rowsOf d'))

/-- The loop of `reset`, lines 61-63. -/
def resetLoop (g : Gym S A O K I) : ℕ → ℕ → Dummy S A O K I → Dummy S A O K I
  | _, 0, d => d
  | idx, k + 1, d =>
    match d.envs[idx]? with
    | some s => resetLoop g (idx + 1) k { d with envs := d.envs.set idx (g.reset s).1, obs := d.obs.set idx (g.reset s).2 }
    | none => d

/-- A call on the vector: `reset` (lines 60-64) or `step` (base_vec_env.py `step`, `step_async` lines 39-40, `step_wait`). -/
def exec (g : Gym S A O K I) (f32 : K → K) (d : Dummy S A O K I) : Cmd A → Dummy S A O K I × Py (Resp O K I)
  | .reset => let d' := resetLoop g 0 d.envs.length d; (d', .ok (.obs d'.obs))
  | .step acts =>
    match stepWait g f32 { d with actions := some acts } with
    | (d', .ok l) => (d', .ok (.rows l))
    | (d', .error e) => (d', .error e)

/-- A sequence of calls, up to the first exception. -/
def run (g : Gym S A O K I) (f32 : K → K) : Dummy S A O K I → List (Cmd A) → Py (Dummy S A O K I × List (Resp O K I))
  | d, [] => .ok (d, [])
  | d, c :: cs =>
    match exec g f32 d c with
    | (_, .error e) => .error e
    | (d', .ok r) =>
      match run g f32 d' cs with
      | .error e => .error e
      | .ok (d2, rs) => .ok (d2, r :: rs)

/-- `seed(seed)`, dummy_vec_env.py lines 54-58 and subproc_vec_env.py lines 117-120: the seed given to each of the `n` environments; `None + idx` is a type error. -/
def seeds (n : ℕ) (seed : Option ℤ) : Py (List ℤ) :=
  match seed with
  | some s => .ok ((List.range n).map fun idx : ℕ => s + (idx : ℤ))
  | none => if n = 0 then .ok [] else .error .typeError

end Dummy

/-! ### Processes -/

section Subproc

variable {S A O K I : Type} {n : ℕ}

/-- The messages `('step', action)` and `('reset', None)`. -/
inductive Msg (A : Type)
  | step (a : A)
  | reset

/-- The answers of `_worker`. -/
inductive Reply (O K I : Type)
  | row (r : Row O K I)
  | obs (o : O)
deriving DecidableEq

/-- What `_worker` does with a message, subproc_vec_env.py lines 18-31. -/
def handle (g : Gym S A O K I) (s : S) : Msg A → S × Reply O K I
  | .step a =>
    let t := g.step s a
    if t.2.2.2.1 then
      let u := g.reset t.1
      (u.1, .row { obs := u.2, rew := t.2.2.1, done := t.2.2.2.1, info := t.2.2.2.2, term := some t.2.1 })
    else (t.1, .row { obs := t.2.1, rew := t.2.2.1, done := t.2.2.2.1, info := t.2.2.2.2, term := none })
  | .reset => let u := g.reset s; (u.1, .obs u.2)

/-- A process: its environment and the two queues of its pipe. -/
structure Worker (S A O K I : Type) where
  s : S
  inbox : List (Msg A)
  outbox : List (Reply O K I)

/-- What the main program does on the pipes. -/
inductive Op (n : ℕ) (A : Type)
  | send (i : Fin n) (m : Msg A)
  | recv (i : Fin n)

/-- `step_async`, lines 105-107: `zip` stops at the shorter list. -/
def stepAsync (acts : List A) : List (Op n A) := (List.zip (List.finRange n) acts).map fun p => .send p.1 (.step p.2)

/-- `[remote.recv() for remote in self.remotes]`, lines 111, 125. -/
def recvAll : List (Op n A) := (List.finRange n).map .recv

/-- `reset`, lines 122-126, and `step`. -/
def compile : Cmd A → List (Op n A)
  | .reset => (List.finRange n).map (fun i => .send i .reset) ++ recvAll
  | .step acts => stepAsync acts ++ recvAll

/-- The whole system: the processes, what the main program still has to do, and what it has received. -/
structure Sys (n : ℕ) (S A O K I : Type) where
  ws : Fin n → Worker S A O K I
  ops : List (Op n A)
  log : List (Fin n × Reply O K I)

/-- One step of the main program or of one process. -/
inductive Step (g : Gym S A O K I) : Sys n S A O K I → Sys n S A O K I → Prop
  | send (y : Sys n S A O K I) (i : Fin n) (m : Msg A) (ops : List (Op n A)) (h : y.ops = .send i m :: ops) :
      Step g y { y with ops := ops, ws := Function.update y.ws i { y.ws i with inbox := (y.ws i).inbox ++ [m] } }
  | recv (y : Sys n S A O K I) (i : Fin n) (r : Reply O K I) (out : List (Reply O K I)) (ops : List (Op n A)) (h : y.ops = .recv i :: ops) (hr : (y.ws i).outbox = r :: out) :
      Step g y { y with ops := ops, log := y.log ++ [(i, r)], ws := Function.update y.ws i { y.ws i with outbox := out } }
  | work (y : Sys n S A O K I) (i : Fin n) (m : Msg A) (rest : List (Msg A)) (h : (y.ws i).inbox = m :: rest) :
      Step g y { y with ws := Function.update y.ws i { s := (handle g (y.ws i).s m).1, inbox := rest, outbox := (y.ws i).outbox ++ [(handle g (y.ws i).s m).2] } }

/-- The system at the start, lines 85-103: empty pipes. -/
def boot (envs : Fin n → S) (cmds : List (Cmd A)) : Sys n S A O K I :=
  { ws := fun i => { s := envs i, inbox := [], outbox := [] }, ops := cmds.flatMap compile, log := [] }

end Subproc

end Neorl.VecEnv

import Verif.Py
import Verif.InputFile
import Mathlib.Algebra.Order.Field.Basic
import Mathlib.Algebra.BigOperators.Group.List.Basic
import Mathlib.Algebra.Order.BigOperators.Group.List

/-!
# Training an agent from an input file

Model of `SavePlotCallback` and of `calc_cumavg` in `neorl/utils/neorlcalls.py` (lines 31-207, 339-347), of the loops of `learn` that call it (`a2c/a2c.py` lines 265-304, `ppo2/ppo2.py` lines 316-405,
`acer/acer_simple.py` lines 571-636, `deepq/dqn.py` lines 194-323, as sequences of calls), of `build` in `neorl/rl/runners/{dqn,ppo2,a2c,acer}.py` and of `neorl/utils/test_policy.py`.

The csv file written by the environment is an oracle: what `pd.read_csv` returns at each call (`none`: it raises).  A table is its list of columns without `caseid` (a file without that column is treated as unreadable at the plot; the
model has it always).  The weights of the agent after `u` updates are an oracle, so is the square root in `np.std`.  A mean of nothing is nan, `none`.  Printing is left out; a figure is what is handed to the plotting library.
-/

set_option linter.unusedSectionVars false
set_option linter.unusedVariables false

namespace Neorl.SavePlot

open Neorl.InputFile (Str)

variable {K : Type} [Field K] [LinearOrder K] [IsStrictOrderedRing K]

/-- `np.mean`. -/
def mean : List K → Option K
  | [] => none
  | a :: l => some ((a :: l).sum / ((a :: l).length : K))

/-- The variance inside `np.std`. -/
def variance (l : List K) : K := (l.map fun a => (a - l.sum / (l.length : K)) ^ 2).sum / (l.length : K)

/-- The slices `data[i:i+N] for i in range(0, len(data), N)`, neorlcalls.py lines 106-109; a step of 0 raises, a negative one gives nothing. -/
def slices (N : ℤ) (data : List K) : Py (List (List K)) :=
  if N = 0 then .error .valueError
  else if N < 0 then .ok []
  else .ok ((List.range ((data.length + N.toNat - 1) / N.toNat)).map fun i => (data.drop (i * N.toNat)).take N.toNat)

/-- One point of a plot: mean, standard deviation, largest and smallest value. -/
structure Point (K : Type) where
  avg : K
  std : K
  max : K
  min : K
deriving DecidableEq

/-- The statistics of one slice. -/
def point (sq : K → K) : List K → Option (Point K)
  | [] => none
  | a :: l => some ⟨(a :: l).sum / ((a :: l).length : K), sq (variance (a :: l)), l.foldl max a, l.foldl min a⟩

/-- `calc_cumavg`, lines 104-111 and 340-347. -/
def cumavg (sq : K → K) (N : ℤ) (data : List K) : Py (List (Point K)) := do
  let s ← slices N data
  s.mapM fun b => match point sq b with
    | none => .error .valueError
    | some p => .ok p

inductive PlotMode
  | classic | subplot | other
deriving DecidableEq

/-- One panel of a figure: place in the grid, label, colour and points. -/
structure Panel (K : Type) where
  rows : ℕ
  cols : ℕ
  idx : ℕ
  label : Str
  color : ℕ
  points : List (Point K)
deriving DecidableEq

/-- `color_index` at the i-th column, lines 128, 144-147, 177, 192-195. -/
def color : ℕ → ℕ
  | 0 => 0
  | i + 1 => if color i = 9 then 0 else color i + 1

/-- The grid of the subplots, lines 156-174; `none`: `xx` is not assigned. -/
def layout (ny : ℕ) : Option (ℕ × ℕ) :=
  if ny = 2 then some (1, 2)
  else if ny = 3 then some (1, 3)
  else if ny = 4 then some (2, 2)
  else if ny > 4 ∧ ny ≤ 21 then some ((ny + 2) / 3, 3)
  else if ny > 21 ∧ ny ≤ 99 then some ((ny + 3) / 4, 4)
  else none

/-- The panels of the columns from the i-th on. -/
def panels (sq : K → K) (N : ℤ) (grid : ℕ → Py (ℕ × ℕ × ℕ)) : ℕ → List (Str × List K) → Py (List (Panel K))
  | _, [] => .ok []
  | i, c :: cs => do
    let g ← grid i
    let pts ← cumavg sq N c.2
    let rest ← panels sq N grid (i + 1) cs
    .ok (⟨g.1, g.2.1, g.2.2, c.1, color i, pts⟩ :: rest)

/-- `plot_progress`, lines 114-207: the figures with the ends of their file names. -/
def plot (sq : K → K) (mode : PlotMode) (N : ℤ) (cols : List (Str × List K)) : Py (List (Str × List (Panel K))) :=
  if mode = .classic ∨ cols.length = 1 then do
    let ps ← panels sq N (fun _ => .ok (1, 1, 1)) 0 cols
    .ok (ps.map fun p => ('_' :: p.label ++ ".png".toList, [p]))
  else match mode with
    | .subplot => do
      let ps ← panels sq N (fun i => match layout cols.length with
        | none => .error .unboundLocal
        | some g => .ok (g.1, g.2, i + 1)) 0 cols
      .ok [("_res.png".toList, ps)]
    | _ => .error .runtimeError

/-- The settings of the callback. -/
structure Cfg (K : Type) where
  freq : ℤ
  avg : ℤ
  total : ℕ
  mode : PlotMode
  sq : K → K

/-- The callback: `best_mean_reward` (`none`: minus infinity), and on disk the best model, the last model and the figures. -/
structure St (K M : Type) where
  best : Option K
  bestFile : Option M
  lastFile : Option M
  figs : List (Str × List (Panel K))

/-- A new callback. -/
def St.init {K M : Type} : St K M := ⟨none, none, none, []⟩

/-- `y[-avg:]`, line 63. -/
def lastOf (avg : ℤ) (y : List K) : List K := if 0 < avg then y.drop (y.length - avg.toNat) else y.drop (-avg).toNat

/-- Line 67. -/
def improves (best m : Option K) : Bool :=
  match m, best with
  | none, _ => false
  | some _, none => true
  | some m, some b => decide (b < m)

/-- The column of the rewards. -/
def rewards (cols : List (Str × List K)) : Option (List K) := (cols.find? fun c => c.1 = "reward".toList).map Prod.snd

/-- Lines 67-75: the models saved for the mean `m`. -/
def save {M : Type} (m : Option K) (w : M) (s : St K M) : St K M :=
  if improves s.best m then { s with best := m, bestFile := some w, lastFile := some w } else { s with lastFile := some w }

/-- `runcall`, lines 55-81.  What was saved before an exception stays. -/
def runcall {M : Type} (c : Cfg K) (csv : Option (List (Str × List K))) (w : M) (s : St K M) : St K M × Py Unit :=
  match csv with
  | none => (s, .error .runtimeError)
  | some cols =>
    match rewards cols with
    | none => (s, .error .keyError)
    | some y =>
      let s := save (mean (lastOf c.avg y)) w s
      match plot c.sq c.mode c.avg cols with
      | .error e => (s, .error e)
      | .ok f => ({ s with figs := f }, .ok ())

/-- Line 86, inside the `try`: a frequency of 0 raises. -/
def due {K : Type} (c : Cfg K) (t : ℕ) : Bool := decide (c.freq ≠ 0) && (decide ((t : ℤ) % c.freq = 0) || t == c.total)

/-- `_on_step`, lines 83-96: the exceptions are swallowed; the second component says whether the process ends (`os._exit(1)`). -/
def onStep {M : Type} (c : Cfg K) (csv : Option (List (Str × List K))) (w : M) (t : ℕ) (s : St K M) : St K M × Bool :=
  (if due c t then (runcall c csv w s).1 else s, t == c.total)

/-- How a process ends: `os._exit(1)`, an exception, or by returning. -/
inductive Out
  | exit1 | raised (e : PyErr) | returned
deriving DecidableEq

/-- The calls of `_on_step` at the given times, each with the number of updates made before it. -/
def steps {M : Type} (c : Cfg K) (csv : ℕ → Option (List (Str × List K))) (w : ℕ → M) : List (ℕ × ℕ) → St K M → St K M × Bool
  | [], s => (s, false)
  | (t, u) :: rest, s =>
    let r := onStep c (csv t) (w u) t s
    if r.2 then (r.1, true) else steps c csv w rest r.1

/-- `_on_training_end`, lines 98-101. -/
def trainingEnd {M : Type} (c : Cfg K) (csv : Option (List (Str × List K))) (w : M) (s : St K M) : St K M × Out :=
  match runcall c csv w s with
  | (s, .error e) => (s, .raised e)
  | (s, .ok _) => (s, .exit1)

/-- One rollout after `u` updates: `n` calls, `e` time steps each. -/
def rollout (e n u : ℕ) : List (ℕ × ℕ) := (List.range n).map fun j => ((u * n + j + 1) * e, u)

/-- `m` rollouts, an update after each. -/
def schedule (e n m : ℕ) : List (ℕ × ℕ) := (List.range m).flatMap (rollout e n)

/-- The number of rollouts: `total_timesteps // n_batch` for A2C (a2c.py line 265) and PPO2 (ppo2.py line 316), the length of `range(0, total_timesteps, n_batch)` for ACER (acer_simple.py line 571), every time step for DQN (dqn.py line 194,
where `e` and `n` are 1). -/
inductive Agent
  | dqn | ppo | a2c | acer
deriving DecidableEq

def Agent.rollouts (a : Agent) (total batch : ℕ) : ℕ :=
  match a with
  | .acer => (total + batch - 1) / batch
  | _ => total / batch

/-- `learn` with the callback: `csv` while training, `csvEnd` at its end. -/
def learn {M : Type} (a : Agent) (e n : ℕ) (c : Cfg K) (csv : ℕ → Option (List (Str × List K))) (csvEnd : Option (List (Str × List K))) (w : ℕ → M) (s : St K M) : St K M × Out :=
  let m := a.rollouts c.total (e * n)
  let r := steps c csv w (schedule e n m) s
  if r.2 then (r.1, .exit1) else trainingEnd c csvEnd (w m) r.1

/-- The mode of the card. -/
inductive Mode
  | train | continue_ | test | other
deriving DecidableEq

/-- The end of the file name in `model.save` after `learn` (dqn.py lines 99 and 118, ppo2.py lines 114 and 131, a2c.py lines 108 and 123, acer.py lines 110 and 127). -/
def saveName (a : Agent) (m : Mode) : Str :=
  match a, m with
  | .a2c, .train => "_model_last.pkl".toList
  | .acer, .train => "_model_last.pkl".toList
  | _, _ => "_lastmodel.pkl".toList

/-- `build` in the modes that train: the callback's state, the file `build` itself has written, and the end of the process. -/
def build {M : Type} (a : Agent) (m : Mode) (e n : ℕ) (c : Cfg K) (csv : ℕ → Option (List (Str × List K))) (csvEnd : Option (List (Str × List K))) (w : ℕ → M) : St K M × Option Str × Out :=
  match m with
  | .train | .continue_ =>
    match learn a e n c csv csvEnd w St.init with
    | (s, .returned) => (s, some (saveName a m), .returned)
    | (s, o) => (s, none, o)
  | _ => (St.init, none, .returned)

/-! ### Evaluation of a trained agent -/

/-- The environment in `evaluate_policy`. -/
structure Env (S O A K : Type) where
  reset : S → S × O
  step : S → A → S × O × K × Bool

/-- One episode, test_policy.py lines 50-54, with fuel; the sum of the rewards and the number of steps. -/
def episode {S O A H : Type} (predict : O → Option H → A × Option H) (env : Env S O A K) : ℕ → S → O → Option H → K → ℕ → Option (S × K × ℕ)
  | 0, _, _, _, _, _ => none
  | fuel + 1, s, o, h, r, l =>
    let a := predict o h
    let x := env.step s a.1
    if x.2.2.2 then some (x.1, r + x.2.2.1, l + 1) else episode predict env fuel x.1 x.2.1 a.2 (r + x.2.2.1) (l + 1)

/-- Lines 44-59: the two lists. -/
def evalLoop {S O A H : Type} (predict : O → Option H → A × Option H) (env : Env S O A K) (fuel : ℕ) : ℕ → S → Option (S × List K × List ℕ)
  | 0, s => some (s, [], [])
  | n + 1, s =>
    match episode predict env fuel (env.reset s).1 (env.reset s).2 none 0 0 with
    | none => none
    | some (s, r, l) => (evalLoop predict env fuel n s).map fun x => (x.1, r :: x.2.1, l :: x.2.2)

/-- `evaluate_policy`, lines 23-59: the function ends without `return`, so the second component, its value, is `None`. -/
def evaluatePolicy {S O A H : Type} (predict : O → Option H → A × Option H) (env : Env S O A K) (fuel : ℕ) (n : ℕ) (s : S) : Option (S × Option (List K)) :=
  (evalLoop predict env fuel n s).map fun x => (x.1, none)

end Neorl.SavePlot

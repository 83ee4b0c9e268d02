import Verif.Py
import Mathlib.Algebra.Order.Ring.Defs
import Mathlib.Algebra.BigOperators.Group.List.Basic
import Mathlib.Data.Sign.Defs
import Mathlib.Tactic.Linarith

/-!
# Atari wrappers

Model of `neorl/rl/baselines/shared/atari_wrappers.py`.  A game is a machine with state `E`: `reset`, `step` and the number of lives.  `info` is passed through by every
wrapper and left out.  `ScaledFloatFrame` and the composition of the wrappers: `Verif/DeepMind.lean`.
-/

set_option linter.unusedSectionVars false
set_option linter.unusedVariables false

namespace Neorl.Atari

variable {E O A K : Type}

/-- An environment: `reset()` and `step(action)`. -/
structure Game (E O A K : Type) where
  reset : E → E × O
  step : E → A → E × O × K × Bool

/-! ### NoopResetEnv, lines 11-40 -/

/-- The loop of lines 34-37. -/
def noopLoop (g : Game E O A K) (noop : A) : ℕ → E → O → E × O
  | 0, e, o => (e, o)
  | k + 1, e, _ =>
    let (e1, o1, _, d) := g.step e noop
    let (e2, o2) := if d then g.reset e1 else (e1, o1)
    noopLoop g noop k e2 o2

/-- `reset`, lines 26-38, with the number of no-ops (overridden or drawn); `assert noops > 0`. -/
def noopReset (g : Game E O A K) (noop : A) (noops : ℕ) (e : E) : Py (E × O) :=
  let (e1, o1) := g.reset e
  if noops = 0 then .error .assertion else .ok (noopLoop g noop noops e1 o1)

/-! ### FireResetEnv, lines 43-65 -/

/-- `reset`, lines 54-62: `fire` is action 1, `two` action 2. -/
def fireReset (g : Game E O A K) (fire two : A) (e : E) : E × O :=
  let (e1, _) := g.reset e
  let (e2, _, _, d2) := g.step e1 fire
  let e3 := if d2 then (g.reset e2).1 else e2
  let (e4, o4, _, d4) := g.step e3 two
  let e5 := if d4 then (g.reset e4).1 else e4
  (e5, o4)

/-! ### EpisodicLifeEnv, lines 68-110 -/

/-- The state of the wrapper. -/
structure Life (E : Type) where
  env : E
  lives : ℕ
  realDone : Bool
deriving DecidableEq

/-- `__init__`, lines 77-78. -/
def lifeInit (e : E) : Life E := ⟨e, 0, true⟩

/-- `step`, lines 80-92. -/
def lifeStep (g : Game E O A K) (livesOf : E → ℕ) (s : Life E) (a : A) : Life E × O × K × Bool :=
  let (e1, o, r, d) := g.step s.env a
  let lives := livesOf e1
  (⟨e1, lives, d⟩, o, r, if 0 < lives ∧ lives < s.lives then true else d)

/-- `reset`, lines 94-110: the result of the no-op step other than its observation is ignored. -/
def lifeReset (g : Game E O A K) (livesOf : E → ℕ) (noop : A) (s : Life E) : Life E × O :=
  if s.realDone then
    let (e1, o) := g.reset s.env
    (⟨e1, livesOf e1, s.realDone⟩, o)
  else
    let (e1, o, _, _) := g.step s.env noop
    (⟨e1, livesOf e1, s.realDone⟩, o)

/-! ### MaxAndSkipEnv, lines 113-149 -/

/-- `_obs_buffer`. -/
abbrev Buf (O : Type) := O × O

/-- The loop of lines 137-145: `i` is the loop variable, `skip - i` the fuel. -/
def skipLoop [Add K] (g : Game E O A K) (a : A) (skip : ℕ) : ℕ → ℕ → E → Buf O → K → Option Bool → E × Buf O × K × Option Bool
  | 0, _, e, b, r, d => (e, b, r, d)
  | n + 1, i, e, b, r, _ =>
    let (e1, o, r1, d1) := g.step e a
    let b1 : Buf O := if i + 2 = skip then (o, b.2) else b
    let b2 : Buf O := if i + 1 = skip then (b1.1, o) else b1
    if d1 then (e1, b2, r + r1, some true) else skipLoop g a skip n (i + 1) e1 b2 (r + r1) (some false)

/-- `step`, lines 127-149; with `skip = 0` the variable `info` is unbound. -/
def maxSkipStep [Add K] [Zero K] (g : Game E O A K) (mx : O → O → O) (skip : ℕ) (e : E) (b : Buf O) (a : A) : Py (E × Buf O × O × K × Bool) :=
  match skipLoop g a skip skip 0 e b 0 none with
  | (_, _, _, none) => .error .unboundLocal
  | (e1, b1, r, some d) => .ok (e1, b1, mx b1.1 b1.2, r, d)

/-! ### ClipRewardEnv, lines 152-169 -/

/-- `np.sign(reward)`. -/
def clipReward [Zero K] [One K] [Neg K] [LT K] [DecidableLT K] (r : K) : K := if 0 < r then 1 else if r < 0 then -1 else 0

/-! ### WarpFrame, lines 172-196 -/

/-- The announced shape of the observations, lines 181-184. -/
def warpSpace : List ℕ := [84, 84, 1]

/-- `frame[:, :, None]`, line 196: a new axis after the first two; nothing is resized (the `cv2` calls are comments). -/
def warpShape : List ℕ → Py (List ℕ)
  | h :: w :: rest => .ok (h :: w :: 1 :: rest)
  | _ => .error .indexError

/-! ### FrameStack, lines 199-234 -/

/-- `deque(maxlen=n).append`. -/
def push (n : ℕ) (fs : List O) (o : O) : List O := (fs ++ [o]).drop (fs.length + 1 - n)

/-- The loop of `reset`, lines 221-222. -/
def fill (n : ℕ) (o : O) : ℕ → List O → List O
  | 0, fs => fs
  | k + 1, fs => fill n o k (push n fs o)

/-- `_get_ob`, lines 232-234. -/
def getOb (n : ℕ) (fs : List O) : Py (List O) := if fs.length = n then .ok fs else .error .assertion

/-- `reset`, lines 219-223. -/
def stackReset (g : Game E O A K) (n : ℕ) (e : E) (fs : List O) : E × List O × Py (List O) :=
  let (e1, o) := g.reset e
  let fs1 := fill n o n fs
  (e1, fs1, getOb n fs1)

/-- `step`, lines 225-228. -/
def stackStep (g : Game E O A K) (n : ℕ) (e : E) (fs : List O) (a : A) : E × List O × Py (List O × K × Bool) :=
  let (e1, o, r, d) := g.step e a
  let fs1 := push n fs o
  (e1, fs1, (getOb n fs1).map fun l => (l, r, d))

/-- Observations of consecutive steps. -/
def stackRun (g : Game E O A K) (n : ℕ) : E → List O → List A → E × List O × List (Py (List O × K × Bool))
  | e, fs, [] => (e, fs, [])
  | e, fs, a :: as =>
    let (e1, fs1, out) := stackStep g n e fs a
    let (e2, fs2, outs) := stackRun g n e1 fs1 as
    (e2, fs2, out :: outs)

end Neorl.Atari

import Verif.Atari
import Verif.Nets

/-!
# The DeepMind pipeline of Atari wrappers

Model of `wrap_deepmind`, `ScaledFloatFrame` and `LazyFrames` of `neorl/rl/baselines/shared/atari_wrappers.py`: the wrappers of `Verif/Atari.lean` on top of each other, in the order of the code.

Simplifications: a frame is the list of its pixels (row by row), that is, the frames are grey already, so that `WarpFrame` (line 194) only adds an axis of length 1; the caching of `LazyFrames._force` is
left out; the game is any machine, in particular the result of `make_atari`.
-/

set_option linter.unusedSectionVars false
set_option linter.unusedVariables false

namespace Neorl.Atari

variable {E O P A K : Type}

/-- `gym.ObservationWrapper`: `observation` is applied to what `reset` and `step` return. -/
def obsGame (φ : O → P) (g : Game E O A K) : Game E P A K where
  reset e := let (e1, o) := g.reset e; (e1, φ o)
  step e a := let (e1, o, r, d) := g.step e a; (e1, φ o, r, d)

/-- `gym.RewardWrapper`. -/
def rewGame (ρ : K → K) (g : Game E O A K) : Game E O A K where
  reset := g.reset
  step e a := let (e1, o, r, d) := g.step e a; (e1, o, ρ r, d)

/-- `EpisodicLifeEnv` as an environment. -/
def lifeGame (g : Game E O A K) (livesOf : E → ℕ) (noop : A) : Game (Life E) O A K where
  reset := lifeReset g livesOf noop
  step := lifeStep g livesOf

/-- The game without `EpisodicLifeEnv`; the fields of that wrapper are not used. -/
def plainGame (g : Game E O A K) : Game (Life E) O A K where
  reset s := let (e1, o) := g.reset s.env; (⟨e1, s.lives, s.realDone⟩, o)
  step s a := let (e1, o, r, d) := g.step s.env a; (⟨e1, s.lives, s.realDone⟩, o, r, d)

/-- `FireResetEnv` as an environment, lines 43-65. -/
def fireGame (g : Game E O A K) (fire two : A) : Game E O A K where
  reset := fireReset g fire two
  step := g.step

/-- The arguments of `wrap_deepmind`, line 291. -/
structure Opts where
  episodeLife : Bool
  clipRewards : Bool
  frameStack : Bool
  scale : Bool

/-- The unwrapped game: the machine, the number of lives, whether `'FIRE'` is among the action meanings, and the actions 0, 1 and 2. -/
structure Rom (E A K : Type) where
  game : Game E (List K) A K
  livesOf : E → ℕ
  hasFire : Bool
  noop : A
  fire : A
  two : A

section
variable [Field K] [LinearOrder K] [IsStrictOrderedRing K]

/-- `ScaledFloatFrame.observation`, lines 238-241. -/
def scalePixels (x : List K) : List K := x.map (· / 255)

/-- Lines 302-310. -/
def core (c : Opts) (g : Rom E A K) : Game (Life E) (List K) A K :=
  let g1 := if c.episodeLife then lifeGame g.game g.livesOf g.noop else plainGame g.game
  let g2 := if g.hasFire then fireGame g1 g.fire g.two else g1
  let g3 := if c.scale then obsGame scalePixels g2 else g2
  if c.clipRewards then rewGame clipReward g3 else g3

/-- `LazyFrames._force`, lines 258-262: `np.concatenate(frames, axis=2)` of frames with one channel; pixel by pixel the frames follow each other. -/
def force (fs : List (List K)) : List K := (List.range (fs.headD []).length).flatMap fun p => fs.map fun f => f.getD p 0

/-- The state of the pipeline: the wrappers and the deque of `FrameStack`. -/
abbrev Pipe (E K : Type) := Life E × List (List K)

/-- `wrap_deepmind(env, ...)` before the first call. -/
def pipeInit (e : E) : Pipe E K := (lifeInit e, [])

/-- `reset` of the wrapped environment, lines 302-313. -/
def pipeReset (c : Opts) (g : Rom E A K) (s : Pipe E K) : Pipe E K × Py (List K) :=
  if c.frameStack then
    let (s1, fs, o) := stackReset (core c g) 4 s.1 s.2
    ((s1, fs), o.map force)
  else
    let (s1, o) := (core c g).reset s.1
    ((s1, s.2), .ok o)

/-- `step` of the wrapped environment. -/
def pipeStep (c : Opts) (g : Rom E A K) (s : Pipe E K) (a : A) : Pipe E K × Py (List K × K × Bool) :=
  if c.frameStack then
    let (s1, fs, o) := stackStep (core c g) 4 s.1 s.2 a
    ((s1, fs), o.map fun r => (force r.1, r.2))
  else
    let (s1, r) := (core c g).step s.1 a
    ((s1, s.2), .ok r)

/-- Consecutive steps. -/
def pipeRun (c : Opts) (g : Rom E A K) : Pipe E K → List A → Pipe E K × List (Py (List K × K × Bool))
  | s, [] => (s, [])
  | s, a :: as =>
    let (s1, o) := pipeStep c g s a
    let (s2, os) := pipeRun c g s1 as
    (s2, o :: os)

/-- `observation_space` of the wrapped environment for frames of `m` pixels: lines 182 (warped), 236 (scaled), 214 (stacked: whatever the bounds of the frames). -/
def declared (c : Opts) (m : ℕ) : Nets.ObSpace K :=
  if c.frameStack then .box (List.replicate (m * 4) (.fin 0)) (List.replicate (m * 4) (.fin 255))
  else if c.scale then .box (List.replicate m (.fin 0)) (List.replicate m (.fin 1))
  else .box (List.replicate m (.fin 0)) (List.replicate m (.fin 255))

end

end Neorl.Atari

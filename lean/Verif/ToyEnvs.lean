import Verif.Py
import Mathlib.Algebra.BigOperators.Group.List.Basic

/-!
# The bit flipping and identity environments (neorl/rl/baselines/shared/bit_flipping_env.py, identity_env.py)

Bits are the integers of the numpy array; `obs_space.sample()` is an argument.  Actions of the discrete variant are natural numbers (the action space `Discrete(n_bits)`), those of the continuous one lists of
numbers.
-/

set_option linter.unusedSectionVars false
set_option linter.unusedVariables false

namespace Neorl.ToyEnvs

section Bits

variable {K : Type} [LinearOrder K] [Zero K]

/-- An action (bit_flipping_env.py 43-46): a bit number, or one number per bit. -/
inductive Action (K : Type)
  | bit (i : ℕ)
  | vec (a : List K)

/-- An observation: the bits, or their number. -/
inductive Obs
  | bits (s : List ℤ)
  | code (n : ℤ)
  deriving DecidableEq

/-- The environment (lines 21-55). -/
structure Env where
  nBits : ℕ
  maxSteps : ℕ
  discreteObs : Bool
  state : List ℤ
  goal : List ℤ
  cur : ℕ

/-- `convert_if_needed` (lines 57-68). -/
def convert (d : Bool) (s : List ℤ) : Obs := if d then .code ((List.range s.length).map fun i => s.getD i 0 * 2 ^ i).sum else .bits s

/-- `__init__` and `reset` (lines 21-55 and 82-85); `max_steps` is `n_bits` unless given. -/
def make (nBits : ℕ) (maxSteps : Option ℕ) (d : Bool) (sample : List ℤ) : Env := ⟨nBits, maxSteps.getD nBits, d, sample, List.replicate nBits 1, 0⟩

/-- `reset` (lines 82-85). -/
def Env.reset (e : Env) (sample : List ℤ) : Env := { e with cur := 0, state := sample }

/-- The new state of `step` (lines 88-91): `state[action] = 1 - state[action]`, or the same for the positive components.  A mask of another length is an `IndexError`. -/
def flip (s : List ℤ) : Action K → Py (List ℤ)
  | .bit i => if i < s.length then .ok (s.modify i fun v => 1 - v) else .error .indexError
  | .vec a => if a.length = s.length then .ok (List.zipWith (fun v x => if 0 < x then 1 - v else v) s a) else .error .indexError

/-- `compute_reward` (lines 101-108). -/
def reward : Obs → Obs → ℤ
  | a, g => if a = g then 0 else -1

structure Out where
  obs : Obs
  reward : ℤ
  done : Bool
  success : Bool
  deriving DecidableEq

/-- `step` (lines 87-99). -/
def step (e : Env) (a : Action K) : Py (Env × Out) := do
  let s ← flip e.state a
  let obs := convert e.discreteObs s
  let r := reward obs (convert e.discreteObs e.goal)
  let ok := decide (r = 0)
  .ok ({ e with state := s, cur := e.cur + 1 }, ⟨obs, r, ok || decide (e.cur + 1 ≥ e.maxSteps), ok⟩)

/-- An episode: steps until `done`; the outputs in order (actions left over are not used). -/
def episode (e : Env) : List (Action K) → Py (List Out)
  | [] => .ok []
  | a :: as => do
    let (e', o) ← step e a
    if o.done then .ok [o] else
      let r ← episode e' as
      .ok (o :: r)

/-- `gym.spaces.Discrete(n).contains` (library). -/
def inDiscrete (n : ℤ) (c : ℤ) : Prop := 0 ≤ c ∧ c < n

/-- The observation space of the discrete variant: `Discrete(2 ** n_bits - 1)` (lines 26-33). -/
def declared (nBits : ℕ) : ℤ := 2 ^ nBits - 1

end Bits

section Identity

variable {S : Type}

/-- `IdentityEnv` (identity_env.py 8-56). -/
structure Ident (S : Type) where
  epLength : ℕ
  cur : ℕ
  resets : ℤ
  state : S

/-- `reset` (lines 36-40), with the sample it draws. -/
def Ident.reset (e : Ident S) (s : S) : Ident S := { e with cur := 0, resets := e.resets + 1, state := s }

/-- `__init__` (lines 9-34). -/
def Ident.make (len : ℕ) (s : S) : Ident S := Ident.reset ⟨len, 0, -1, s⟩ s

/-- `step` (lines 42-47): the reward is for the state seen before the step.  `hit` is the test of `_get_reward` (lines 52-53; for the box variant 80-81). -/
def Ident.step {A : Type} (hit : S → A → Bool) (e : Ident S) (a : A) (s : S) : Ident S × ℕ × Bool :=
  let r := if hit e.state a then 1 else 0
  ({ e with state := s, cur := e.cur + 1 }, r, decide (e.cur + 1 ≥ e.epLength))

/-- `_get_reward` of the box variant (lines 80-81). -/
def boxHit {K : Type} [Field K] [LinearOrder K] (eps : K) (s a : K) : Bool := decide (s - eps ≤ a ∧ a ≤ s + eps)

/-- An episode with a policy that answers observations; `draws` are the samples.  The rewards and whether it ended. -/
def Ident.episode {A : Type} (hit : S → A → Bool) (π : S → A) (e : Ident S) : List S → List ℕ × Bool
  | [] => ([], false)
  | s :: ss =>
    let (e', r, d) := e.step hit (π e.state) s
    if d then ([r], true) else
      let (rs, d') := Ident.episode hit π e' ss
      (r :: rs, d')

end Identity

end Neorl.ToyEnvs

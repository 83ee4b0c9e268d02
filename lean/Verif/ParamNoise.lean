import Mathlib.Algebra.Order.Field.Basic
import Mathlib.Data.List.Infix
import Mathlib.Tactic

/-!
# Parameter noise of DQN

Model of `default_param_noise_filter` and `build_act_with_param_noise` (`neorl/rl/baselines/deepq/build_graph.py` lines 104-123 and 164-319), of the calls `DQN.learn` makes to it
(`neorl/rl/baselines/deepq/dqn.py` lines 188-253), and of the names of the variables of the networks (`neorl/rl/baselines/deepq/policies.py` lines 103-127, `nature_cnn` of
`neorl/rl/baselines/shared/policies.py` lines 16-30).

* A network is a family `ι → K` of numbers, one for each entry of its variables; `flag i` says whether the filter accepts the variable of entry `i`.  The online network between the calls (changed by the training),
the greedy action, the ends of episodes and the measured divergence are arbitrary functions of what was done before.
* One call of `_perturbed_act` is one session run: the outputs and the four updates have no order among them.  `Race` says for each reading whether it comes before or after the assignment; all theorems hold for
every choice.
* `random_normal(stddev=s)` is `s` times a standard normal number; the numbers are arbitrary.  Not modelled: a `MultiDiscrete` action space (`action_space.n` fails, dqn.py line 208), single precision.
-/

set_option linter.unusedSectionVars false
set_option linter.unusedVariables false

namespace Neorl.ParamNoise

/-! ### Which variables are perturbed -/

/-- `default_param_noise_filter`, build_graph.py lines 111-123. -/
def filter (trainable : List String) (name : String) : Bool :=
  if name ∉ trainable then false
  else if "fully_connected".toList <:+: name.toList then true
  else false

/-- The layers of the networks; `dense` and `norm` with their number in the scope. -/
inductive Layer
  | conv (i : Fin 3)
  | fc1
  | dense (k : ℕ)
  | norm (k : ℕ)
  deriving DecidableEq, Repr

/-- TensorFlow makes names in a scope unique: the first has no number, the next are `_1`, `_2`, ... -/
def unique (base : String) (k : ℕ) : List Char := if k = 0 then base.toList else base.toList ++ '_' :: Nat.toDigits 10 k

/-- The name of a layer (a2c/utils.py `conv` and `linear` are given theirs in policies.py lines 26-30, the others are those of `tf.contrib.layers`) and its two variables. -/
def Layer.names : Layer → List (List Char)
  | .conv i => ["/w:0", "/b:0"].map fun v => 'c' :: Nat.toDigits 10 (i.val + 1) ++ v.toList
  | .fc1 => ["fc1/w:0".toList, "fc1/b:0".toList]
  | .dense k => ["/weights:0", "/biases:0"].map fun v => unique "fully_connected" k ++ v.toList
  | .norm k => ["/beta:0", "/gamma:0"].map fun v => unique "LayerNorm" k ++ v.toList

/-- The hidden layers of one stream, policies.py lines 111-115 and 122-126. -/
def hidden (layerNorm : Bool) (n : ℕ) : List Layer := (List.range n).flatMap fun k => .dense k :: if layerNorm then [.norm k] else []

/-- Scope `action_value`, lines 104-117. -/
def actionLayers (cnn layerNorm : Bool) (n : ℕ) : List Layer :=
  (if cnn then [.conv 0, .conv 1, .conv 2, .fc1] else hidden layerNorm n) ++ [.dense (if cnn then 0 else n)]

/-- Scope `state_value`, lines 120-127. -/
def stateLayers (layerNorm : Bool) (n : ℕ) : List Layer := hidden layerNorm n ++ [.dense n]

/-- The layers with the names of their variables. -/
def layers (copy : String) (cnn layerNorm dueling : Bool) (n : ℕ) : List (Layer × List Char) :=
  ((actionLayers cnn layerNorm n).flatMap fun l => l.names.map fun v => (l, ("deepq/" ++ copy ++ "/model/action_value/").toList ++ v)) ++
  if dueling then (stateLayers layerNorm n).flatMap fun l => l.names.map fun v => (l, ("deepq/" ++ copy ++ "/model/state_value/").toList ++ v) else []

/-! ### One call -/

variable {K : Type} [Field K] [LinearOrder K] [IsStrictOrderedRing K] {ι A : Type}

/-- The variables of the graph: `perturbed_model`, `adaptive_model`, `param_noise_scale`, `param_noise_threshold`, `eps`. -/
structure Net (K ι : Type) where
  pert : ι → K
  adapt : ι → K
  scale : K
  thr : K
  eps : K

/-- For each reading in the session run: does it come after the assignment of the same run? -/
structure Race (ι : Type) where
  acting : ι → Bool
  measured : ι → Bool
  scalePert : Bool
  thr : Bool
  eps : Bool

/-- The random numbers of one call: noise for the two copies, the draw and the action of epsilon-greedy. -/
structure Draw (K ι A : Type) where
  z : ι → K
  zA : ι → K
  u : K
  k : A

/-- `perturb_vars`, lines 203-229. -/
def perturb (flag : ι → Bool) (scale : K) (z θ : ι → K) : ι → K := fun i => if flag i then θ i + scale * z i else θ i

/-- Read before or after the assignment. -/
def read {α : Type} (after : Bool) (old new : α) : α := if after then new else old

/-- `_perturbed_act`, lines 231-294, with `stochastic` true and `update_param_noise_scale` true (dqn.py lines 209-213): the new variables, the network that chose, the action. -/
def act (flag : ι → Bool) (kl : (ι → K) → (ι → K) → K) (greedy : (ι → K) → A) (θ : ι → K) (reset : Bool) (updEps updThr : K) (d : Draw K ι A) (r : Race ι) (s : Net K ι) : Net K ι × (ι → K) × A :=
  let thr := if 0 ≤ updThr then updThr else s.thr
  let eps := if 0 ≤ updEps then updEps else s.eps
  let small := fun adapt => kl θ (fun i => read (r.measured i) (s.adapt i) (adapt i)) < read r.thr s.thr thr
  -- drawn with the scale before the update, which waits for it (line 249)
  let adapt := perturb flag s.scale d.zA θ
  let scale := if small adapt then s.scale * (101 / 100) else s.scale / (101 / 100)
  let pert := if reset then perturb flag (read r.scalePert s.scale scale) d.z θ else s.pert
  let used := fun i => read (r.acting i) (s.pert i) (pert i)
  (⟨pert, adapt, scale, thr, eps⟩, used, if d.u < read r.eps s.eps eps then d.k else greedy used)

/-! ### Training -/

/-- What a training with `param_noise=True` is made of.  After the actions `as`: `θ as` is the online network, `dn as` says whether the last of them ended an episode, `greedy w as` is the best action in the current
observation for the network `w`, `thr as` is the threshold of dqn.py lines 206-208. -/
structure Cfg (K ι A : Type) where
  flag : ι → Bool
  θ : List A → ι → K
  dn : List A → Bool
  greedy : (ι → K) → List A → A
  kl : List A → (ι → K) → (ι → K) → K
  thr : List A → K
  draw : ℕ → Draw K ι A
  race : ℕ → Race ι

/-- The state of `learn`: the variables, the flag `reset`, the actions, and for every action the network that chose it. -/
structure St (K ι A : Type) where
  net : Net K ι
  reset : Bool
  acts : List A
  used : List (ι → K)

/-- One pass of the loop of dqn.py lines 195-253. -/
def step (c : Cfg K ι A) (s : St K ι A) : St K ι A :=
  let o := act c.flag (c.kl s.acts) (fun w => c.greedy w s.acts) (c.θ s.acts) s.reset 0 (c.thr s.acts) (c.draw s.acts.length) (c.race s.acts.length) s.net
  let reset := false
  let acts := s.acts ++ [o.2.2]
  { net := o.1, acts := acts, used := s.used ++ [o.2.1], reset := if c.dn acts then true else reset }

/-- dqn.py line 188. -/
def start (net : Net K ι) : St K ι A := ⟨net, true, [], []⟩

/-- The first `n` passes. -/
def learn (c : Cfg K ι A) (net : Net K ι) : ℕ → St K ι A
  | 0 => start net
  | n + 1 => step c (learn c net n)

theorem learn_len (c : Cfg K ι A) (net : Net K ι) (n : ℕ) : (learn c net n).acts.length = n ∧ (learn c net n).used.length = n := by
  induction n with
  | zero => exact ⟨rfl, rfl⟩
  | succ n ih =>
    refine ⟨?_, ?_⟩
    · show ((learn c net n).acts ++ [_]).length = n + 1
      rw [List.length_append, ih.1]; rfl
    · show ((learn c net n).used ++ [_]).length = n + 1
      rw [List.length_append, ih.2]; rfl

/-- The variables `pert` after a pass. -/
theorem pert_step (c : Cfg K ι A) (s : St K ι A) : (step c s).net.pert =
    if s.reset then perturb c.flag (read (c.race s.acts.length).scalePert s.net.scale (step c s).net.scale) (c.draw s.acts.length).z (c.θ s.acts) else s.net.pert := rfl

theorem used_step (c : Cfg K ι A) (s : St K ι A) : (step c s).used = s.used ++ [fun i => read ((c.race s.acts.length).acting i) (s.net.pert i) ((step c s).net.pert i)] := rfl

theorem acts_step (c : Cfg K ι A) (s : St K ι A) : (step c s).acts = s.acts ++ [if (c.draw s.acts.length).u < read (c.race s.acts.length).eps s.net.eps (if (0 : K) ≤ 0 then 0 else s.net.eps) then
    (c.draw s.acts.length).k else c.greedy (fun i => read ((c.race s.acts.length).acting i) (s.net.pert i) ((step c s).net.pert i)) s.acts] := rfl

theorem scale_step (c : Cfg K ι A) (s : St K ι A) : (step c s).net.scale = s.net.scale * (101 / 100) ∨ (step c s).net.scale = s.net.scale / (101 / 100) := by
  exact ite_eq_or_eq _ _ _

theorem eps_step (c : Cfg K ι A) (s : St K ι A) : (step c s).net.eps = 0 := by
  show (if (0 : K) ≤ 0 then (0 : K) else _) = 0
  rw [if_pos le_rfl]

end Neorl.ParamNoise

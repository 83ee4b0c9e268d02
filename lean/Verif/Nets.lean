import Verif.Py
import Verif.InputFile
import Mathlib.Algebra.Order.Field.Basic
import Mathlib.Algebra.BigOperators.Group.List.Basic
import Mathlib.Data.Matrix.Mul

/-!
# The networks of the policies

Model of `observation_input` (`neorl/rl/baselines/shared/input.py`), of `mlp_extractor`, the shapes of `nature_cnn`, the constructors of `FeedForwardPolicy` and `LstmPolicy`, `step`, `get_policy_from_name` and `register_policy`
(`neorl/rl/baselines/shared/policies.py` lines 17-92, 167-184, 404-512, 543-581, 708-756), of `linear`, `ortho_init` and `conv_to_fc` (`tf_layers.py` lines 5-43, 110-125, 216-225) and of `proba_distribution_from_latent`
(`distributions.py` lines 169-172, 202-205, 238-243, 267-270).

A network is the function it computes on one observation, given the variables: a weight and a bias for each variable scope.  Vectors are lists.  The activation function, the recurrent layer (modelled in `Lstm`), the features extracted by
a CNN and the singular value decomposition are parameters.  Layer sizes are natural numbers; all failed assertions are `assertion`, `NotImplementedError` is `runtimeError`.  Of a convolution only the shape is modelled.
-/

set_option linter.unusedSectionVars false
set_option linter.unusedVariables false

namespace Neorl.Nets

open Neorl.InputFile (Str)

variable {K : Type} [Field K] [LinearOrder K] [IsStrictOrderedRing K]

/-! ### The observation (input.py) -/

/-- A bound of a `Box`; infinite bounds without sign. -/
inductive Bound (K : Type)
  | fin (a : K) | inf
deriving DecidableEq

/-- The observation spaces, flattened. -/
inductive ObSpace (K : Type)
  | discrete (n : ℕ) | box (low high : List (Bound K)) | multiBinary (n : ℕ) | multiDiscrete (nvec : List ℕ) | other

/-- One observation. -/
inductive Obs (K : Type)
  | idx (i : ℤ) | vec (x : List K) | ints (l : List ℤ)

/-- `tf.one_hot`: zeros when out of range. -/
def oneHot (n : ℕ) (i : ℤ) : List (Option K) := (List.range n).map fun (j : ℕ) => if (j : ℤ) = i then some 1 else some 0

def Bound.isInf : Bound K → Bool
  | .inf => true
  | .fin _ => false

/-- `high - low` of finite bounds. -/
def width : Bound K → Bound K → K
  | .fin a, .fin b => b - a
  | _, _ => 0

/-- The test in input.py lines 29-31. -/
def scaled (scale : Bool) (low high : List (Bound K)) : Bool :=
  scale && !(low.any Bound.isInf) && !(high.any Bound.isInf) && (List.zipWith width low high).any fun d => d ≠ 0

/-- Line 34 for one component; a division by zero is not a number: `none`. -/
def rescale (x : K) : Bound K → Bound K → Option K
  | .fin a, .fin b => if b - a = 0 then none else some ((x - a) / (b - a))
  | _, _ => none

/-- Line 34. -/
def rescaleAll : List K → List (Bound K) → List (Bound K) → List (Option K)
  | x :: xs, a :: as, b :: bs => rescale x a b :: rescaleAll xs as bs
  | _, _, _ => []

/-- `observation_input` with `tf.layers.flatten`: the numbers given to the network (`none`: not a number).  An observation that is not of the space does not fit the placeholder. -/
def observationInput (sp : ObSpace K) (scale : Bool) (o : Obs K) : Py (List (Option K)) :=
  match sp, o with
  | .discrete n, .idx i => .ok (oneHot n i)
  | .box low high, .vec x =>
    if x.length = low.length then .ok (if scaled scale low high then rescaleAll x low high else x.map some) else .error .valueError
  | .multiBinary n, .ints l => if l.length = n then .ok (l.map fun (i : ℤ) => some (i : K)) else .error .valueError
  | .multiDiscrete nvec, .ints l => if l.length = nvec.length then .ok (List.zipWith oneHot nvec l).flatten else .error .valueError
  | .other, _ => .error .runtimeError
  | _, _ => .error .valueError

/-! ### Layers -/

/-- The variable scopes below `model`. -/
inductive Scope
  | shared (i : ℕ) | pi (i : ℕ) | vf (i : ℕ) | piHead | qHead | vfHead
deriving DecidableEq

/-- Their names in the graph. -/
def Scope.name : Scope → Str
  | .shared i => "shared_fc".toList ++ Nat.toDigits 10 i
  | .pi i => "pi_fc".toList ++ Nat.toDigits 10 i
  | .vf i => "vf_fc".toList ++ Nat.toDigits 10 i
  | .piHead => "pi".toList
  | .qHead => "q".toList
  | .vfHead => "vf".toList

/-- The variables: weight and bias of every scope, and `pi/logstd`. -/
structure Vars (K : Type) where
  w : Scope → ℕ → ℕ → K
  b : Scope → ℕ → K
  logstd : ℕ → K

/-- `linear`, tf_layers.py lines 110-125. -/
def linear (θ : Vars K) (s : Scope) (n : ℕ) (x : List K) : List K := (List.range n).map fun j => (x.zipIdx.map fun p => p.1 * θ.w s p.2 j).sum + θ.b s j

/-- `act_fun(linear(...))`. -/
def layer (θ : Vars K) (act : K → K) (s : Scope) (n : ℕ) (x : List K) : List K := (linear θ s n x).map act

/-! ### `mlp_extractor` -/

/-- The size of a layer in the user's list. -/
inductive Size
  | int (n : ℕ) | lstm | other
deriving DecidableEq

/-- The value under a key of the dict. -/
inductive Field_
  | absent | list (l : List Size) | other

/-- The entries of `net_arch`. -/
inductive Item
  | size (s : Size) | dict (pi vf : Field_)

/-- policies.py lines 71-77. -/
def Field_.get : Field_ → Py (List Size)
  | .absent => .ok []
  | .list l => .ok l
  | .other => .error .assertion

/-- Lines 62-78. -/
def sharedLoop (θ : Vars K) (act : K → K) : ℕ → List Item → List K → Py (List K × List Size × List Size)
  | _, [], x => .ok (x, [], [])
  | i, .size (.int n) :: t, x => sharedLoop θ act (i + 1) t (layer θ act (.shared i) n x)
  | _, .size _ :: _, _ => .error .assertion
  | _, .dict p v :: _, x => do
    let p ← p.get
    let v ← v.get
    .ok (x, p, v)

/-- Lines 81-92 for one of the two networks (they do not affect each other). -/
def branch (θ : Vars K) (act : K → K) (sc : ℕ → Scope) : ℕ → List Size → List K → Py (List K)
  | _, [], x => .ok x
  | i, .int n :: t, x => branch θ act sc (i + 1) t (layer θ act (sc i) n x)
  | _, _ :: _, _ => .error .assertion

/-- `mlp_extractor`. -/
def mlpExtractor (θ : Vars K) (act : K → K) (arch : List Item) (x : List K) : Py (List K × List K) := do
  let r ← sharedLoop θ act 0 arch x
  let p ← branch θ act .pi 0 r.2.1 r.1
  let v ← branch θ act .vf 0 r.2.2 r.1
  .ok (p, v)

/-! ### The heads (distributions.py) -/

/-- The action spaces. -/
inductive ActKind
  | discrete (n : ℕ) | multiDiscrete (nvec : List ℕ) | box (n : ℕ) | binary (n : ℕ)

/-- The number of outputs of the policy head. -/
def ActKind.size : ActKind → ℕ
  | .discrete n => n
  | .multiDiscrete nvec => nvec.sum
  | .box n => n
  | .binary n => n

/-- The outputs of a policy: parameters of the distribution, `policy`, `value_fn`, `q_value`. -/
structure Outputs (K : Type) where
  pdparam : List K
  policy : List K
  value : List K
  q : List K
deriving DecidableEq

/-- `linear(vf_latent, 'vf', 1)` and `proba_distribution_from_latent`. -/
def heads (θ : Vars K) (k : ActKind) (pi vf : List K) : Outputs K :=
  let p := linear θ .piHead k.size pi
  { pdparam := match k with
      | .box n => p ++ p.zipIdx.map fun a => a.1 * 0 + θ.logstd a.2
      | _ => p
    policy := p, value := linear θ .vfHead 1 vf, q := linear θ .qHead k.size vf }

/-! ### The policies -/

/-- `feature_extraction`. -/
inductive Fe
  | cnn | mlp | other
deriving DecidableEq

/-- `FeedForwardPolicy.__init__`, lines 543-570, on one processed observation; `cnn` are the features of the CNN. -/
def feedForward (θ : Vars K) (act : K → K) (fe : Fe) (extra : Bool) (layers : Option (List Size)) (arch : Option (List Item)) (k : ActKind) (cnn : List K → List K) (x : List K) : Py (Outputs K) :=
  if fe = .mlp ∧ extra = true then .error .valueError
  else
    let ls := layers.getD [.int 64, .int 64]
    let arch := arch.getD [.dict (.list ls) (.list ls)]
    if fe = .cnn then .ok (heads θ k (cnn x) (cnn x))
    else do
      let r ← mlpExtractor θ act arch x
      .ok (heads θ k r.1 r.2)

/-- `LstmPolicy.__init__` with `net_arch`, lines 452-476: the batch of latent vectors, and whether the recurrent layer has been made. -/
def lstmLoop (θ : Vars K) (act : K → K) (rnn : List (List K) → List (List K)) : ℕ → List Item → List (List K) → Bool → Py (List (List K) × Bool × List Size × List Size)
  | _, [], x, c => .ok (x, c, [], [])
  | i, .size (.int n) :: t, x, c => lstmLoop θ act rnn (i + 1) t (x.map (layer θ act (.shared i) n)) c
  | i, .size .lstm :: t, x, c => if c then .error .valueError else lstmLoop θ act rnn (i + 1) t (rnn x) true
  | _, .size .other :: _, _, _ => .error .assertion
  | _, .dict p v :: _, x, c => do
    let p ← p.get
    let v ← v.get
    .ok (x, c, p, v)

/-- Lines 479-485 and 488-495. -/
def lstmBranch (θ : Vars K) (act : K → K) (sc : ℕ → Scope) : ℕ → List Size → List (List K) → Py (List (List K))
  | _, [], x => .ok x
  | i, .int n :: t, x => lstmBranch θ act sc (i + 1) t (x.map (layer θ act (sc i) n))
  | _, .lstm :: _, _ => .error .runtimeError
  | _, .other :: _, _ => .error .assertion

/-- Lines 440-503: the outputs of a batch. -/
def lstmPolicy (θ : Vars K) (act : K → K) (fe : Fe) (arch : List Item) (k : ActKind) (rnn : List (List K) → List (List K)) (x : List (List K)) : Py (List (Outputs K)) :=
  if fe = .cnn then .error .runtimeError
  else do
    let r ← lstmLoop θ act rnn 0 arch x false
    let p ← lstmBranch θ act .pi 0 r.2.2.1 r.1
    let v ← lstmBranch θ act .vf 0 r.2.2.2 r.1
    if r.2.1 then .ok (List.zipWith (heads θ k) p v) else .error .valueError

/-- Lines 414-438, without `net_arch`: the layers before the recurrent layer have the names of policy layers; both heads take its output. -/
def lstmLegacy (θ : Vars K) (act : K → K) (fe : Fe) (layers : Option (List ℕ)) (k : ActKind) (cnn : List K → List K) (rnn : List (List K) → List (List K)) (x : List (List K)) : List (Outputs K) :=
  let f := if fe = .cnn then x.map cnn else x.map fun o => ((layers.getD [64, 64]).zipIdx).foldl (fun o l => layer θ act (.pi l.2) l.1 o) o
  (rnn f).map fun l => heads θ k l l

/-- `step` of a feed-forward policy, lines 574-581: `neglogp` was built for the sampled action (line 238). -/
def step {A : Type} (sample mode : A) (neglogp : A → K) (value : K) (deterministic : Bool) : A × K × K :=
  if deterministic then (mode, value, neglogp sample) else (sample, value, neglogp sample)

/-! ### Shapes of `nature_cnn` -/

/-- One side of the output of a `VALID` convolution; an input smaller than the filter is refused. -/
def convSide (filter stride n : ℕ) : Option ℕ := if filter ≤ n then some ((n - filter) / stride + 1) else none

/-- Lines 26-28. -/
def natureSide (n : ℕ) : Option ℕ := ((convSide 8 4 n).bind (convSide 4 2)).bind (convSide 3 1)

/-- Lines 26-29: the number of inputs of `fc1` (`conv_to_fc`). -/
def natureFlat (h w : ℕ) : Option ℕ :=
  match natureSide h, natureSide w with
  | some a, some b => some (a * b * 64)
  | _, _ => none

/-! ### `ortho_init` -/

/-- The two-dimensional shape, tf_layers.py lines 29-35. -/
def flatShape : List ℕ → Py (ℕ × ℕ)
  | [a, b] => .ok (a, b)
  | [a, b, c, d] => .ok (a * b * c, d)
  | _ => .error .runtimeError

/-- Lines 36-40 for a matrix shape: `u` if it has the right shape, else `v`; the cut at the end takes everything. -/
def orthoInit {m n : ℕ} (scale : K) (u : Matrix (Fin m) (Fin (min m n)) K) (v : Matrix (Fin (min m n)) (Fin n) K) : Matrix (Fin m) (Fin n) K :=
  .of fun i j => scale * (if h : min m n = n then u i (Fin.cast h.symm j) else v (Fin.cast (by omega) i) j)

/-! ### The registry -/

/-- `_policy_registry`: for each base class its names. -/
abbrev Registry (C P : Type) := List (C × List (Str × P))

/-- `get_policy_from_name`. -/
def getPolicy {C P : Type} [DecidableEq C] (r : Registry C P) (base : C) (name : Str) : Py P :=
  match r.lookup base with
  | none => .error .valueError
  | some d => match d.lookup name with
    | none => .error .valueError
    | some p => .ok p

/-- Assignment to a key of a dict. -/
def setKey {A B : Type} [DecidableEq A] (k : A) (v : B) : List (A × B) → List (A × B)
  | [] => [(k, v)]
  | (a, b) :: t => if a = k then (k, v) :: t else (a, b) :: setKey k v t

/-- `register_policy`: `subs` are the direct subclasses of `BasePolicy` in their order, `sub` says whether the policy is below one. -/
def registerPolicy {C P : Type} [DecidableEq C] (subs : List C) (sub : P → C → Bool) (r : Registry C P) (name : Str) (p : P) : Py (Registry C P) :=
  match subs.find? (sub p) with
  | none => .error .valueError
  | some c =>
    let d := (r.lookup c).getD []
    if (d.lookup name).isSome then .error .valueError else .ok (setKey c (setKey name p d) r)

end Neorl.Nets

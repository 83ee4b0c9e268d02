import Verif.Py
import Mathlib.Algebra.BigOperators.Field
import Mathlib.Algebra.Field.Basic
import Mathlib.Data.Fintype.BigOperators
import Mathlib.Data.Fintype.Prod

/-!
# The recurrent layer (neorl/rl/baselines/shared/tf_layers.py, lines 128-198; tf_util.py, lines 24-55)

The networks before and after the layer act on every sample alone and are left out.  Rows of tensors are functions on `Fin`; the `4 n` columns of the gates are four blocks of `n`.  Sigmoid, tanh and the square
root are arbitrary functions.
-/

set_option linter.unusedSectionVars false
set_option linter.unusedVariables false

namespace Neorl.Lstm

variable {K : Type} [Field K] {m n : ℕ}

/-- A row of the gates: `in_gate`, `forget_gate`, `out_gate`, `cell_candidate` (line 167). -/
abbrev Gates (K : Type) (n : ℕ) := Fin 4 → Fin n → K

/-- Gain and bias of the three layer normalisations (lines 146-156). -/
structure Norm (K : Type) (n : ℕ) where
  gx : Gates K n
  bx : Gates K n
  gh : Gates K n
  bh : Gates K n
  gc : Fin n → K
  bc : Fin n → K
  eps : K

/-- The variables of the layer (lines 142-156), and the functions of TensorFlow. -/
structure Layer (K : Type) (m n : ℕ) where
  wx : Fin m → Gates K n
  wh : Fin n → Gates K n
  b : Gates K n
  norm : Option (Norm K n)
  sigmoid : K → K
  tanh : K → K
  sqrt : K → K

/-- A row of `cell_state_hidden` (lines 158 and 178). -/
structure State (K : Type) (n : ℕ) where
  cell : Fin n → K
  hidden : Fin n → K

/-- A row of `tf.matmul(x, w)`. -/
def mul {k : ℕ} (x : Fin k → K) (w : Fin k → Gates K n) : Gates K n := fun g j => ∑ i, x i * w i g j

/-- `_ln` (lines 182-198) of a row with the entries `v i`. -/
def ln {ι : Type} [Fintype ι] (sqrt : K → K) (eps : K) (v gain bias : ι → K) : ι → K :=
  let mean := (∑ i, v i) / Fintype.card ι
  let var := (∑ i, (v i - mean) * (v i - mean)) / Fintype.card ι
  fun i => (v i - mean) / sqrt (var + eps) * gain i + bias i

/-- `_ln` of a row of gates, over all `4 n` columns. -/
def lnGates (sqrt : K → K) (eps : K) (v gain bias : Gates K n) : Gates K n := fun g j => ln sqrt eps (fun p : Fin 4 × Fin n => v p.1 p.2) (fun p => gain p.1 p.2) (fun p => bias p.1 p.2) (g, j)

/-- The loop body for one row (lines 160-176). -/
def cell (w : Layer K m n) (x : Fin m → K) (mask : K) (s : State K n) : State K n :=
  let c : Fin n → K := fun j => s.cell j * (1 - mask)
  let h : Fin n → K := fun j => s.hidden j * (1 - mask)
  let gates : Gates K n := match w.norm with
    | some p => fun g j => lnGates w.sqrt p.eps (mul x w.wx) p.gx p.bx g j + lnGates w.sqrt p.eps (mul h w.wh) p.gh p.bh g j + w.b g j
    | none => fun g j => mul x w.wx g j + mul h w.wh g j + w.b g j
  let c' : Fin n → K := fun j => w.sigmoid (gates 1 j) * c j + w.sigmoid (gates 0 j) * w.tanh (gates 3 j)
  let h' : Fin n → K := match w.norm with
    | some p => fun j => w.sigmoid (gates 2 j) * w.tanh (ln w.sqrt p.eps c' p.gc p.bc j)
    | none => fun j => w.sigmoid (gates 2 j) * w.tanh (c' j)
  ⟨c', h'⟩

/-- The loop (lines 158-179) over the time steps; every tensor has one row per environment.  The outputs and the last state. -/
def lstm (w : Layer K m n) : List (List (Fin m → K)) → List (List K) → List (State K n) → List (List (Fin n → K)) × List (State K n)
  | x :: xs, k :: ks, s =>
    let s' := List.zipWith (fun (p : (Fin m → K) × K) s => cell w p.1 p.2 s) (x.zip k) s
    let (os, l) := lstm w xs ks s'
    (s'.map State.hidden :: os, l)
  | _, _, s => ([], s)

/-- `batch_to_seq` (tf_util.py 24-38): `reshape` to `[n_batch, n_steps, …]`, then split along the second axis. -/
def batchToSeq {α : Type} (nEnv nSteps : ℕ) (l : List α) : Py (List (List α)) :=
  if l.length = nEnv * nSteps then .ok ((List.range nSteps).map fun t => (List.range nEnv).filterMap fun e => l[e * nSteps + t]?) else .error .valueError

/-- `seq_to_batch` (tf_util.py 41-55): joined along the second axis, then `reshape` to one row per sample. -/
def seqToBatch {α : Type} : List (List α) → Py (List α)
  | [] => .error .indexError
  | r :: rs => .ok ((List.range r.length).flatMap fun e => (r :: rs).filterMap fun row => row[e]?)

/-- The recurrent layer of a policy (policies.py 428-432 and 459-463): features and masks of the samples, states of the environments; the outputs of the samples and the new states. -/
def layer (w : Layer K m n) (nEnv nSteps : ℕ) (x : List (Fin m → K)) (mask : List K) (s : List (State K n)) : Py (List (Fin n → K) × List (State K n)) := do
  let xs ← batchToSeq nEnv nSteps x
  let ks ← batchToSeq nEnv nSteps mask
  let (os, s') := lstm w xs ks s
  let o ← seqToBatch os
  .ok (o, s')

/-- Acting (ppo2.py 471-476): the network with one step per environment, once per time step, with the state it returned before. -/
def acting (w : Layer K m n) (nEnv : ℕ) : List (List (Fin m → K)) → List (List K) → List (State K n) → Py (List (List (Fin n → K)) × List (State K n))
  | x :: xs, k :: ks, s => do
    let (o, s') ← layer w nEnv 1 x k s
    let (os, l) ← acting w nEnv xs ks s'
    .ok (o :: os, l)
  | _, _, s => .ok ([], s)

end Neorl.Lstm

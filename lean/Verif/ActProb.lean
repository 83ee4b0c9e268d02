import Verif.Py
import Verif.Dist

/-!
# `predict` and `action_probability`

Model of `_is_vectorized_observation`, `predict` and `action_probability` of `neorl/rl/baselines/shared/base_class.py` (lines 691-750 and 810-909) together with the
`_policy_proba` of `neorl/rl/baselines/shared/policies.py` (lines 240-251), over the real numbers.

The network is a parameter: `outs` is its output, one flat vector per row of observations.  Arrays are lists of rows; reshapes of the actions given by the caller are already done
(`acts` is the list of rows).  Arrays are not restricted to float32.
-/

set_option linter.unusedSectionVars false
set_option linter.unusedVariables false

namespace Neorl.ActProb

open Real Neorl.Dist

/-! ### Shape of the observation, lines 703-750 -/

/-- Observation spaces that `_is_vectorized_observation` distinguishes. -/
inductive ObsSpace
  | box (shape : List ℕ)
  | discrete
  | multiDiscrete (k : ℕ)
  | multiBinary (n : ℕ)
  | other
  deriving DecidableEq

/-- `_is_vectorized_observation`, lines 703-750; `sh` is `observation.shape`. -/
def isVectorized (sp : ObsSpace) (sh : List ℕ) : Py Bool :=
  match sp with
  | .box shape => if sh = shape then .ok false else if sh.drop 1 = shape then .ok true else .error .valueError
  | .discrete => if sh = [] then .ok false else if sh.length = 1 then .ok true else .error .valueError
  | .multiDiscrete k => if sh = [k] then .ok false else if sh.length = 2 ∧ sh[1]? = some k then .ok true else .error .valueError
  | .multiBinary n => if sh = [n] then .ok false else if sh.length = 2 ∧ sh[1]? = some n then .ok true else .error .valueError
  | .other => .error .valueError

/-! ### What is returned -/

/-- The array for all rows, or its first entry, lines 826-829 and 904-907. -/
inductive Ret (α β : Type)
  | all (l : α)
  | one (x : β)

/-- Lines 826-831 and 904-909: an observation that is no batch gets the first entry (`IndexError` if there is none); not allowed with recurrent policies. -/
def finish {α : Type} (vectorized recurrent : Bool) (ret : List α) : Py (Ret (List α) α) :=
  if vectorized then .ok (.all ret)
  else if recurrent then .error .valueError
  else match ret with
    | [] => .error .indexError
    | x :: _ => .ok (.one x)

/-! ### `predict`, lines 810-831 -/

/-- `np.clip(a, low, high)`. -/
noncomputable def clip (low high a : ℝ) : ℝ := min (max a low) high

/-- `predict` with a `Box` action space, lines 819-831; `actions` is what `self.step` returns. -/
noncomputable def predictBox {n : ℕ} (low high : Fin n → ℝ) (vectorized recurrent : Bool) (actions : List (Fin n → ℝ)) : Py (Ret (List (Fin n → ℝ)) (Fin n → ℝ)) :=
  finish vectorized recurrent (actions.map fun a i => clip (low i) (high i) (a i))

/-! ### `action_probability`, lines 833-909 -/

/-- Index into an axis of length `n`: negative numbers count from the end. -/
def npIndex (n : ℕ) (a : ℤ) : Option (Fin n) :=
  if h : 0 ≤ a ∧ a < n then some ⟨a.toNat, by omega⟩
  else if h : -n ≤ a ∧ a < 0 then some ⟨(a + n).toNat, by omega⟩
  else none

/-- `_softmax`, lines 692-700, one row: shifted by the maximum. -/
noncomputable def softmaxShifted {n : ℕ} (x : Fin n → ℝ) (i : Fin n) : ℝ := exp (x i - ⨆ j, x j) / ∑ k, exp (x k - ⨆ j, x j)

/-- The batch sizes must agree, lines 856-857, 862-863 and 870-871; then row by row. -/
def perRow {O A : Type} (f : O → A → Py ℝ) (outs : List O) (acts : List A) : Py (List ℝ) :=
  if outs.length = acts.length then (outs.zip acts).mapM fun p => f p.1 p.2 else .error .assertion

/-- `Discrete`, line 858, with `tf.nn.softmax` of policies.py line 242. -/
noncomputable def discreteRow {n : ℕ} (l : Fin n → ℝ) (a : ℤ) : Py ℝ :=
  match npIndex n a with
  | some i => .ok (softmax l i)
  | none => .error .indexError

/-- `MultiDiscrete`, lines 864-867, with the softmax of every category, policies.py lines 247-249. -/
noncomputable def multiRow {m : ℕ} {n : Fin m → ℕ} (flat : Fin (∑ k, n k) → ℝ) (a : Fin m → ℤ) : Py ℝ :=
  if h : ∀ k, (npIndex (n k) (a k)).isSome then .ok (∏ k, softmax (block flat k) ((npIndex (n k) (a k)).get (h k)))
  else .error .indexError

/-- `MultiBinary`, line 873, with `tf.nn.sigmoid`, policies.py line 246. -/
noncomputable def binaryRow {n : ℕ} (l a : Fin n → ℝ) : ℝ := ∏ i, (sigmoid (l i) * a i + (1 - sigmoid (l i)) * (1 - a i))

/-- `mean, logstd = actions_proba`, line 877: by policies.py line 244 the two arrays are the means and the standard deviations. -/
noncomputable def boxProba {n : ℕ} (flat : Fin (n + n) → ℝ) : (Fin n → ℝ) × (Fin n → ℝ) := (mean flat, std flat)

/-- `Box`, lines 877-884: the logarithm. -/
noncomputable def boxLogRow {n : ℕ} (flat : Fin (n + n) → ℝ) (a : Fin n → ℝ) : ℝ :=
  let mean := (boxProba flat).1
  let logstd := (boxProba flat).2
  let std := fun i => exp (logstd i)
  let quad := ∑ i, (a i - mean i) ^ 2 / (2 * std i)
  let logNormalizer := n / 2 * log (2 * π) + 0.5 * ∑ i, logstd i
  (-quad) - logNormalizer

/-- No check of the batch sizes for `Box`: `actions - mean` is broadcast, line 884. -/
def broadcast {O A : Type} (f : O → A → ℝ) (outs : List O) (acts : List A) : Py (List ℝ) :=
  if outs.length = acts.length then .ok (List.zipWith f outs acts)
  else match outs, acts with
    | _, [a] => .ok (outs.map fun o => f o a)
    | [o], _ => .ok (acts.map fun a => f o a)
    | _, _ => .error .valueError

/-- Lines 891-899 when `prob` was computed: take the logarithm if asked to. -/
noncomputable def ofProb (logp : Bool) (p : ℝ) : ℝ := if logp then log p else p

/-- Lines 891-899 when `logprob` was computed: take the exponential unless asked not to. -/
noncomputable def ofLog (logp : Bool) (p : ℝ) : ℝ := if logp then p else exp p

/-- `action_probability(observation, actions=acts, logp=logp)` for a `Discrete` action space. -/
noncomputable def discrete {n : ℕ} (vectorized recurrent logp : Bool) (outs : List (Fin n → ℝ)) (acts : List ℤ) : Py (Ret (List ℝ) ℝ) := do
  let prob ← perRow discreteRow outs acts
  finish vectorized recurrent (prob.map (ofProb logp))

/-- The same for `MultiDiscrete`. -/
noncomputable def multiDiscrete {m : ℕ} {n : Fin m → ℕ} (vectorized recurrent logp : Bool) (outs : List (Fin (∑ k, n k) → ℝ)) (acts : List (Fin m → ℤ)) : Py (Ret (List ℝ) ℝ) := do
  let prob ← perRow multiRow outs acts
  finish vectorized recurrent (prob.map (ofProb logp))

/-- The same for `MultiBinary`. -/
noncomputable def multiBinary {n : ℕ} (vectorized recurrent logp : Bool) (outs acts : List (Fin n → ℝ)) : Py (Ret (List ℝ) ℝ) := do
  let prob ← perRow (fun l a => .ok (binaryRow l a)) outs acts
  finish vectorized recurrent (prob.map (ofProb logp))

/-- The same for `Box`. -/
noncomputable def box {n : ℕ} (vectorized recurrent logp : Bool) (outs : List (Fin (n + n) → ℝ)) (acts : List (Fin n → ℝ)) : Py (Ret (List ℝ) ℝ) := do
  let logprob ← broadcast boxLogRow outs acts
  finish vectorized recurrent (logprob.map (ofLog logp))

/-- `actions=None`, `Discrete`: the rows of probabilities, lines 901-909. -/
noncomputable def discreteAll {n : ℕ} (vectorized recurrent : Bool) (outs : List (Fin n → ℝ)) : Py (Ret (List (Fin n → ℝ)) (Fin n → ℝ)) :=
  finish vectorized recurrent (outs.map softmax)

/-- `actions=None`, `MultiDiscrete`: a list with one array per category; category `k` is an array of rows. -/
noncomputable def multiAll {m : ℕ} {n : Fin m → ℕ} (vectorized recurrent : Bool) (outs : List (Fin (∑ k, n k) → ℝ)) : Py (Ret (List (List (List ℝ))) (List (List ℝ))) :=
  finish vectorized recurrent ((List.finRange m).map fun k => outs.map fun o => List.ofFn (softmax (block o k)))

/-- `actions=None`, `Box`: a list of two arrays, means and standard deviations. -/
noncomputable def boxAll {n : ℕ} (vectorized recurrent : Bool) (outs : List (Fin (n + n) → ℝ)) : Py (Ret (List (List (Fin n → ℝ))) (List (Fin n → ℝ))) :=
  finish vectorized recurrent [outs.map fun o => (boxProba o).1, outs.map fun o => (boxProba o).2]

/-! ### Lemmas -/

theorem mapM_ok_map {α β : Type} (f : α → Py β) (g : α → β) : ∀ l : List α, (∀ a ∈ l, f a = .ok (g a)) → l.mapM f = .ok (l.map g)
  | [], _ => rfl
  | a :: l, h => by
    rw [List.mapM_cons, h a (by simp), mapM_ok_map f g l (fun b hb => h b (by simp [hb]))]
    rfl

theorem perRow_ok {O A : Type} {f : O → A → Py ℝ} {g : O → A → ℝ} {outs : List O} {acts : List A} (hl : outs.length = acts.length) (h : ∀ p ∈ outs.zip acts, f p.1 p.2 = .ok (g p.1 p.2)) :
    perRow f outs acts = .ok (List.zipWith g outs acts) := by
  rw [perRow, if_pos hl, mapM_ok_map _ (fun p => g p.1 p.2) _ h, List.map_zip_eq_zipWith]
  rfl

theorem npIndex_nonneg {n : ℕ} (i : Fin n) : npIndex n (i : ℤ) = some i := by
  unfold npIndex
  rw [dif_pos ⟨by omega, by omega⟩]
  simp

theorem npIndex_neg {n : ℕ} (i : Fin n) : npIndex n ((i : ℤ) - n) = some i := by
  unfold npIndex
  rw [dif_neg (by omega), dif_pos ⟨by omega, by omega⟩]
  simp

theorem npIndex_none {n : ℕ} {a : ℤ} (h : a < -n ∨ n ≤ a) : npIndex n a = none := by
  unfold npIndex
  rw [dif_neg (by omega), dif_neg (by omega)]

end Neorl.ActProb

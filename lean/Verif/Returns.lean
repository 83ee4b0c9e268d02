import Mathlib.Algebra.Order.Field.Basic
import Mathlib.Algebra.BigOperators.Group.List.Basic
import Mathlib.Algebra.BigOperators.Group.Finset.Basic
import Mathlib.Algebra.BigOperators.Ring.Finset
import Mathlib.Algebra.BigOperators.Intervals
import Mathlib.Tactic.FieldSimp
import Mathlib.Tactic.Ring
import Mathlib.Tactic.Linarith
import Mathlib.Tactic.LinearCombination

/-!
# Returns and advantages

The backward recursions that turn rewards, done flags and value estimates into training targets, for one environment (numpy works columnwise):

* `neorl/rl/baselines/shared/math_util.py`: `discount` (lines 16-27), `discount_with_boundaries` (lines 98-114);
* `neorl/rl/baselines/a2c/a2c.py`: `discount_with_dones` (lines 30-44), the bootstrap of `A2CRunner._run` (lines 399-407);
* `neorl/rl/baselines/ppo2/ppo2.py`: generalised advantage estimation in `Runner._run` (lines 505-519), `swap_and_flatten` (lines 528-536);
* `neorl/rl/baselines/acer/acer_simple.py`: `q_retrace` (lines 63-92).

Float rounding is not modelled: `K` is a field.
-/

set_option linter.unusedSectionVars false
set_option linter.unusedVariables false

namespace Neorl.Returns

variable {K : Type} [Field K] [LinearOrder K] [IsStrictOrderedRing K]

/-- A numpy bool used as a number. -/
def b2k (b : Bool) : K := if b then 1 else 0

/-! ### `math_util.py` -/

/-- `scipy.signal.lfilter([1], [1, -gamma], x)`: `y[n] = x[n] + gamma * y[n-1]`; `prev` is `y[n-1]`, zero at the start. -/
def lfilter (gamma : K) : K → List K → List K
  | _, [] => []
  | prev, x :: xs => (x + gamma * prev) :: lfilter gamma (x + gamma * prev) xs

/-- `discount`, lines 16-27. -/
def discount (v : List K) (gamma : K) : List K := (lfilter gamma 0 v.reverse).reverse

/-- The loop `for step in range(n_samples - 2, -1, -1)` of `discount_with_boundaries`, lines 112-113: `k` steps are left. -/
def boundLoop (rewards : List K) (starts : List Bool) (gamma : K) : ℕ → List K → List K
  | 0, d => d
  | k + 1, d => boundLoop rewards starts gamma k (d.set k (rewards.getD k 0 + gamma * d.getD (k + 1) 0 * (1 - b2k (starts.getD (k + 1) false))))

/-- `discount_with_boundaries`, lines 98-114 (non-empty `rewards`, as the code indexes the last one). -/
def discountBoundaries (rewards : List K) (starts : List Bool) (gamma : K) : List K :=
  let n := rewards.length
  boundLoop rewards starts gamma (n - 1) ((List.replicate n 0).set (n - 1) (rewards.getD (n - 1) 0))

/-! ### `a2c.py` -/

/-- The loop of `discount_with_dones`, lines 41-43, over the reversed lists; values are appended. -/
def ddLoop (gamma : K) : K → List K → List Bool → List K
  | ret, r :: rs, d :: ds =>
    let ret' := r + gamma * ret * (1 - b2k d)
    ret' :: ddLoop gamma ret' rs ds
  | _, _, _ => []

/-- `discount_with_dones`, lines 30-44. -/
def discountDones (rewards : List K) (dones : List Bool) (gamma : K) : List K := (ddLoop gamma 0 rewards.reverse dones.reverse).reverse

/-- Lines 399-407 of `A2CRunner._run` for one environment; `none` where `dones[-1]` raises (no step). -/
def a2cReturns (rewards : List K) (dones : List Bool) (value gamma : K) : Option (List K) :=
  match dones.getLast? with
  | none => none
  | some false => some (discountDones (rewards ++ [value]) (dones ++ [false]) gamma).dropLast
  | some true => some (discountDones rewards dones gamma)

/-! ### `ppo2.py` -/

/-- What the runner recorded for one environment: `mb_rewards`, `mb_values`, `mb_dones` (flag on entry to each step), `self.dones` and `last_values` after the last step. -/
structure Roll (K : Type) where
  n : ℕ
  rewards : ℕ → K
  values : ℕ → K
  dones : ℕ → Bool
  lastDone : Bool
  lastValue : K

/-- `nextnonterminal`, lines 510-514. -/
def Roll.nonterminal (r : Roll K) (step : ℕ) : K := if step = r.n - 1 then 1 - b2k r.lastDone else 1 - b2k (r.dones (step + 1))
/-- `nextvalues`, lines 510-515. -/
def Roll.nextValue (r : Roll K) (step : ℕ) : K := if step = r.n - 1 then r.lastValue else r.values (step + 1)

/-- The loop over `reversed(range(n_steps))`, lines 509-517: `k` steps are left, `last` is `last_gae_lam`, the result is `mb_advs`. -/
def gaeLoop (r : Roll K) (gamma lam : K) : ℕ → K → List K → List K
  | 0, _, advs => advs
  | k + 1, last, advs =>
    let delta := r.rewards k + gamma * r.nextValue k * r.nonterminal k - r.values k
    let last' := delta + gamma * lam * r.nonterminal k * last
    gaeLoop r gamma lam k last' (advs.set k last')

/-- `mb_advs`, lines 505-517. -/
def gae (r : Roll K) (gamma lam : K) : List K := gaeLoop r gamma lam r.n 0 (List.replicate r.n 0)

/-- `mb_returns = mb_advs + mb_values`, line 519. -/
def returns (r : Roll K) (gamma lam : K) : List K := (gae r gamma lam).mapIdx (fun i a => a + r.values i)

/-- `swap_and_flatten`, lines 528-536, of `arr[step][env]`: `arr.swapaxes(0, 1)` lists environment by environment. -/
def swapFlatten {α : Type} (steps envs : ℕ) (arr : ℕ → ℕ → α) : List α :=
  (List.range envs).flatMap (fun e => (List.range steps).map (fun t => arr t e))

/-! ### `acer_simple.py` -/

/-- The loop of `q_retrace`, lines 83-88, steps `k-1, ..., 0`; `qrets` is appended to, so the list is reversed at the end. -/
def retraceLoop (rewards q values rho : ℕ → K) (dones : ℕ → Bool) (gamma : K) : ℕ → K → List K → List K
  | 0, _, out => out
  | k + 1, qret, out =>
    let q1 := rewards k + gamma * qret * (1 - b2k (dones k))
    retraceLoop rewards q values rho dones gamma k (min 1 (rho k) * (q1 - q k) + values k) (out ++ [q1])

/-- `q_retrace`, lines 63-92, one environment. -/
def qRetrace (rewards q values rho : ℕ → K) (dones : ℕ → Bool) (n : ℕ) (gamma : K) : List K :=
  (retraceLoop rewards q values rho dones gamma n (values n) []).reverse

/-! ### Lemmas -/

theorem length_lfilter (g : K) : ∀ (p : K) (l : List K), (lfilter g p l).length = l.length
  | _, [] => rfl
  | p, x :: xs => by simp [lfilter, length_lfilter g _ xs]

theorem lfilter_append (g : K) : ∀ (p : K) (l : List K) (x : K), lfilter g p (l ++ [x]) = lfilter g p l ++ [x + g * ((lfilter g p l).getLast?.getD p)]
  | p, [], x => by simp [lfilter]
  | p, y :: ys, x => by
    rw [List.cons_append, lfilter, lfilter, lfilter_append g _ ys x]
    simp only [List.cons_append]
    congr 3
    cases h : lfilter g (y + g * p) ys with
    | nil => simp
    | cons a l =>
      rw [List.getLast?_cons_cons, List.getLast?_eq_some_getLast (List.cons_ne_nil a l)]
      simp

theorem length_ddLoop (g : K) : ∀ (p : K) (l : List K) (d : List Bool), l.length = d.length → (ddLoop g p l d).length = l.length
  | _, [], [], _ => rfl
  | p, x :: xs, d :: ds, h => by
    simp only [List.length_cons, Nat.add_right_cancel_iff] at h
    simp [ddLoop, length_ddLoop g _ xs ds h]
  | _, [], _ :: _, h => by simp at h
  | _, _ :: _, [], h => by simp at h

theorem ddLoop_append (g : K) : ∀ (p : K) (l : List K) (d : List Bool) (x : K) (b : Bool), l.length = d.length →
    ddLoop g p (l ++ [x]) (d ++ [b]) = ddLoop g p l d ++ [x + g * ((ddLoop g p l d).getLast?.getD p) * (1 - b2k b)]
  | p, [], [], x, b, _ => by simp [ddLoop]
  | p, y :: ys, e :: es, x, b, h => by
    simp only [List.length_cons, Nat.add_right_cancel_iff] at h
    rw [List.cons_append, List.cons_append, ddLoop, ddLoop, ddLoop_append g _ ys es x b h]
    simp only [List.cons_append]
    congr 3
    cases h' : ddLoop g (y + g * p * (1 - b2k e)) ys es with
    | nil => simp
    | cons a l =>
      rw [List.getLast?_cons_cons, List.getLast?_eq_some_getLast (List.cons_ne_nil a l)]
      simp
  | _, [], _ :: _, _, _, h => by simp at h
  | _, _ :: _, [], _, _, h => by simp at h

/-- Forward form of `discount`. -/
theorem discount_cons (x : K) (v : List K) (g : K) : discount (x :: v) g = (x + g * ((discount v g).head?.getD 0)) :: discount v g := by
  unfold discount
  rw [List.reverse_cons, lfilter_append, List.reverse_append]
  simp

/-- Forward form of `discount_with_dones`. -/
theorem discountDones_cons (x : K) (b : Bool) (v : List K) (d : List Bool) (g : K) (h : v.length = d.length) :
    discountDones (x :: v) (b :: d) g = (x + g * ((discountDones v d g).head?.getD 0) * (1 - b2k b)) :: discountDones v d g := by
  unfold discountDones
  rw [List.reverse_cons, List.reverse_cons, ddLoop_append _ _ _ _ _ _ (by simpa using h), List.reverse_append]
  simp

theorem length_discountDones (v : List K) (d : List Bool) (g : K) (h : v.length = d.length) : (discountDones v d g).length = v.length := by
  unfold discountDones
  rw [List.length_reverse, length_ddLoop _ _ _ _ (by simpa using h), List.length_reverse]

theorem length_discount (v : List K) (g : K) : (discount v g).length = v.length := by
  unfold discount
  rw [List.length_reverse, length_lfilter, List.length_reverse]

/-- The GAE loop writes, at every step, the value of the recursion. -/
theorem gaeLoop_spec (r : Roll K) (gamma lam : K) : ∀ (k : ℕ) (last : K) (advs : List K), k ≤ advs.length →
    ∃ f : ℕ → K, f k = last ∧ (∀ i < k, f i = r.rewards i + gamma * r.nextValue i * r.nonterminal i - r.values i + gamma * lam * r.nonterminal i * f (i + 1)) ∧
      (gaeLoop r gamma lam k last advs).length = advs.length ∧ ∀ i, (gaeLoop r gamma lam k last advs)[i]? = if i < k then some (f i) else advs[i]?
  | 0, last, advs, _ => ⟨fun _ => last, rfl, by omega, rfl, by intro i; simp [gaeLoop]⟩
  | k + 1, last, advs, h => by
    set last' := r.rewards k + gamma * r.nextValue k * r.nonterminal k - r.values k + gamma * lam * r.nonterminal k * last with hl
    obtain ⟨f, f1, f2, f3, f4⟩ := gaeLoop_spec r gamma lam k last' (advs.set k last') (by rw [List.length_set]; omega)
    refine ⟨fun i => if i = k + 1 then last else f i, by simp, ?_, ?_, ?_⟩
    · intro i hi
      dsimp only
      rw [if_neg (by omega)]
      by_cases h1 : i = k
      · subst h1
        rw [if_pos rfl, f1]
      · rw [if_neg (by omega)]
        exact f2 i (by omega)
    · show (gaeLoop r gamma lam k last' (advs.set k last')).length = _
      rw [f3, List.length_set]
    · intro i
      show (gaeLoop r gamma lam k last' (advs.set k last'))[i]? = _
      rw [f4]
      dsimp only
      by_cases h1 : i < k
      · rw [if_pos h1, if_pos (by omega), if_neg (by omega)]
      · rw [if_neg h1]
        by_cases h2 : i = k
        · subst h2
          rw [if_pos (by omega), if_neg (by omega), f1, List.getElem?_set_self (by omega)]
        · rw [if_neg (by omega), List.getElem?_set_ne (by omega)]

end Neorl.Returns

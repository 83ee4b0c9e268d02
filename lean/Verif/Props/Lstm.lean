import Verif.Lstm
import Verif.Props.Rollout
import Mathlib.Algebra.Order.Field.Basic
import Mathlib.Algebra.Order.AbsoluteValue.Basic
import Mathlib.Tactic.Linarith
import Mathlib.Tactic.NormNum

/-!
# C113: the recurrent layer
-/

set_option linter.unusedSectionVars false
set_option linter.unusedVariables false

namespace Neorl.Lstm

open Neorl.Rollout (swapFlatten flatInds)

variable {K : Type} [Field K] {m n : ℕ}

section Spec

/-- One environment alone: the state after the first `t` steps, from features, masks (1 if the step before ended an episode) and the state it begins with. -/
def stateAt (w : Layer K m n) (X : ℕ → Fin m → K) (M : ℕ → K) (s : State K n) : ℕ → State K n
  | 0 => s
  | t + 1 => cell w (X t) (M t) (stateAt w X M s t)

/-- A list of tensors with one row per time step, one entry per environment, in the order "all steps of the first environment, all steps of the second, …". -/
def byEnv {α : Type} (T : ℕ) (envs : List ℕ) (F : ℕ → ℕ → α) : List α := envs.flatMap fun e => (List.range T).map fun t => F t e

/-- The same in the order of time. -/
def byTime {α : Type} (T : ℕ) (envs : List ℕ) (F : ℕ → ℕ → α) : List (List α) := (List.range T).map fun t => envs.map fun e => F t e

end Spec

theorem byEnv_length {α : Type} (T : ℕ) (envs : List ℕ) (F : ℕ → ℕ → α) : (byEnv T envs F).length = envs.length * T := by
  unfold byEnv
  induction envs with
  | nil => simp
  | cons e es ih => rw [List.flatMap_cons, List.length_append, ih]; simp; ring

theorem byEnv_get {α : Type} (T : ℕ) (F : ℕ → ℕ → α) : ∀ (envs : List ℕ) (i t : ℕ), t < T → (byEnv T envs F)[i * T + t]? = envs[i]?.map (F t)
  | [], i, t, ht => by simp [byEnv]
  | e :: es, 0, t, ht => by
    simp only [byEnv, List.flatMap_cons, Nat.zero_mul, Nat.zero_add]
    rw [List.getElem?_append_left (by simpa using ht), List.getElem?_map, List.getElem?_range ht]
    simp
  | e :: es, i + 1, t, ht => by
    have := byEnv_get T F es i t ht
    simp only [byEnv, List.flatMap_cons] at this ⊢
    rw [List.getElem?_append_right (by simp; nlinarith)]
    simp only [List.length_map, List.length_range, List.getElem?_cons_succ]
    rw [← this]
    congr 1
    rw [Nat.add_mul]
    omega

theorem filterMap_range {α β : Type} (f : α → β) : ∀ l : List α, ((List.range l.length).filterMap fun i => l[i]?.map f) = l.map f
  | [] => rfl
  | a :: l => by
    rw [List.length_cons, List.range_succ_eq_map, List.filterMap_cons]
    simp only [List.getElem?_cons_zero, Option.map_some, List.filterMap_map, List.map_cons]
    congr 1
    exact filterMap_range f l

theorem batchToSeq_byEnv {α : Type} (T : ℕ) (envs : List ℕ) (F : ℕ → ℕ → α) : batchToSeq envs.length T (byEnv T envs F) = .ok (byTime T envs F) := by
  rw [batchToSeq, if_pos (byEnv_length T envs F), byTime]
  congr 1
  refine List.map_congr_left fun t ht => ?_
  rw [List.mem_range] at ht
  rw [← filterMap_range (F t) envs]
  refine List.filterMap_congr fun i _ => ?_
  exact byEnv_get T F envs i t ht

theorem byTime_succ {α : Type} (T : ℕ) (envs : List ℕ) (F : ℕ → ℕ → α) : byTime (T + 1) envs F = envs.map (F 0) :: byTime T envs fun t => F (t + 1) := by
  rw [byTime, List.range_succ_eq_map, List.map_cons, List.map_map]
  rfl

theorem column {α : Type} (T : ℕ) (envs : List ℕ) (F : ℕ → ℕ → α) (i e : ℕ) (h : envs[i]? = some e) : ((byTime T envs F).filterMap fun row => row[i]?) = (List.range T).map fun t => F t e := by
  rw [byTime, List.filterMap_map, ← List.filterMap_eq_map]
  refine List.filterMap_congr fun t _ => ?_
  simp [h]

theorem flatMap_range {α β : Type} (f : ℕ → List β) (g : α → List β) : ∀ (l : List α), (∀ i a, l[i]? = some a → f i = g a) → (List.range l.length).flatMap f = l.flatMap g := by
  intro l
  induction l generalizing f with
  | nil => intro _; rfl
  | cons a l ih =>
    intro h
    rw [List.length_cons, List.range_succ_eq_map, List.flatMap_cons, List.flatMap_cons, List.flatMap_map, h 0 a rfl]
    congr 1
    exact ih (fun i => f (i + 1)) fun i b hb => h (i + 1) b (by simpa using hb)

theorem seqToBatch_byTime {α : Type} (T : ℕ) (envs : List ℕ) (F : ℕ → ℕ → α) : seqToBatch (byTime (T + 1) envs F) = .ok (byEnv (T + 1) envs F) := by
  rw [byTime_succ, seqToBatch, ← byTime_succ, List.length_map]
  congr 1
  exact flatMap_range _ _ envs fun i e h => column (T + 1) envs F i e h

theorem stateAt_shift (w : Layer K m n) (X : ℕ → Fin m → K) (M : ℕ → K) (s : State K n) (t : ℕ) : stateAt w (fun t => X (t + 1)) (fun t => M (t + 1)) (stateAt w X M s 1) t = stateAt w X M s (t + 1) := by
  induction t with
  | zero => rfl
  | succ t ih => rw [stateAt, ih]; rfl

theorem zipWith_row (w : Layer K m n) (envs : List ℕ) (f : ℕ → Fin m → K) (g : ℕ → K) (s : ℕ → State K n) :
    List.zipWith (fun (p : (Fin m → K) × K) s => cell w p.1 p.2 s) ((envs.map f).zip (envs.map g)) (envs.map s) = envs.map fun e => cell w (f e) (g e) (s e) := by
  induction envs with
  | nil => rfl
  | cons e es ih => simp only [List.map_cons, List.zip_cons_cons, List.zipWith_cons_cons, ih]

theorem lstm_spec (w : Layer K m n) (envs : List ℕ) : ∀ (T : ℕ) (X : ℕ → ℕ → Fin m → K) (M : ℕ → ℕ → K) (s : ℕ → State K n),
    lstm w (byTime T envs X) (byTime T envs M) (envs.map s) = (byTime T envs fun t e => (stateAt w (fun t => X t e) (fun t => M t e) (s e) (t + 1)).hidden, envs.map fun e => stateAt w (fun t => X t e) (fun t => M t e) (s e) T)
  | 0, X, M, s => rfl
  | T + 1, X, M, s => by
    rw [byTime_succ, byTime_succ, byTime_succ, lstm, zipWith_row]
    simp only
    have ih := lstm_spec w envs T (fun t => X (t + 1)) (fun t => M (t + 1)) fun e => cell w (X 0 e) (M 0 e) (s e)
    rw [ih]
    refine Prod.ext (congrArg₂ List.cons (by rw [List.map_map]; rfl) ?_) ?_
    · unfold byTime
      refine List.map_congr_left fun t _ => List.map_congr_left fun e _ => ?_
      exact congrArg State.hidden (stateAt_shift w (fun t => X t e) (fun t => M t e) (s e) (t + 1))
    · refine List.map_congr_left fun e _ => ?_
      exact stateAt_shift w (fun t => X t e) (fun t => M t e) (s e) T

/-- **C113.** The recurrent layer treats every environment alone: from a batch ordered by environment it computes for each sample what this environment's own features, masks and first state lead to, and returns
the state after the last step. -/
theorem C113_unroll (w : Layer K m n) (envs : List ℕ) (T : ℕ) (hT : 0 < T) (X : ℕ → ℕ → Fin m → K) (M : ℕ → ℕ → K) (s : ℕ → State K n) :
    layer w envs.length T (byEnv T envs X) (byEnv T envs M) (envs.map s) =
      .ok (byEnv T envs fun t e => (stateAt w (fun t => X t e) (fun t => M t e) (s e) (t + 1)).hidden, envs.map fun e => stateAt w (fun t => X t e) (fun t => M t e) (s e) T) := by
  obtain ⟨T, rfl⟩ : ∃ k, T = k + 1 := ⟨T - 1, by omega⟩
  simp only [layer, batchToSeq_byEnv, bind, Except.bind, lstm_spec, seqToBatch_byTime]

theorem byEnv_one {α : Type} (envs : List ℕ) (F : ℕ → ℕ → α) : byEnv 1 envs F = envs.map (F 0) := by
  unfold byEnv
  induction envs with
  | nil => rfl
  | cons e es ih => rw [List.flatMap_cons, ih]; rfl

theorem acting_spec (w : Layer K m n) (envs : List ℕ) : ∀ (T : ℕ) (X : ℕ → ℕ → Fin m → K) (M : ℕ → ℕ → K) (s : ℕ → State K n),
    acting w envs.length (byTime T envs X) (byTime T envs M) (envs.map s) = .ok (byTime T envs fun t e => (stateAt w (fun t => X t e) (fun t => M t e) (s e) (t + 1)).hidden, envs.map fun e => stateAt w (fun t => X t e) (fun t => M t e) (s e) T)
  | 0, X, M, s => rfl
  | T + 1, X, M, s => by
    rw [byTime_succ, byTime_succ, byTime_succ, acting]
    have h := C113_unroll w envs 1 (by omega) X M s
    rw [byEnv_one, byEnv_one, byEnv_one] at h
    simp only [h, bind, Except.bind]
    rw [acting_spec w envs T (fun t => X (t + 1)) (fun t => M (t + 1)) fun e => stateAt w (fun t => X t e) (fun t => M t e) (s e) 1]
    refine congrArg Except.ok (Prod.ext (congrArg₂ List.cons rfl ?_) ?_)
    · unfold byTime
      refine List.map_congr_left fun t _ => List.map_congr_left fun e _ => ?_
      exact congrArg State.hidden (stateAt_shift w (fun t => X t e) (fun t => M t e) (s e) (t + 1))
    · refine List.map_congr_left fun e _ => ?_
      exact stateAt_shift w (fun t => X t e) (fun t => M t e) (s e) T

/-- A table with rows of length `N` is a table by time. -/
theorem table {α : Type} [Inhabited α] {N : ℕ} {xs : List (List α)} (h : ∀ r ∈ xs, r.length = N) : xs = byTime xs.length (List.range N) fun t e => (xs.getD t []).getD e default := by
  refine List.ext_getElem? fun t => ?_
  by_cases ht : t < xs.length
  · rw [byTime, List.getElem?_map, List.getElem?_range ht, List.getElem?_eq_getElem ht]
    simp only [Option.map_some, Option.some.injEq]
    refine List.ext_getElem? fun e => ?_
    have hl := h _ (List.getElem_mem ht)
    by_cases he : e < N
    · rw [List.getElem?_map, List.getElem?_range he, List.getElem?_eq_getElem (by omega)]
      simp [List.getD, ht, hl, he]
    · rw [List.getElem?_eq_none (by omega), List.getElem?_eq_none (by simp; omega)]
  · rw [List.getElem?_eq_none (by omega), List.getElem?_eq_none (by simp [byTime]; omega)]

theorem swapFlatten_byTime {α : Type} (T N : ℕ) (F : ℕ → ℕ → α) : swapFlatten N (byTime T (List.range N) F) = byEnv T (List.range N) F := by
  unfold swapFlatten byEnv
  have := flatMap_range (fun e => (byTime T (List.range N) F).filterMap fun row => row[e]?) (fun e => (List.range T).map fun t => F t e) (List.range N) fun i e h => column T (List.range N) F i e h
  rwa [List.length_range] at this

theorem gather_flat {α : Type} (T N : ℕ) (F : ℕ → ℕ → α) {envs : List ℕ} (h : ∀ e ∈ envs, e < N) : ((flatInds T envs).filterMap fun i => (byEnv T (List.range N) F)[i]?) = byEnv T envs F := by
  induction envs with
  | nil => rfl
  | cons e es ih =>
    simp only [flatInds, byEnv, List.flatMap_cons, List.filterMap_append] at ih ⊢
    rw [ih fun x hx => h x (by simp [hx])]
    congr 1
    rw [List.filterMap_map, ← List.filterMap_eq_map]
    refine List.filterMap_congr fun t ht => ?_
    rw [List.mem_range] at ht
    have := byEnv_get T F (List.range N) e t ht
    simp only [byEnv] at this
    simp only [Function.comp]
    rw [this, List.getElem?_range (h e (by simp))]
    rfl

theorem gather_envs {α : Type} (N : ℕ) (f : ℕ → α) {envs : List ℕ} (h : ∀ e ∈ envs, e < N) : (envs.filterMap fun e => ((List.range N).map f)[e]?) = envs.map f := by
  rw [← List.filterMap_eq_map]
  refine List.filterMap_congr fun e he => ?_
  simp [h e he]

/-- **C113.** Training sees what acting saw: if `N` environments are run for `T` steps with one network, then on any minibatch of whole environments, cut from the batch as PPO2 cuts it, with the states these
environments began with, the training network (with the same weights) computes for every sample the output it had while acting. -/
theorem C113_consistent (w : Layer K m n) (N : ℕ) (xs : List (List (Fin m → K))) (ms : List (List K)) (s : List (State K n)) (hx : ∀ r ∈ xs, r.length = N) (hm : ∀ r ∈ ms, r.length = N) (hl : ms.length = xs.length)
    (hT : 0 < xs.length) (hs : s.length = N) : ∃ outs last, acting w N xs ms s = .ok (outs, last) ∧ outs.length = xs.length ∧ (∀ r ∈ outs, r.length = N) ∧ last.length = N ∧
    ∀ envs : List ℕ, (∀ e ∈ envs, e < N) →
      layer w envs.length xs.length ((flatInds xs.length envs).filterMap fun i => (swapFlatten N xs)[i]?) ((flatInds xs.length envs).filterMap fun i => (swapFlatten N ms)[i]?) (envs.filterMap fun e => s[e]?) =
        .ok ((flatInds xs.length envs).filterMap fun i => (swapFlatten N outs)[i]?, envs.filterMap fun e => last[e]?) := by
  have : Inhabited (State K n) := ⟨⟨0, 0⟩⟩
  have : Inhabited K := ⟨0⟩
  obtain ⟨X, hX⟩ : ∃ X : ℕ → ℕ → Fin m → K, xs = byTime xs.length (List.range N) X := ⟨_, table hx⟩
  obtain ⟨M, hM⟩ : ∃ M : ℕ → ℕ → K, ms = byTime xs.length (List.range N) M := ⟨_, by have := table hm; rw [hl] at this; exact this⟩
  obtain ⟨S, hS⟩ : ∃ S : ℕ → State K n, s = (List.range N).map S := by
    refine ⟨fun i => s.getD i default, List.ext_getElem? fun i => ?_⟩
    by_cases hi : i < N
    · rw [List.getElem?_map, List.getElem?_range hi]
      have : i < s.length := by omega
      simp [List.getD, this]
    · rw [List.getElem?_eq_none (by omega), List.getElem?_eq_none (by simp; omega)]
  generalize hTd : xs.length = T at *
  subst hX hM hS
  have hA := acting_spec w (List.range N) T X M S
  rw [List.length_range] at hA
  refine ⟨_, _, hA, by simp [byTime], ?_, by simp, fun envs he => ?_⟩
  · intro r hr
    obtain ⟨t, -, rfl⟩ := List.mem_map.1 hr
    simp
  · rw [swapFlatten_byTime, swapFlatten_byTime, swapFlatten_byTime, gather_flat T N _ he, gather_flat T N _ he, gather_flat T N _ he, gather_envs N _ he, gather_envs N _ he]
    exact C113_unroll w envs T hT X M S

/-- **C113.** Episodes do not leak: after a step with mask 1, outputs and states depend only on the features and masks from that step on. -/
theorem C113_reset (w : Layer K m n) (X X' : ℕ → Fin m → K) (M M' : ℕ → K) (s s' : State K n) (t₀ : ℕ) (h1 : M t₀ = 1) (hX : ∀ t, t₀ ≤ t → X t = X' t) (hM : ∀ t, t₀ ≤ t → M t = M' t) (t : ℕ) (ht : t₀ < t) :
    stateAt w X M s t = stateAt w X' M' s' t ∧ stateAt w X M s t = stateAt w (fun u => X (t₀ + u)) (fun u => if u = 0 then 0 else M (t₀ + u)) ⟨0, 0⟩ (t - t₀) := by
  have hc : ∀ x (a b : State K n), cell w x 1 a = cell w x 1 b := by
    intro x a b
    simp [cell]
  have hz : ∀ x (a : State K n), cell w x 1 a = cell w x 0 ⟨0, 0⟩ := by
    intro x a
    simp [cell]
  induction t with
  | zero => omega
  | succ t ih =>
    rcases Nat.lt_or_ge t₀ t with hlt | hge
    · obtain ⟨i1, i2⟩ := ih hlt
      refine ⟨?_, ?_⟩
      · rw [stateAt, stateAt, i1, hX t (by omega), hM t (by omega)]
      · rw [stateAt, i2, show t + 1 - t₀ = (t - t₀) + 1 by omega, stateAt]
        rw [if_neg (by omega), show t₀ + (t - t₀) = t by omega]
    · have : t = t₀ := by omega
      subst this
      refine ⟨?_, ?_⟩
      · rw [stateAt, stateAt, ← hX t le_rfl, ← hM t le_rfl, h1]
        exact hc _ _ _
      · rw [stateAt, h1, show t + 1 - t = 0 + 1 by omega, stateAt, stateAt]
        simp only [if_true, Nat.add_zero]
        exact hz _ _

/-- **C113.** Outputs lie strictly between -1 and 1, and the cells grow by less than one per step. -/
theorem C113_bounds [LinearOrder K] [IsStrictOrderedRing K] (w : Layer K m n) (hσ : ∀ x, 0 < w.sigmoid x ∧ w.sigmoid x < 1) (ht : ∀ x, |w.tanh x| < 1) (X : ℕ → Fin m → K) (M : ℕ → K) (hM : ∀ t, M t = 0 ∨ M t = 1) (s : State K n) (t : ℕ) (j : Fin n) :
    |(stateAt w X M s (t + 1)).hidden j| < 1 ∧ |(stateAt w X M s t).cell j| ≤ |s.cell j| + t := by
  have hprod : ∀ x y, |w.sigmoid x * w.tanh y| < 1 := by
    intro x y
    rw [abs_mul, abs_of_pos (hσ x).1]
    have h1 := (hσ x).2
    have h2 := ht y
    have h3 := abs_nonneg (w.tanh y)
    have h4 := (hσ x).1
    nlinarith
  refine ⟨?_, ?_⟩
  · simp only [stateAt, cell]
    cases w.norm with
    | none => exact hprod _ _
    | some p => exact hprod _ _
  · induction t with
    | zero => simp [stateAt]
    | succ t ih =>
      have key : ∀ a : K, |a| ≤ |s.cell j| + t → ∀ x y z, |w.sigmoid x * (a * (1 - M t)) + w.sigmoid y * w.tanh z| ≤ |s.cell j| + (t + 1) := by
        intro a ha x y z
        refine (abs_add_le _ _).trans ?_
        have h1 := (hprod y z).le
        have h2 : |w.sigmoid x * (a * (1 - M t))| ≤ |a| := by
          rw [abs_mul, abs_mul, abs_of_pos (hσ x).1]
          have h3 : |1 - M t| ≤ 1 := by rcases hM t with h | h <;> rw [h] <;> simp
          have h4 := (hσ x).2.le
          have h5 := abs_nonneg a
          have h6 := abs_nonneg (1 - M t)
          have h7 : |a| * |1 - M t| ≤ |a| := by nlinarith
          have h8 : 0 ≤ |a| * |1 - M t| := mul_nonneg h5 h6
          have h9 := (hσ x).1
          nlinarith
        linarith
      push_cast
      simp only [stateAt, cell]
      cases w.norm with
      | none => exact key _ ih _ _ _
      | some p => exact key _ ih _ _ _

/-- Gate `g` of unit `j` before its activation: one matrix product with the features and the hidden state side by side. -/
def pre (w : Layer K m n) (x : Fin m → K) (h : Fin n → K) (g : Fin 4) (j : Fin n) : K :=
  ∑ p : Fin m ⊕ Fin n, Sum.elim x h p * Sum.elim (fun i => w.wx i g j) (fun i => w.wh i g j) p + w.b g j

/-- **C113.** Without layer normalisation the cell is the usual one: within an episode the new cell is what the forget gate keeps plus what the input gate lets in of the candidate, the output what the output
gate lets out of the new cell; at the start of an episode (mask 1) the old state counts as zero. -/
theorem C113_cell (w : Layer K m n) (hw : w.norm = none) (x : Fin m → K) (s : State K n) (j : Fin n) :
    (cell w x 0 s).cell j = w.sigmoid (pre w x s.hidden 1 j) * s.cell j + w.sigmoid (pre w x s.hidden 0 j) * w.tanh (pre w x s.hidden 3 j) ∧
    (cell w x 0 s).hidden j = w.sigmoid (pre w x s.hidden 2 j) * w.tanh ((cell w x 0 s).cell j) ∧
    (cell w x 1 s).cell j = w.sigmoid (pre w x 0 0 j) * w.tanh (pre w x 0 3 j) ∧
    (cell w x 1 s).hidden j = w.sigmoid (pre w x 0 2 j) * w.tanh ((cell w x 1 s).cell j) := by
  have e : ∀ (h : Fin n → K) g, mul x w.wx g j + mul h w.wh g j + w.b g j = pre w x h g j := by
    intro h g
    simp [pre, mul, Fintype.sum_sum_type]
  refine ⟨?_, ?_, ?_, ?_⟩ <;> simp only [cell, hw, sub_zero, mul_one, sub_self, mul_zero, e, zero_add] <;> rfl

/-- **C113.** Layer normalisation centres: with gain one and bias zero the entries sum to zero, and their squares sum to the number of entries times variance over variance plus epsilon; gain and bias act
afterwards, entry by entry; adding a number to all entries changes nothing. -/
theorem C113_norm {ι : Type} [Fintype ι] [Nonempty ι] [CharZero K] (sqrt : K → K) (eps : K) (v gain bias : ι → K) :
    (∑ i, ln sqrt eps v 1 0 i = 0) ∧
    (∀ μ var : K, μ * Fintype.card ι = ∑ i, v i → var * Fintype.card ι = ∑ i, (v i - μ) ^ 2 → sqrt (var + eps) ^ 2 = var + eps → var + eps ≠ 0 →
      (∑ i, ln sqrt eps v 1 0 i ^ 2) * (var + eps) = Fintype.card ι * var) ∧
    (∀ i, ln sqrt eps v gain bias i = ln sqrt eps v 1 0 i * gain i + bias i) ∧
    ∀ a : K, ln sqrt eps (fun i => v i + a) gain bias = ln sqrt eps v gain bias := by
  have hc : (Fintype.card ι : K) ≠ 0 := by exact_mod_cast Fintype.card_ne_zero
  have hsum : ∑ i, (v i - (∑ i, v i) / Fintype.card ι) = 0 := by
    rw [Finset.sum_sub_distrib, Finset.sum_const, Finset.card_univ, nsmul_eq_mul]
    field_simp
    ring
  refine ⟨?_, ?_, ?_, ?_⟩
  · simp only [ln, Pi.one_apply, Pi.zero_apply, mul_one, add_zero]
    rw [← Finset.sum_div, hsum, zero_div]
  · intro μ var hμ hv hs hne
    have h1 : (∑ i, v i) / Fintype.card ι = μ := by rw [← hμ]; field_simp
    have h2 : (∑ i, (v i - μ) * (v i - μ)) / Fintype.card ι = var := by
      rw [show ∑ i, (v i - μ) * (v i - μ) = ∑ i, (v i - μ) ^ 2 from Finset.sum_congr rfl fun i _ => by ring, ← hv]
      field_simp
    simp only [ln, Pi.one_apply, Pi.zero_apply, mul_one, add_zero, h1, h2, div_pow, hs]
    rw [← Finset.sum_div, ← hv]
    field_simp
  · intro i
    simp [ln]
  · intro a
    have hm : (∑ i, (v i + a)) / Fintype.card ι = (∑ i, v i) / Fintype.card ι + a := by
      rw [Finset.sum_add_distrib, Finset.sum_const, Finset.card_univ, nsmul_eq_mul]
      field_simp
    have hd : ∀ i, v i + a - ((∑ i, v i) / Fintype.card ι + a) = v i - (∑ i, v i) / Fintype.card ι := fun i => by ring
    funext i
    simp only [ln, hm, hd]

/-- **C113.** With layer normalisation the same holds of the cell with the products of features and of hidden state each normalised over all four gates at once, and the new cell normalised before the output. -/
theorem C113_cell_norm (w : Layer K m n) {p : Norm K n} (hw : w.norm = some p) (x : Fin m → K) (s : State K n) (j : Fin n) :
    ∃ gate : Fin 4 → Fin n → K,
      (∀ g j, gate g j = ln w.sqrt p.eps (fun q : Fin 4 × Fin n => ∑ i, x i * w.wx i q.1 q.2) (fun q => p.gx q.1 q.2) (fun q => p.bx q.1 q.2) (g, j) +
        ln w.sqrt p.eps (fun q : Fin 4 × Fin n => ∑ i, s.hidden i * w.wh i q.1 q.2) (fun q => p.gh q.1 q.2) (fun q => p.bh q.1 q.2) (g, j) + w.b g j) ∧
      (cell w x 0 s).cell j = w.sigmoid (gate 1 j) * s.cell j + w.sigmoid (gate 0 j) * w.tanh (gate 3 j) ∧
      (cell w x 0 s).hidden j = w.sigmoid (gate 2 j) * w.tanh (ln w.sqrt p.eps (cell w x 0 s).cell p.gc p.bc j) := by
  refine ⟨_, fun g j => rfl, ?_, ?_⟩ <;> simp only [cell, hw, sub_zero, mul_one, lnGates, mul]

section Examples

/-- A layer with one unit; the functions are rough stand-ins. -/
def ex : Layer ℚ 1 1 := ⟨fun _ _ _ => 1, fun _ _ _ => 2, fun _ _ => 0, none, fun _ => 1 / 2, fun x => x / 10, id⟩

/-- Two environments, two steps, the second environment starting a new episode at the second step. -/
example : ((acting ex 2 [[fun _ => 1, fun _ => 3], [fun _ => 2, fun _ => 5]] [[0, 0], [0, 1]] [⟨fun _ => 1, fun _ => 0⟩, ⟨fun _ => 4, fun _ => 1⟩]).toOption.map fun p => p.1.map fun r => r.map fun h => h 0) =
    some [[11 / 400, 9 / 80], [1511 / 80000, 1 / 80]] := by decide +kernel

end Examples

end Neorl.Lstm

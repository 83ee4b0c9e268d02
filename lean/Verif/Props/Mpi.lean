import Verif.Mpi

/-!
# C139: statistics and gradient steps shared by several processes
-/

set_option linter.unusedSectionVars false
set_option linter.unusedVariables false

namespace Neorl.Mpi

open Real

variable {d : ℕ}

/-! ### Specification: the data of all processes in one pot -/

/-- Sum of entry `j` over rows. -/
def total (rows : List (V d)) (j : Fin d) : ℝ := (rows.map fun r => r j).sum

/-- Mean of entry `j`. -/
noncomputable def average (rows : List (V d)) (j : Fin d) : ℝ := total rows j / rows.length

/-- Variance of entry `j` (divided by the number of rows). -/
noncomputable def variance (rows : List (V d)) (j : Fin d) : ℝ := (rows.map fun r => (r j - average rows j) ^ 2).sum / rows.length

/-! ### Lemmas -/

theorem sum_flatten_map (world : List (List (V d))) (f : V d → ℝ) : (world.map fun rows => (rows.map f).sum).sum = (world.flatten.map f).sum := by
  induction world with
  | nil => simp
  | cons r w ih => simp [ih]

theorem sum_lengths (world : List (List (V d))) : (world.map fun rows => (rows.length : ℝ)).sum = world.flatten.length := by
  induction world with
  | nil => simp
  | cons r w ih => simp [ih] 

theorem mpiMean_eq (world : List (List (V d))) : mpiMean world = (average world.flatten, (world.flatten.length : ℝ)) := by
  unfold mpiMean allreduce allreduce1
  simp only [sum_lengths]
  congr 1
  funext j
  simp only [average, total, colSum, List.map_map, Function.comp_def]
  rw [sum_flatten_map world fun r => r j]

theorem mpiMoments_eq (world : List (List (V d))) :
    mpiMoments world = .ok (average world.flatten, (fun j => √(variance world.flatten j)), (world.flatten.length : ℝ)) := by
  unfold mpiMoments
  simp only [mpiMean_eq]
  have hfl : (world.map fun rows => rows.map fun (x : V d) j => (x j - average world.flatten j) ^ 2).flatten
      = world.flatten.map fun (x : V d) j => (x j - average world.flatten j) ^ 2 := by
    rw [List.map_flatten]
  rw [hfl]
  simp only [List.length_map, if_true]
  congr 4
  funext j
  simp only [average, total, variance, List.map_map, Function.comp_def, List.length_map]

/-- **C139.** Mean, standard deviation and count are those of the data of all processes together, and the assertion never fails. -/
theorem C139_moments (world : List (List (V d))) (hne : world.flatten ≠ []) :
    ∃ (m s : V d) (n : ℝ), mpiMoments world = .ok (m, s, n) ∧ n = world.flatten.length ∧
      ∀ j, n * m j = total world.flatten j ∧ 0 ≤ s j ∧ n * s j ^ 2 = (world.flatten.map fun r => (r j - m j) ^ 2).sum := by
  refine ⟨_, _, _, mpiMoments_eq world, rfl, fun j => ?_⟩
  have hn : (world.flatten.length : ℝ) ≠ 0 := by
    have := List.length_pos_iff.2 hne
    exact_mod_cast this.ne'
  refine ⟨?_, Real.sqrt_nonneg _, ?_⟩
  · unfold average; field_simp
  · have hv : 0 ≤ variance world.flatten j := by
      unfold variance
      refine div_nonneg (List.sum_nonneg ?_) (Nat.cast_nonneg _)
      intro x hx
      obtain ⟨r, _, rfl⟩ := List.mem_map.1 hx
      positivity
    rw [Real.sq_sqrt hv]
    unfold variance; field_simp

/-- **C139.** How the rows are distributed over the processes, and their order, does not matter. -/
theorem C139_distribution {world world' : List (List (V d))} (h : world.flatten.Perm world'.flatten) : mpiMoments world = mpiMoments world' := by
  have ha : average world.flatten = average world'.flatten := by
    funext j
    unfold average total
    rw [(h.map fun r => r j).sum_eq, h.length_eq]
  rw [mpiMoments_eq, mpiMoments_eq]
  have hv : ∀ j, variance world.flatten j = variance world'.flatten j := by
    intro j
    unfold variance
    rw [ha, (h.map fun r => (r j - average world'.flatten j) ^ 2).sum_eq, h.length_eq]
  simp only [ha, hv, h.length_eq]

/-- **C139.** A standard deviation of zero means that all rows agree. -/
theorem C139_zero_spread (world : List (List (V d))) (hne : world.flatten ≠ []) {m s : V d} {n : ℝ} (h : mpiMoments world = .ok (m, s, n)) (j : Fin d) :
    s j = 0 ↔ ∀ r ∈ world.flatten, r j = m j := by
  obtain ⟨m', s', n', h', hn, hj⟩ := C139_moments world hne
  rw [h] at h'
  cases h'
  obtain ⟨_, h0, h2⟩ := hj j
  have hn0 : n ≠ 0 := by
    rw [hn]
    have := List.length_pos_iff.2 hne
    exact_mod_cast this.ne'
  constructor
  · intro hs r hr
    rw [hs] at h2
    have hz : (world.flatten.map fun r => (r j - m j) ^ 2).sum = 0 := by rw [← h2]; ring
    have hle := List.single_le_sum (l := world.flatten.map fun r => (r j - m j) ^ 2) (by
      intro x hx
      obtain ⟨q, _, rfl⟩ := List.mem_map.1 hx
      positivity) _ (List.mem_map.2 ⟨r, hr, rfl⟩)
    rw [hz] at hle
    have : (r j - m j) ^ 2 = 0 := le_antisymm hle (sq_nonneg _)
    have := pow_eq_zero_iff (two_ne_zero) |>.1 this
    linarith
  · intro hall
    have hz : (world.flatten.map fun r => (r j - m j) ^ 2).sum = 0 := by
      apply List.sum_eq_zero
      intro x hx
      obtain ⟨r, hr, rfl⟩ := List.mem_map.1 hx
      rw [hall r hr]; ring
    rw [hz] at h2
    have := (mul_eq_zero.1 h2).resolve_left hn0
    exact pow_eq_zero_iff (two_ne_zero) |>.1 this

/-! ### Running statistics -/

/-- State after a sequence of updates. -/
def rmsRun (eps : ℝ) (us : List (List (List (V d)))) : Rms d := us.foldl rmsUpdate (rmsInit eps)

theorem rmsUpdate_eq (s : Rms d) (world : List (List (V d))) :
    rmsUpdate s world = { sum := fun j => s.sum j + total world.flatten j, sumsq := fun j => s.sumsq j + (world.flatten.map fun r => r j ^ 2).sum,
                          count := s.count + world.flatten.length } := by
  unfold rmsUpdate allreduce allreduce1 colSum total
  simp only [sum_lengths, List.map_map, Function.comp_def]
  have h1 : ∀ j, (world.map fun rows => (rows.map fun r => r j).sum).sum = (world.flatten.map fun r => r j).sum := fun j => sum_flatten_map world _
  have h2 : ∀ j, (world.map fun rows => (rows.map fun r => r j ^ 2).sum).sum = (world.flatten.map fun r => r j ^ 2).sum := fun j => sum_flatten_map world _
  simp only [h1, h2]

theorem rmsRun_eq (s : Rms d) (us : List (List (List (V d)))) :
    us.foldl rmsUpdate s = { sum := fun j => s.sum j + total us.flatten.flatten j, sumsq := fun j => s.sumsq j + (us.flatten.flatten.map fun r => r j ^ 2).sum,
                             count := s.count + us.flatten.flatten.length } := by
  induction us generalizing s with
  | nil => simp [total]
  | cons u us ih =>
    simp only [List.foldl_cons, ih, rmsUpdate_eq]
    simp only [total, List.flatten_cons, List.flatten_append, List.map_append, List.sum_append, List.length_append, Nat.cast_add, add_assoc]

/-- **C139.** After any sequence of updates by any number of processes the running mean is the mean of all `N` rows seen so far shrunk by `N / (N + eps)`, the
running variance uses the mean square of the same rows with `eps` rows of mean square 1 added, and the standard deviation is never below 1/10. -/
theorem C139_running {eps : ℝ} (he : 0 < eps) (us : List (List (List (V d)))) (j : Fin d) :
    (rmsRun eps us).mean j * (us.flatten.flatten.length + eps) = total us.flatten.flatten j ∧
    1 / 10 ≤ (rmsRun eps us).std j ∧
    (rmsRun eps us).std j ^ 2 = max (((us.flatten.flatten.map fun r => r j ^ 2).sum + eps) / (us.flatten.flatten.length + eps) - (rmsRun eps us).mean j ^ 2) (1 / 100) := by
  have hpos : 0 < (us.flatten.flatten.length : ℝ) + eps := by positivity
  have hr := rmsRun_eq (rmsInit eps) us
  unfold rmsRun
  have hm : (us.foldl rmsUpdate (rmsInit eps)).mean j = total us.flatten.flatten j / (us.flatten.flatten.length + eps) := by
    rw [hr]; simp [Rms.mean, rmsInit, add_comm]
  refine ⟨?_, ?_, ?_⟩
  · rw [hm]; field_simp
  · unfold Rms.std
    rw [show (1 / 10 : ℝ) = √(1 / 100) by
      rw [show (1 / 100 : ℝ) = (1 / 10) ^ 2 by norm_num, Real.sqrt_sq (by norm_num)]]
    exact Real.sqrt_le_sqrt (le_max_right _ _)
  · unfold Rms.std
    rw [Real.sq_sqrt (le_trans (by norm_num) (le_max_right _ _))]
    have h2 : (us.foldl rmsUpdate (rmsInit eps)).sumsq j / (us.foldl rmsUpdate (rmsInit eps)).count
        = ((us.flatten.flatten.map fun r => r j ^ 2).sum + eps) / (us.flatten.flatten.length + eps) := by
      rw [hr]; simp [rmsInit, add_comm]
    rw [h2]

/-- **C139.** The order of the updates and the distribution of the rows do not matter. -/
theorem C139_running_order (eps : ℝ) {us us' : List (List (List (V d)))} (h : us.flatten.flatten.Perm us'.flatten.flatten) : rmsRun eps us = rmsRun eps us' := by
  unfold rmsRun
  rw [rmsRun_eq, rmsRun_eq]
  have h1 : ∀ j, total us.flatten.flatten j = total us'.flatten.flatten j := fun j => (h.map fun r : V d => r j).sum_eq
  have h2 : ∀ j, (us.flatten.flatten.map fun r => r j ^ 2).sum = (us'.flatten.flatten.map fun r => r j ^ 2).sum := fun j => (h.map fun r => r j ^ 2).sum_eq
  simp only [h1, h2, h.length_eq]

/-- **C139, defect.** The floor is absolute: for data in small units (all values at most 1/20 in size) the reported standard deviation is 1/10 from the second row
on (with the default `eps`), whatever the data are. -/
theorem C139_floor (us : List (List (List (V d)))) (h2 : 2 ≤ us.flatten.flatten.length) (j : Fin d) (hs : ∀ r ∈ us.flatten.flatten, |r j| ≤ 1 / 20) :
    (rmsRun (1 / 100) us).std j = 1 / 10 := by
  obtain ⟨-, hlow, hsq⟩ := C139_running (eps := 1 / 100) (by norm_num) us j
  have hsum : (us.flatten.flatten.map fun r : V d => r j ^ 2).sum ≤ (us.flatten.flatten.length : ℝ) * (1 / 400) := by
    have := List.sum_le_card_nsmul (us.flatten.flatten.map fun r : V d => r j ^ 2) (1 / 400 : ℝ) (by
      intro x hx
      obtain ⟨r, hr, rfl⟩ := List.mem_map.1 hx
      have hb := abs_le.1 (hs r hr)
      nlinarith [hb.1, hb.2])
    rwa [nsmul_eq_mul, List.length_map] at this
  have hN : (2 : ℝ) ≤ us.flatten.flatten.length := by exact_mod_cast h2
  set N : ℝ := (us.flatten.flatten.length : ℝ)
  have hle : ((us.flatten.flatten.map fun r => r j ^ 2).sum + 1 / 100) / (N + 1 / 100) - (rmsRun (1 / 100) us).mean j ^ 2 ≤ 1 / 100 := by
    have h1 : ((us.flatten.flatten.map fun r => r j ^ 2).sum + 1 / 100) / (N + 1 / 100) ≤ 1 / 100 := by
      rw [div_le_iff₀ (by linarith)]
      linarith
    have := sq_nonneg ((rmsRun (1 / 100) us).mean j)
    linarith
  rw [max_eq_right hle] at hsq
  have h0 : 0 ≤ (rmsRun (1 / 100) us).std j := by linarith
  have : (rmsRun (1 / 100) us).std j ^ 2 = (1 / 10) ^ 2 := by rw [hsq]; norm_num
  exact (sq_eq_sq₀ h0 (by norm_num)).1 this

/-! ### Adam -/

/-- Exponentially weighted sum of the past values of a sequence, the last value first. -/
def weighted (b : ℝ) : List ℝ → ℝ
  | [] => 0
  | g :: gs => (1 - b) * g + b * weighted b gs

/-- The gradient that an update stands for: the average over the processes, or their sum. -/
noncomputable def common (scale : Bool) (n : ℕ) (grads : List (V d)) (j : Fin d) : ℝ := if scale then total grads j / n else total grads j

/-- Adam on one machine, entry `j`; `hist` are the updates (gradient, learning rate), the last first. -/
noncomputable def solo (c : Adam) (x0 : ℝ) : List (ℝ × ℝ) → ℝ
  | [] => x0
  | h :: hs =>
    let t := hs.length + 1
    solo c x0 hs - h.2 * √(1 - c.beta2 ^ t) / (1 - c.beta1 ^ t) * weighted c.beta1 ((h :: hs).map Prod.fst)
      / (√(weighted c.beta2 ((h :: hs).map fun p => p.1 * p.1)) + c.eps)

/-- The updates of a run as seen by entry `j` of one machine, the last first. -/
noncomputable def hist (c : Adam) (n : ℕ) (us : List (List (V d) × ℝ)) (j : Fin d) : List (ℝ × ℝ) :=
  (us.map fun u => (common c.scale n u.1 j, u.2)).reverse

/-- What every process holds after the updates `us`. -/
noncomputable def soloWorker (c : Adam) (n : ℕ) (theta0 : V d) (us : List (List (V d) × ℝ)) : Worker d :=
  { theta := fun j => solo c (theta0 j) (hist c n us j), m := fun j => weighted c.beta1 ((hist c n us j).map Prod.fst),
    v := fun j => weighted c.beta2 ((hist c n us j).map fun p => p.1 * p.1) }

theorem checkSynced_same {ws : List (Worker d)} {w : Worker d} (h : ∀ x ∈ ws, x = w) : checkSynced ws = .ok () := by
  cases ws with
  | nil => rfl
  | cons r ws =>
    simp only [checkSynced]
    rw [if_pos]
    intro x hx
    rw [h x (by simp [hx]), h r (by simp)]

theorem run_append (c : Adam) (W : World d) (us vs : List (List (V d) × ℝ)) :
    run c W (us ++ vs) = match run c W us with | .error e => .error e | .ok W' => run c W' vs := by
  induction us generalizing W with
  | nil => rfl
  | cons u us ih =>
    simp only [List.cons_append, run]
    cases update c W u.1 u.2 with
    | error e => rfl
    | ok W' => exact ih W'

/-- **C139.** Processes that start with the same parameters stay the same after any number of updates with any gradients, the check never fails, and each holds
what Adam on a single machine computes from the averaged (without scaling: summed) gradients. -/
theorem C139_adam (c : Adam) (n : ℕ) (theta0 : V d) (us : List (List (V d) × ℝ)) :
    ∃ W, run c { ws := List.replicate n { theta := theta0, m := fun _ => 0, v := fun _ => 0 }, step := 0 } us = .ok W ∧ W.step = us.length ∧
      W.ws = List.replicate n (soloWorker c n theta0 us) := by
  induction us using List.reverseRecOn with
  | nil => exact ⟨_, rfl, rfl, rfl⟩
  | append_singleton us u ih =>
    obtain ⟨W, h1, h2, h3⟩ := ih
    rw [run_append, h1]
    simp only [run, update]
    have hc : (if W.step % 100 = 0 then checkSynced W.ws else .ok ()) = (.ok () : Py Unit) := by
      rw [h3, checkSynced_same (fun x hx => List.eq_of_mem_replicate hx)]
      split_ifs <;> rfl
    rw [hc]
    refine ⟨_, rfl, by simp [h2], ?_⟩
    simp only [h3, List.map_replicate, List.length_replicate, h2]
    congr 1
    have hh : ∀ j, hist c n (us ++ [u]) j = (common c.scale n u.1 j, u.2) :: hist c n us j := by
      intro j; simp [hist]
    have hlen : ∀ j, (hist c n us j).length = us.length := by intro j; simp [hist]
    have hg : ∀ j, (if c.scale = true then fun j => allreduce u.1 j / (n : ℝ) else allreduce u.1) j = common c.scale n u.1 j := by
      intro j
      unfold common
      split_ifs <;> rfl
    ext j
    · simp only [adamStep, soloWorker, hh, solo, hlen, hg, List.map_cons, weighted]
      ring_nf
    · simp only [adamStep, soloWorker, hh, hg, List.map_cons, weighted]
      ring
    · simp only [adamStep, soloWorker, hh, hg, List.map_cons, weighted]
      ring

/-- The weights of `weighted` sum to `1 - b ^ t`. -/
theorem weighted_const (b g : ℝ) (t : ℕ) : weighted b (List.replicate t g) = (1 - b ^ t) * g := by
  induction t with
  | zero => simp [weighted]
  | succ t ih => simp only [List.replicate_succ, weighted, ih]; ring

/-- **C139.** The bias correction is exact: while the gradient stays the same, every step has the length `lr * |g| / (|g| + eps / sqrt (1 - beta2 ^ t))`, which is
less than the learning rate, against the sign of the gradient. -/
theorem C139_bias_corrected (c : Adam) (h1 : 0 ≤ c.beta1 ∧ c.beta1 < 1) (h2 : 0 ≤ c.beta2 ∧ c.beta2 < 1) (he : 0 < c.eps) (x0 g lr : ℝ) (hlr : 0 < lr) (t : ℕ) :
    solo c x0 (List.replicate (t + 1) (g, lr)) - solo c x0 (List.replicate t (g, lr)) = -lr * g / (|g| + c.eps / √(1 - c.beta2 ^ (t + 1))) ∧
    |solo c x0 (List.replicate (t + 1) (g, lr)) - solo c x0 (List.replicate t (g, lr))| < lr := by
  have p1 : 0 < 1 - c.beta1 ^ (t + 1) := sub_pos.2 (pow_lt_one₀ h1.1 h1.2 (Nat.succ_ne_zero _))
  have p2 : 0 < 1 - c.beta2 ^ (t + 1) := sub_pos.2 (pow_lt_one₀ h2.1 h2.2 (Nat.succ_ne_zero _))
  have s2 : 0 < √(1 - c.beta2 ^ (t + 1)) := Real.sqrt_pos.2 p2
  have key : solo c x0 (List.replicate (t + 1) (g, lr)) - solo c x0 (List.replicate t (g, lr)) = -lr * g / (|g| + c.eps / √(1 - c.beta2 ^ (t + 1))) := by
    have e1 : ((g, lr) :: List.replicate t (g, lr)).map Prod.fst = List.replicate (t + 1) g := by simp [List.replicate_succ]
    have e2 : ((g, lr) :: List.replicate t (g, lr)).map (fun p => p.1 * p.1) = List.replicate (t + 1) (g * g) := by simp [List.replicate_succ]
    rw [List.replicate_succ]
    simp only [solo, List.length_replicate, e1, e2, weighted_const]
    rw [Real.sqrt_mul p2.le, Real.sqrt_mul_self_eq_abs]
    have q : √(1 - c.beta2 ^ (t + 1)) * |g| + c.eps ≠ 0 := by positivity
    have q' : |g| + c.eps / √(1 - c.beta2 ^ (t + 1)) ≠ 0 := by positivity
    have q'' : |g| * √(1 - c.beta2 ^ (t + 1)) + c.eps ≠ 0 := by positivity
    field_simp
    ring
  refine ⟨key, ?_⟩
  rw [key, abs_div, abs_mul, abs_neg, abs_of_pos hlr]
  have hq : 0 < c.eps / √(1 - c.beta2 ^ (t + 1)) := div_pos he s2
  have hD : 0 < |g| + c.eps / √(1 - c.beta2 ^ (t + 1)) := by positivity
  rw [abs_of_pos hD, div_lt_iff₀ hD]
  nlinarith [abs_nonneg g]

/-- **C139.** `sync` makes all parameters those of rank 0 and keeps the moving averages. -/
theorem C139_sync (W : World d) (r : Worker d) (rest : List (Worker d)) (h : W.ws = r :: rest) :
    (∀ w ∈ (sync W).ws, w.theta = r.theta) ∧ (sync W).ws.map Worker.m = W.ws.map Worker.m ∧ (sync W).ws.map Worker.v = W.ws.map Worker.v ∧ (sync W).step = W.step ∧
    checkSynced (sync W).ws = .ok () := by
  have e : (sync W).ws = W.ws.map fun w => { w with theta := r.theta } := by unfold sync; rw [h]
  have h1 : ∀ w ∈ (sync W).ws, w.theta = r.theta := by
    intro w hw
    rw [e] at hw
    obtain ⟨x, _, rfl⟩ := List.mem_map.1 hw
    rfl
  refine ⟨h1, by rw [e]; simp [Function.comp_def], by rw [e]; simp [Function.comp_def], by unfold sync; rw [h], ?_⟩
  cases hs : (sync W).ws with
  | nil => rfl
  | cons x xs =>
    simp only [checkSynced]
    rw [if_pos]
    intro w hw
    rw [hs] at h1
    rw [h1 w (by simp [hw]), h1 x (by simp)]

/-- **C139, defect.** Processes whose parameters differ are noticed only at every hundredth update; in between an update succeeds and keeps the difference as it is
(when the moving averages agree): nothing brings the processes together again. -/
theorem C139_drift (c : Adam) (W : World d) (hstep : W.step % 100 ≠ 0) (grads : List (V d)) (lr : ℝ) :
    ∃ W', update c W grads lr = .ok W' ∧ W'.ws.length = W.ws.length ∧
      ∀ (i k : ℕ) (x y x' y' : Worker d), W.ws[i]? = some x → W.ws[k]? = some y → W'.ws[i]? = some x' → W'.ws[k]? = some y' → x.m = y.m → x.v = y.v →
        x'.m = y'.m ∧ x'.v = y'.v ∧ ∀ j, x'.theta j - y'.theta j = x.theta j - y.theta j := by
  simp only [update, if_neg hstep]
  refine ⟨_, rfl, by simp, ?_⟩
  intro i k x y x' y' hx hy hx' hy' hm hv
  simp only [List.getElem?_map, hx, hy, Option.map_some, Option.some.injEq] at hx' hy'
  subst hx' hy'
  simp only [adamStep, hm, hv, true_and]
  intro j
  ring

/-- **C139.** At a hundredth update differing parameters stop the run. -/
theorem C139_checked (c : Adam) (W : World d) (hstep : W.step % 100 = 0) (grads : List (V d)) (lr : ℝ) {r : Worker d} {rest : List (Worker d)} (h : W.ws = r :: rest) :
    (∃ w ∈ rest, w.theta ≠ r.theta) ↔ update c W grads lr = .error .assertion := by
  unfold update
  rw [if_pos hstep, h]
  simp only [checkSynced]
  constructor
  · rintro ⟨w, hw, hne⟩
    rw [if_neg (fun hall => hne (hall w hw))]
  · intro he
    by_contra hc
    push Not at hc
    rw [if_pos hc] at he
    cases he

/-! ### Examples -/

/-- Two processes, three rows: 1 and 3 here, 5 there. -/
noncomputable def exWorld : List (List (V 1)) := [[fun _ => 1, fun _ => 3], [fun _ => 5]]

example : ∃ s, mpiMoments exWorld = .ok (fun _ => 3, s, 3) ∧ s 0 ^ 2 = 8 / 3 := by
  have h := mpiMoments_eq exWorld
  have ha : average exWorld.flatten = fun _ => 3 := by
    funext j; simp [average, total, exWorld]; norm_num
  have hv : variance exWorld.flatten 0 = 8 / 3 := by
    unfold variance
    rw [ha]
    simp [exWorld]; norm_num
  have hl : (exWorld.flatten.length : ℝ) = 3 := by simp [exWorld]
  refine ⟨fun j => √(variance exWorld.flatten j), by rw [h, ha, hl], ?_⟩
  simp only [hv]
  rw [Real.sq_sqrt (by norm_num)]

example : exWorld.flatten ≠ [] ∧ exWorld.flatten.Perm ([[fun _ => 5], [fun _ => 1], [fun _ => 3]] : List (List (V 1))).flatten := by
  constructor
  · simp [exWorld]
  · simp only [exWorld, List.flatten_cons, List.flatten_nil, List.append_nil, List.cons_append, List.nil_append]
    exact (List.Perm.cons _ (List.Perm.swap _ _ _)).trans (List.Perm.swap _ _ _)

/-- The first step of Adam with gradients 1 and 3 in two processes. -/
example : ∃ W, run { beta1 := 9 / 10, beta2 := 999 / 1000, eps := 1 / 10 ^ 8, scale := true }
      { ws := List.replicate 2 { theta := fun _ : Fin 1 => 0, m := fun _ => 0, v := fun _ => 0 }, step := 0 } [([fun _ => 1, fun _ => 3], 1 / 100)] = .ok W ∧
    ∀ w ∈ W.ws, w.m 0 = 1 / 5 := by
  obtain ⟨W, h1, -, h3⟩ := C139_adam (d := 1) { beta1 := 9 / 10, beta2 := 999 / 1000, eps := 1 / 10 ^ 8, scale := true } 2 (fun _ => 0) [([fun _ => 1, fun _ => 3], 1 / 100)]
  refine ⟨W, h1, fun w hw => ?_⟩
  rw [h3] at hw
  rw [List.eq_of_mem_replicate hw]
  simp [soloWorker, hist, weighted, common, total]
  norm_num

end Neorl.Mpi

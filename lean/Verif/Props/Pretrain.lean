import Verif.Pretrain
import Mathlib.Tactic.Ring
import Mathlib.Tactic.FieldSimp
import Mathlib.Tactic.Linarith
import Mathlib.Tactic.Positivity
import Mathlib.Algebra.BigOperators.Intervals
import Mathlib.Algebra.Order.BigOperators.Ring.Finset

/-!
# C128: pretraining
-/

set_option linter.unusedSectionVars false
set_option linter.unusedVariables false

namespace Neorl.Pretrain

/-! ### The loss -/

section
variable {m n : ℕ}

theorem expSum_pos (z : Fin m → ℝ) (a : Fin m) : 0 < ∑ j, Real.exp (z j) := Finset.sum_pos (fun j _ => Real.exp_pos _) ⟨a, Finset.mem_univ a⟩

/-- **C128.** The loss of a sample is minus the logarithm of the probability the agent gives to the expert's action; it is not negative, and positive if there is another action. -/
theorem C128_entropy (z : Fin m → ℝ) (a : Fin m) : Real.exp (-crossEntropy z a) * (∑ j, Real.exp (z j)) = Real.exp (z a) ∧ 0 ≤ crossEntropy z a ∧ ((∃ b, b ≠ a) → 0 < crossEntropy z a) := by
  have hs := expSum_pos z a
  have hp : 0 < Real.exp (z a) / ∑ j, Real.exp (z j) := div_pos (Real.exp_pos _) hs
  have hle : Real.exp (z a) ≤ ∑ j, Real.exp (z j) := Finset.single_le_sum (f := fun j => Real.exp (z j)) (fun j _ => (Real.exp_pos _).le) (Finset.mem_univ a)
  refine ⟨?_, ?_, ?_⟩
  · rw [crossEntropy, neg_neg, Real.exp_log hp, div_mul_cancel₀ _ hs.ne']
  · rw [crossEntropy, neg_nonneg]
    exact Real.log_nonpos hp.le ((div_le_one hs).2 hle)
  · rintro ⟨b, hb⟩
    rw [crossEntropy, neg_pos]
    refine Real.log_neg hp ((div_lt_one hs).2 ?_)
    have h2 : Real.exp (z a) + Real.exp (z b) ≤ ∑ j, Real.exp (z j) := by
      rw [← Finset.sum_pair (f := fun j => Real.exp (z j)) (Ne.symm hb)]
      exact Finset.sum_le_sum_of_subset_of_nonneg (Finset.subset_univ _) fun j _ _ => (Real.exp_pos _).le
    linarith [Real.exp_pos (z b)]

/-- **C128.** If the loss of a sample is below `log 2`, the agent's best action is the expert's, and no other. -/
theorem C128_clone (z : Fin m → ℝ) (a b : Fin m) (hb : b ≠ a) (h : crossEntropy z a < Real.log 2) : z b < z a := by
  have hs := expSum_pos z a
  have hp : 0 < Real.exp (z a) / ∑ j, Real.exp (z j) := div_pos (Real.exp_pos _) hs
  have h1 : Real.log (1 / 2) < Real.log (Real.exp (z a) / ∑ j, Real.exp (z j)) := by
    rw [one_div, Real.log_inv]
    rw [crossEntropy] at h
    linarith
  have h2 := (Real.log_lt_log_iff (by norm_num) hp).1 h1
  rw [lt_div_iff₀ hs] at h2
  have h3 : Real.exp (z a) + Real.exp (z b) ≤ ∑ j, Real.exp (z j) := by
    rw [← Finset.sum_pair (f := fun j => Real.exp (z j)) (Ne.symm hb)]
    exact Finset.sum_le_sum_of_subset_of_nonneg (Finset.subset_univ _) fun j _ _ => (Real.exp_pos _).le
  exact Real.exp_lt_exp.1 (by linarith)

example : crossEntropy (m := 2) (fun i => if i = 0 then Real.log 3 else 0) 0 < Real.log 2 := by
  have : (∑ j : Fin 2, Real.exp (if j = 0 then Real.log 3 else 0)) = 4 := by
    rw [Fin.sum_univ_two]
    simp [Real.exp_log]
    norm_num
  rw [crossEntropy, this, if_pos rfl, Real.exp_log (by norm_num), ← Real.log_inv]
  exact Real.log_lt_log (by norm_num) (by norm_num)

/-- **C128.** The cloning of a DQN agent sees only differences of values: adding a number to all values of an observation (as the state value of a dueling network does) does not change the loss. -/
theorem C128_shift (z : Fin m → ℝ) (t : ℝ) (a : Fin m) : crossEntropy (fun j => z j + t) a = crossEntropy z a := by
  unfold crossEntropy
  simp only [Real.exp_add, ← Finset.sum_mul]
  rw [mul_div_mul_right _ _ (Real.exp_pos t).ne']

/-- **C128.** Among all agents the loss is least for the one whose probabilities are the frequencies of the expert's actions: for weights `w` of the actions at one observation, no values give a smaller mean loss than their own entropy. -/
theorem C128_best (w : Fin m → ℝ) (hw : ∀ a, 0 ≤ w a) (h1 : ∑ a, w a = 1) (z : Fin m → ℝ) : ∑ a, w a * -Real.log (w a) ≤ ∑ a, w a * crossEntropy z a ∧
    ((∀ a, Real.exp (z a) = w a) → ∑ a, w a * crossEntropy z a = ∑ a, w a * -Real.log (w a)) := by
  refine ⟨?_, fun h => Finset.sum_congr rfl fun a _ => ?_⟩
  · have hne : Nonempty (Fin m) := by
      by_contra hc
      rw [not_nonempty_iff] at hc
      rw [Finset.univ_eq_empty, Finset.sum_empty] at h1
      exact zero_ne_one h1
    obtain ⟨a0⟩ := hne
    have hs := expSum_pos z a0
    set p : Fin m → ℝ := fun a => Real.exp (z a) / ∑ j, Real.exp (z j) with hp
    have pp : ∀ a, 0 < p a := fun a => div_pos (Real.exp_pos _) hs
    have ps : ∑ a, p a = 1 := by rw [hp, ← Finset.sum_div, div_self hs.ne']
    have key : ∀ a, w a * -Real.log (w a) - w a * crossEntropy z a ≤ p a - w a := by
      intro a
      rcases (hw a).eq_or_lt with h | h
      · rw [← h]; simpa using (pp a).le
      · have e : w a * -Real.log (w a) - w a * crossEntropy z a = w a * Real.log (p a / w a) := by
          rw [Real.log_div (pp a).ne' h.ne', crossEntropy]; ring
        rw [e]
        have := Real.log_le_sub_one_of_pos (div_pos (pp a) h)
        calc w a * Real.log (p a / w a) ≤ w a * (p a / w a - 1) := mul_le_mul_of_nonneg_left this h.le
          _ = p a - w a := by field_simp
    have := Finset.sum_le_sum fun a (_ : a ∈ Finset.univ) => key a
    rw [Finset.sum_sub_distrib, Finset.sum_sub_distrib, ps, h1] at this
    linarith
  · have : ∑ j, Real.exp (z j) = 1 := by rw [← h1]; exact Finset.sum_congr rfl fun j _ => h j
    rw [crossEntropy, this, div_one, h a]

example : (∀ a : Fin 3, (0 : ℝ) ≤ if a = 0 then 1 / 2 else 1 / 4) ∧ ∑ a : Fin 3, (if a = 0 then 1 / 2 else 1 / 4 : ℝ) = 1 := by
  refine ⟨fun a => by split <;> norm_num, ?_⟩
  rw [Fin.sum_univ_three, if_pos rfl, if_neg (by decide), if_neg (by decide)]
  norm_num

/-- **C128.** For continuous actions the loss is zero exactly when the agent's actions are the expert's. -/
theorem C128_square (hn : 0 < n) (hm : 0 < m) (y a : Fin n → Fin m → ℝ) : 0 ≤ lossBox y a ∧ (lossBox y a = 0 ↔ y = a) := by
  have hp : (0 : ℝ) < n * m := by positivity
  have nn : ∀ i, 0 ≤ ∑ j, (a i j - y i j) ^ 2 := fun i => Finset.sum_nonneg fun j _ => sq_nonneg _
  refine ⟨div_nonneg (Finset.sum_nonneg fun i _ => nn i) hp.le, ?_⟩
  unfold lossBox
  rw [div_eq_zero_iff, or_iff_left hp.ne', Finset.sum_eq_zero_iff_of_nonneg fun i _ => nn i]
  constructor
  · intro h
    funext i j
    have h1 := (Finset.sum_eq_zero_iff_of_nonneg fun j _ => sq_nonneg _).1 (h i (Finset.mem_univ i)) j (Finset.mem_univ j)
    have := pow_eq_zero_iff (two_ne_zero) |>.1 h1
    linarith
  · rintro rfl i _
    simp

/-- **C128.** The loss of a batch is a mean: it lies between bounds of the losses of its samples, and of the squared errors of its entries. -/
theorem C128_mean (hn : 0 < n) (z : Fin n → Fin m → ℝ) (a : Fin n → Fin m) (lo hi : ℝ) (h : ∀ i, lo ≤ crossEntropy (z i) (a i) ∧ crossEntropy (z i) (a i) ≤ hi) :
    lo ≤ lossDiscrete z a ∧ lossDiscrete z a ≤ hi := by
  have hp : (0 : ℝ) < n := by positivity
  have h1 : (n : ℝ) * lo ≤ ∑ i, crossEntropy (z i) (a i) := by
    have := Finset.card_nsmul_le_sum Finset.univ (fun i => crossEntropy (z i) (a i)) lo fun i _ => (h i).1
    simpa using this
  have h2 : ∑ i, crossEntropy (z i) (a i) ≤ (n : ℝ) * hi := by
    have := Finset.sum_le_card_nsmul Finset.univ (fun i => crossEntropy (z i) (a i)) hi fun i _ => (h i).2
    simpa using this
  unfold lossDiscrete
  rw [le_div_iff₀ hp, div_le_iff₀ hp]
  constructor <;> linarith

theorem C128_mean_square (hn : 0 < n) (hm : 0 < m) (y a : Fin n → Fin m → ℝ) (lo hi : ℝ) (h : ∀ i j, lo ≤ (a i j - y i j) ^ 2 ∧ (a i j - y i j) ^ 2 ≤ hi) :
    lo ≤ lossBox y a ∧ lossBox y a ≤ hi := by
  have hp : (0 : ℝ) < n * m := by positivity
  have h1 : (n : ℝ) * (m * lo) ≤ ∑ i, ∑ j, (a i j - y i j) ^ 2 := by
    have := Finset.card_nsmul_le_sum Finset.univ (fun i => ∑ j, (a i j - y i j) ^ 2) (m * lo) fun i _ => by
      have := Finset.card_nsmul_le_sum Finset.univ (fun j => (a i j - y i j) ^ 2) lo fun j _ => (h i j).1
      simpa using this
    simpa using this
  have h2 : ∑ i, ∑ j, (a i j - y i j) ^ 2 ≤ (n : ℝ) * (m * hi) := by
    have := Finset.sum_le_card_nsmul Finset.univ (fun i => ∑ j, (a i j - y i j) ^ 2) (m * hi) fun i _ => by
      have := Finset.sum_le_card_nsmul Finset.univ (fun j => (a i j - y i j) ^ 2) hi fun j _ => (h i j).2
      simpa using this
    simpa using this
  unfold lossBox
  rw [le_div_iff₀ hp, div_le_iff₀ hp]
  constructor <;> linarith

/-- **C128.** A batch with a loss below `log 2 / n` is cloned: for every sample the agent's best action is the expert's, and no other. -/
theorem C128_clone_batch (z : Fin n → Fin m → ℝ) (a : Fin n → Fin m) (h : lossDiscrete z a < Real.log 2 / n) (i : Fin n) (b : Fin m) (hb : b ≠ a i) : z i b < z i (a i) := by
  have hp : (0 : ℝ) < n := by have := i.pos; positivity
  refine C128_clone (z i) (a i) b hb ?_
  have h1 : crossEntropy (z i) (a i) ≤ ∑ k, crossEntropy (z k) (a k) :=
    Finset.single_le_sum (f := fun k => crossEntropy (z k) (a k)) (fun k _ => (C128_entropy (z k) (a k)).2.1) (Finset.mem_univ i)
  unfold lossDiscrete at h
  rw [div_lt_div_iff_of_pos_right hp] at h
  linarith

end

/-! ### The training -/

variable {K : Type} [Field K] [LinearOrder K] [IsStrictOrderedRing K] {P O X B : Type}

/-- Parameters and optimiser after `t` batches of the training part. -/
def after (c : Call K P O X B) : ℕ → P × O
  | 0 => (c.init.params, c.init.slots)
  | t + 1 => c.upd (after c t) (c.train t)

theorem pass_eq (c : Call K P O X B) : ∀ (k i : ℕ) (l : K), pass c k i (after c i) l = (after c (i + k), l + ∑ t ∈ Finset.range k, c.loss (after c (i + t)).1 (c.train (i + t)))
  | 0, i, l => by simp [pass]
  | k + 1, i, l => by
    rw [pass, show c.upd (after c i) (c.train i) = after c (i + 1) from rfl, pass_eq c k (i + 1), Finset.sum_range_succ', show i + 1 + k = i + (k + 1) by omega]
    have : ∀ t, i + 1 + t = i + (t + 1) := fun t => by omega
    simp only [this, add_zero]
    congr 1
    ring

theorem valSum_eq (c : Call K P O X B) (p : P) : ∀ (k j : ℕ) (l : K), valSum c p k j l = l + ∑ t ∈ Finset.range k, c.loss p (c.val (j + t))
  | 0, j, l => by simp [valSum]
  | k + 1, j, l => by
    rw [valSum, valSum_eq c p k (j + 1), Finset.sum_range_succ']
    have : ∀ t, j + 1 + t = j + (t + 1) := fun t => by omega
    simp only [this, add_zero]
    ring

/-- The epochs of a call. -/
def Call.total (c : Call K P O X B) : ℕ := ⌊c.epochs⌋.toNat

/-- The report of epoch `e` (from zero), the `i`-th report (from zero): means over the batches of the epoch, each loss before its step, and over the next batches of the validation part, after the epoch. -/
def report (c : Call K P O X B) (j i e : ℕ) : Report K :=
  { epoch := e + 1
    train := (∑ t ∈ Finset.range c.trainLen, c.loss (after c (e * c.trainLen + t)).1 (c.train (e * c.trainLen + t))) / c.trainLen
    val := (∑ t ∈ Finset.range c.valLen, c.loss (after c ((e + 1) * c.trainLen)).1 (c.val (j + i * c.valLen + t))) / c.valLen }

/-- The reported epochs. -/
def shown (verbose : Bool) (v : ℤ) (e : ℕ) : Bool := verbose && decide (v ∣ (e : ℤ) + 1)

theorem due_ok {b : Bool} {v : ℤ} (h : b = true → v ≠ 0) (e : ℕ) : due b v e = .ok (shown b v e) := by
  unfold due shown
  cases b with
  | false => rfl
  | true =>
    rw [if_pos rfl, if_neg (h rfl)]
    congr 1
    rw [Bool.true_and, Bool.eq_iff_iff, decide_eq_true_eq, beq_iff_eq]
    exact (Int.dvd_iff_emod_eq_zero).symm

/-- Nothing prevents the training of these epochs. -/
def Fine (c : Call K P O X B) (v : ℤ) (es : List ℕ) : Prop := es = [] ∨ c.trainLen ≠ 0 ∧ (c.verbose = true → v ≠ 0 ∧ (c.valLen = 0 → ∀ e ∈ es, ¬ v ∣ (e : ℤ) + 1))

theorem loop_ok (c : Call K P O X B) (v : ℤ) : ∀ (k e j : ℕ) (rs : List (Report K)), Fine c v (List.range' e k) →
    loop c v k e j (after c (e * c.trainLen)) rs = .ok (after c ((e + k) * c.trainLen), rs ++ ((List.range' e k).filter (shown c.verbose v)).mapIdx (report c j))
  | 0, e, j, rs, h => by simp [loop]
  | k + 1, e, j, rs, h => by
    obtain ⟨h1, h2⟩ := h.resolve_left (by simp)
    have h3 : Fine c v (List.range' (e + 1) k) := Or.inr ⟨h1, fun hv => ⟨(h2 hv).1, fun h0 x hx => (h2 hv).2 h0 x (by rw [List.range'_succ]; exact List.mem_cons_of_mem _ hx)⟩⟩
    rw [loop, pass_eq]
    simp only
    rw [if_neg h1, due_ok fun hv => (h2 hv).1]
    simp only [bind, Except.bind]
    have ee : e * c.trainLen + c.trainLen = (e + 1) * c.trainLen := by ring
    have ek : e + 1 + k = e + (k + 1) := by omega
    rw [ee, List.range'_succ]
    cases hs : shown c.verbose v e with
    | false =>
      rw [if_neg (by simp), loop_ok c v k (e + 1) j rs h3, List.filter_cons_of_neg (by simp [hs]), ek]
    | true =>
      have hv : c.verbose = true ∧ v ∣ (e : ℤ) + 1 := by simpa [shown] using hs
      have h0 : c.valLen ≠ 0 := fun h0 => (h2 hv.1).2 h0 e (by rw [List.range'_succ]; exact List.mem_cons_self) hv.2
      rw [if_pos rfl, if_neg h0, loop_ok c v k (e + 1) (j + c.valLen) _ h3, List.filter_cons_of_pos hs, ek, List.mapIdx_cons, valSum_eq]
      congr 2
      rw [List.append_assoc, List.singleton_append]
      congr 2
      · simp [report]
      · congr 1
        funext i e'
        unfold report
        congr 3
        funext t
        rw [show j + c.valLen + i * c.valLen = j + (i + 1) * c.valLen by ring]

theorem loop_error (c : Call K P O X B) (v : ℤ) : ∀ (k e j : ℕ) (rs : List (Report K)) (θ : P × O), ¬ Fine c v (List.range' e k) → loop c v k e j θ rs = .error .zeroDivision
  | 0, e, j, rs, θ, h => absurd (Or.inl rfl) h
  | k + 1, e, j, rs, θ, h => by
    rw [loop]
    by_cases h1 : c.trainLen = 0
    · rw [if_pos h1]
    rw [if_neg h1]
    by_cases h2 : c.verbose = true ∧ v = 0
    · unfold due
      rw [if_pos h2.1, if_pos h2.2]
      rfl
    rw [due_ok fun hv h0 => h2 ⟨hv, h0⟩]
    simp only [bind, Except.bind]
    have rest : ∀ (hd : ¬ (shown c.verbose v e = true ∧ c.valLen = 0)), ¬ Fine c v (List.range' (e + 1) k) := by
      intro hd hf
      refine h (Or.inr ⟨h1, fun hv => ⟨fun h0 => h2 ⟨hv, h0⟩, fun h0 x hx hdvd => ?_⟩⟩)
      rw [List.range'_succ, List.mem_cons] at hx
      rcases hx with rfl | hx
      · exact hd ⟨by simp [shown, hv, hdvd], h0⟩
      · rcases hf with hf | hf
        · rw [hf] at hx; cases hx
        · exact (hf.2 hv).2 h0 x hx hdvd
    cases hs : shown c.verbose v e with
    | false =>
      rw [if_neg (by simp)]
      exact loop_error c v k _ _ _ _ (rest (by simp [hs]))
    | true =>
      rw [if_pos rfl]
      by_cases h0 : c.valLen = 0
      · rw [if_pos h0]
      · rw [if_neg h0]
        exact loop_error c v k _ _ _ _ (rest fun h => h0 h.2)

theorem total_eq (c : Call K P O X B) : (if 0 ≤ c.epochs then ⌊c.epochs⌋.toNat else 0) = c.total := by
  unfold Call.total
  split
  · rfl
  · rename_i h
    have : ⌊c.epochs⌋ < 0 := Int.floor_lt.2 (by push_cast; exact not_le.1 h)
    omega

/-- **C128.** The training: every batch of every epoch is used once, in order, for one step; all other variables are untouched; the reports are those of the epochs divisible by the interval, if something is printed. -/
theorem C128_train (c : Call K P O X B) (s : State P O X) (h0 : c.space ≠ .other) (hf : Fine c (interval c.epochs c.interval) (List.range c.total)) :
    ∃ r, pretrain c s = .ok r ∧ (r.1.params, r.1.slots) = after c (c.total * c.trainLen) ∧ r.1.rest = c.init.rest ∧
      r.2 = ((List.range c.total).filter (shown c.verbose (interval c.epochs c.interval))).mapIdx (report c 0) := by
  unfold pretrain
  rw [if_neg h0]
  simp only
  have := loop_ok c (interval c.epochs c.interval) c.total 0 0 [] (by rw [← List.range_eq_range']; exact hf)
  rw [total_eq]
  simp only [Nat.zero_mul, Nat.zero_add, List.nil_append, ← List.range_eq_range'] at this
  rw [show ((c.init.params, c.init.slots) : P × O) = after c 0 from rfl, this]
  exact ⟨_, rfl, rfl, rfl, rfl⟩

/-- **C128.** It fails in exactly these cases: an unsupported action space; no batch in the training part; and, if something is printed, an interval of zero or no batch in the validation part when an epoch is to be reported. -/
theorem C128_fails (c : Call K P O X B) (s : State P O X) : (c.space = .other → pretrain c s = .error .assertion) ∧
    (c.space ≠ .other → ¬ Fine c (interval c.epochs c.interval) (List.range c.total) → pretrain c s = .error .zeroDivision) := by
  refine ⟨fun h => by simp [pretrain, h], fun h hf => ?_⟩
  unfold pretrain
  rw [if_neg h]
  simp only
  rw [total_eq, loop_error c _ c.total 0 0 [] _ (by rw [← List.range_eq_range']; exact hf)]
  rfl

/-- **C128 (defect).** Everything learnt or loaded before is lost: the result does not depend on the variables the agent had. -/
theorem C128_forgets (c : Call K P O X B) (s s' : State P O X) : pretrain c s = pretrain c s' := rfl

/-- **C128 (defect).** With no epoch at all the agent is not left as it was but drawn anew. -/
theorem C128_none (c : Call K P O X B) (s : State P O X) (h0 : c.space ≠ .other) (h : c.epochs < 1) : pretrain c s = .ok (c.init, []) := by
  have ht : c.total = 0 := by
    unfold Call.total
    have : ⌊c.epochs⌋ < 1 := Int.floor_lt.2 (by exact_mod_cast h)
    omega
  unfold pretrain
  rw [if_neg h0, total_eq, ht]
  rfl

/-- **C128.** Printing does not change what is learnt. -/
theorem C128_quiet {c c' : Call K P O X B} {s s' : State P O X} {r r' : State P O X × List (Report K)} (hc : c' = { c with verbose := c'.verbose, interval := c'.interval, valLen := c'.valLen, val := c'.val })
    (h : pretrain c s = .ok r) (h' : pretrain c' s' = .ok r') : r.1 = r'.1 := by
  have key : ∀ (c : Call K P O X B) (s : State P O X) (r : State P O X × List (Report K)), pretrain c s = .ok r → (r.1.params, r.1.slots) = after c (c.total * c.trainLen) ∧ r.1.rest = c.init.rest := by
    intro c s r h
    by_cases h0 : c.space = .other
    · rw [(C128_fails c s).1 h0] at h; cases h
    by_cases hf : Fine c (interval c.epochs c.interval) (List.range c.total)
    · obtain ⟨r', e, h1, h2, -⟩ := C128_train c s h0 hf
      rw [h] at e
      cases e
      exact ⟨h1, h2⟩
    · rw [(C128_fails c s).2 h0 hf] at h; cases h
  obtain ⟨a1, a2⟩ := key c s r h
  obtain ⟨b1, b2⟩ := key c' s' r' h'
  have hi : c'.init = c.init := by rw [hc]
  have he : ∀ t, after c' t = after c t := by
    intro t
    induction t with
    | zero => rw [after, after, hi]
    | succ t ih =>
      have hu : c'.upd = c.upd := by rw [hc]
      have htr : c'.train = c.train := by rw [hc]
      rw [after, after, ih, hu, htr]
  have ht : c'.total = c.total := by unfold Call.total; rw [hc]
  have hl : c'.trainLen = c.trainLen := by rw [hc]
  rw [he, ht, hl, ← a1] at b1
  rw [hi, ← a2] at b2
  obtain ⟨⟨p, o, x⟩, q⟩ := r
  obtain ⟨⟨p', o', x'⟩, q'⟩ := r'
  simp only [Prod.mk.injEq] at b1 b2 ⊢
  rw [b1.1, b1.2, b2]

/-- **C128.** Without an interval there are between 10 and 19 reports for a whole number of at least 10 epochs, and one per epoch below that. -/
theorem C128_reports (c : Call K P O X B) (N : ℕ) (hN : c.epochs = N) (hi : c.interval = none) (hv : c.verbose = true) :
    (N < 10 → ((List.range c.total).filter (shown c.verbose (interval c.epochs c.interval))).length = N) ∧
    (10 ≤ N → 10 ≤ ((List.range c.total).filter (shown c.verbose (interval c.epochs c.interval))).length ∧ ((List.range c.total).filter (shown c.verbose (interval c.epochs c.interval))).length ≤ 19) := by
  have ht : c.total = N := by unfold Call.total; rw [hN]; simp
  have cnt : ∀ v : ℕ, 0 < v → ((List.range N).filter (shown true (v : ℤ))).length = N / v := by
    intro v hv
    rw [← List.countP_eq_length_filter]
    have : ∀ M, (List.range M).countP (shown true (v : ℤ)) = M / v := by
      intro M
      induction M with
      | zero => simp
      | succ M ih =>
        rw [List.range_succ, List.countP_append, ih, List.countP_singleton, Nat.succ_div]
        have : shown true (v : ℤ) M = decide (v ∣ M + 1) := by
          unfold shown
          rw [Bool.true_and]
          congr 1
          rw [← Int.natCast_dvd_natCast]
          push_cast
          rfl
        rw [this]
        by_cases h : v ∣ M + 1 <;> simp [h]
    exact this N
  rw [ht, hi, hv, hN]
  constructor
  · intro h
    have e : interval (N : ℚ) none = ((1 : ℕ) : ℤ) := by
      unfold interval
      rw [if_pos (by exact_mod_cast h)]
      rfl
    rw [e, cnt 1 one_pos, Nat.div_one]
  · intro h
    have e : interval (N : ℚ) none = ((N / 10 : ℕ) : ℤ) := by
      unfold interval
      rw [if_neg (by push Not; exact_mod_cast h)]
      have := Rat.floor_natCast_div_natCast N 10
      push_cast at this ⊢
      exact this
    rw [e, cnt (N / 10) (by omega)]
    have hp : 0 < N / 10 := by omega
    refine ⟨(Nat.le_div_iff_mul_le hp).2 (by omega), ?_⟩
    have : N / (N / 10) < 20 := (Nat.div_lt_iff_lt_mul hp).2 (by omega)
    omega

/-- An agent with one parameter that moves to the last batch; the rest is the target network. -/
def exCall : Call ℚ ℚ Unit ℚ ℚ :=
  { space := .discrete, epochs := 2, interval := none, verbose := true, trainLen := 2, valLen := 1, train := fun i => i, val := fun j => 10 * j, init := ⟨7, (), 9⟩,
    upd := fun _ b => (b, ()), loss := fun p b => p - b }

example : (pretrain exCall ⟨1, (), 1⟩).map (fun r => (r.1.params, r.1.rest, r.2)) = .ok (3, 9, [⟨1, 3, 1⟩, ⟨2, -1, -7⟩]) := by decide +kernel

example : Fine exCall (interval exCall.epochs exCall.interval) (List.range exCall.total) := Or.inr ⟨by decide, fun _ => ⟨by decide +kernel, by decide⟩⟩

end Neorl.Pretrain

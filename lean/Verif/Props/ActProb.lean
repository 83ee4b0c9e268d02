import Verif.ActProb
import Verif.Props.Dist

/-!
# C114: what `predict` and `action_probability` report

The specification is the distribution the policy samples from and trains with (`distributions.py`, C102): softmax probabilities, products of them, coins, and for `Box` the
Gaussian density with the standard deviations of the policy.
-/

set_option linter.unusedSectionVars false
set_option linter.unusedVariables false

namespace Neorl.ActProb

open Real MeasureTheory ProbabilityTheory Neorl.Dist

/-- Shape of one observation of the space. -/
def ItemShape : ObsSpace → List ℕ → Prop
  | .box s, sh => sh = s
  | .discrete, sh => sh = []
  | .multiDiscrete k, sh => sh = [k]
  | .multiBinary n, sh => sh = [n]
  | .other, _ => False

/-- **C114.** An observation is taken as one observation exactly if it has the shape of one, as a batch exactly if it has one more leading axis, never both, and is refused otherwise. -/
theorem C114_shape (sp : ObsSpace) (sh : List ℕ) :
    (isVectorized sp sh = .ok false ↔ ItemShape sp sh) ∧ (isVectorized sp sh = .ok true ↔ ∃ N s, sh = N :: s ∧ ItemShape sp s) ∧
    (isVectorized sp sh = .error .valueError ↔ ¬ItemShape sp sh ∧ ¬∃ N s, sh = N :: s ∧ ItemShape sp s) := by
  have key : ∀ shape : List ℕ, ∀ c : Prop, ∀ [Decidable c], (sh ≠ shape → (c ↔ ∃ N, sh = N :: shape)) →
      ∀ r : Py Bool, r = (if sh = shape then .ok false else if c then .ok true else .error .valueError) →
      (r = .ok false ↔ sh = shape) ∧ (r = .ok true ↔ ∃ N s, sh = N :: s ∧ s = shape) ∧ (r = .error .valueError ↔ ¬sh = shape ∧ ¬∃ N s, sh = N :: s ∧ s = shape) := by
    intro shape c _ hc r hr
    have e : (∃ N s, sh = N :: s ∧ s = shape) ↔ ∃ N, sh = N :: shape :=
      ⟨fun ⟨N, s, h, hs⟩ => ⟨N, by rw [h, hs]⟩, fun ⟨N, h⟩ => ⟨N, shape, h, rfl⟩⟩
    rw [e, hr]
    by_cases h1 : sh = shape
    · have h2 : ¬∃ N, sh = N :: shape := fun ⟨N, h⟩ => by
        have := congrArg List.length (h1.symm.trans h)
        simp at this
      rw [if_pos h1]
      simp [h1]
    · rw [if_neg h1]
      have h3 := hc h1
      by_cases h2 : c
      · rw [if_pos h2]
        have := h3.1 h2
        simp [h1, this]
      · rw [if_neg h2]
        have h4 : ∀ N, ¬sh = N :: shape := fun N h => h2 (h3.2 ⟨N, h⟩)
        simp [h1, h4]
  cases sp with
  | box shape =>
    refine key shape (sh.drop 1 = shape) (fun h => ⟨fun h2 => ?_, fun ⟨N, h2⟩ => by rw [h2]; rfl⟩) _ rfl
    cases sh with
    | nil => exact absurd h2 h
    | cons a t => exact ⟨a, by rw [← h2]; rfl⟩
  | discrete =>
    exact key [] (sh.length = 1) (fun h => by rw [List.length_eq_one_iff]) _ rfl
  | multiDiscrete k =>
    refine key [k] (sh.length = 2 ∧ sh[1]? = some k) (fun h => ⟨fun h2 => ?_, fun ⟨N, h2⟩ => by rw [h2]; simp⟩) _ rfl
    obtain ⟨a, b, rfl⟩ := List.length_eq_two.1 h2.1
    exact ⟨a, by simpa using h2.2⟩
  | multiBinary k =>
    refine key [k] (sh.length = 2 ∧ sh[1]? = some k) (fun h => ⟨fun h2 => ?_, fun ⟨N, h2⟩ => by rw [h2]; simp⟩) _ rfl
    obtain ⟨a, b, rfl⟩ := List.length_eq_two.1 h2.1
    exact ⟨a, by simpa using h2.2⟩
  | other => simp [isVectorized, ItemShape]

/-- **C114.** `predict` stays inside the action space, changes only components that are outside, to the nearest bound, and answers every observation in order. -/
theorem C114_predict {n : ℕ} (low high : Fin n → ℝ) (hb : ∀ i, low i ≤ high i) (actions : List (Fin n → ℝ)) (recurrent : Bool) :
    ∃ r, predictBox low high true recurrent actions = .ok (.all r) ∧ (actions ≠ [] → ∃ x, r.head? = some x ∧ predictBox low high false false actions = .ok (.one x)) ∧
    List.Forall₂ (fun a b => ∀ i, low i ≤ b i ∧ b i ≤ high i ∧ (low i ≤ a i → a i ≤ high i → b i = a i) ∧ ∀ y, low i ≤ y → y ≤ high i → |b i - a i| ≤ |y - a i|) actions r := by
  refine ⟨_, rfl, fun h => ?_, ?_⟩
  · cases actions with
    | nil => exact absurd rfl h
    | cons a t => exact ⟨_, rfl, rfl⟩
  · rw [List.forall₂_map_right_iff, List.forall₂_same]
    intro a _ i
    have := hb i
    unfold clip
    beta_reduce
    rcases le_total (a i) (low i) with h1 | h1
    · rw [max_eq_right h1, min_eq_left this]
      refine ⟨le_refl _, this, fun h _ => le_antisymm h h1, fun y hy _ => ?_⟩
      rw [abs_of_nonneg (by linarith), abs_of_nonneg (by linarith)]
      linarith
    · rw [max_eq_left h1]
      rcases le_total (a i) (high i) with h2 | h2
      · rw [min_eq_left h2]
        exact ⟨h1, h2, fun _ _ => rfl, fun y _ _ => by simp⟩
      · rw [min_eq_right h2]
        refine ⟨this, le_refl _, fun _ h => le_antisymm h2 h, fun y _ hy => ?_⟩
        rw [abs_of_nonpos (by linarith), abs_of_nonpos (by linarith)]
        linarith

/-- **C114.** A single observation is refused with recurrent policies, and so are batches of actions and observations of different sizes. -/
theorem C114_refused {n : ℕ} (v r lp : Bool) (low high : Fin n → ℝ) (actions : List (Fin n → ℝ)) (outs : List (Fin n → ℝ)) (acts : List ℤ) :
    predictBox low high false true actions = .error .valueError ∧ (outs.length ≠ acts.length → discrete v r lp outs acts = .error .assertion) ∧
    (outs.length ≠ actions.length → multiBinary v r lp outs actions = .error .assertion) := by
  refine ⟨rfl, fun h => ?_, fun h => ?_⟩
  · unfold discrete perRow
    rw [if_neg h]
    rfl
  · unfold multiBinary perRow
    rw [if_neg h]
    rfl

/-- The answer for a whole batch, and the first entry of it for a single observation. -/
def Answers {α : Type} (f : Bool → Bool → Py (Ret (List α) α)) (l : List α) : Prop :=
  (∀ r, f true r = .ok (.all l)) ∧ f false true = .error .valueError ∧ ∀ x, l.head? = some x → f false false = .ok (.one x)

theorem answers_finish {α : Type} (f : Bool → Bool → Py (Ret (List α) α)) (l : List α) (h : ∀ v r, f v r = finish v r l) : Answers f l := by
  refine ⟨fun r => by rw [h]; rfl, by rw [h]; rfl, fun x hx => ?_⟩
  rw [h]
  cases l with
  | nil => simp at hx
  | cons a t =>
    simp at hx
    subst hx
    rfl

theorem perRow_map {O A B : Type} (f : O → B → Py ℝ) (c : A → B) (g : O → A → ℝ) (h : ∀ o a, f o (c a) = .ok (g o a)) (outs : List O) (acts : List A) (hl : outs.length = acts.length) :
    perRow f outs (acts.map c) = .ok (List.zipWith g outs acts) := by
  rw [perRow, if_pos (by simpa using hl)]
  clear hl
  induction outs generalizing acts with
  | nil => rfl
  | cons o outs ih =>
    cases acts with
    | nil => rfl
    | cons a acts =>
      rw [List.map_cons, List.zip_cons_cons, List.mapM_cons, h, ih acts]
      rfl

theorem answers_rows {O A B : Type} (f : O → B → Py ℝ) (c : A → B) (g : O → A → ℝ) (h : ∀ o a, f o (c a) = .ok (exp (g o a))) (outs : List O) (acts : List A) (hl : outs.length = acts.length) :
    Answers (fun v r => do let prob ← perRow f outs (acts.map c); finish v r (prob.map (ofProb false))) (List.zipWith (fun o a => exp (g o a)) outs acts) ∧
    Answers (fun v r => do let prob ← perRow f outs (acts.map c); finish v r (prob.map (ofProb true))) (List.zipWith g outs acts) := by
  refine ⟨answers_finish _ _ fun v r => ?_, answers_finish _ _ fun v r => ?_⟩
  · rw [perRow_map f c _ h outs acts hl]
    show finish v r _ = _
    rw [List.map_zipWith]
    rfl
  · rw [perRow_map f c _ h outs acts hl]
    show finish v r _ = _
    rw [List.map_zipWith]
    congr 2
    funext o a
    exact log_exp _

/-- **C114.** `Discrete`: the answer for category `i` is its softmax probability, i.e. `exp (-neglogp)` of the distribution that is sampled from and trained with. -/
theorem C114_discrete {n : ℕ} (outs : List (Fin n → ℝ)) (acts : List (Fin n)) (hl : outs.length = acts.length) :
    Answers (fun v r => discrete v r false outs (acts.map fun i : Fin n => (i : ℤ))) (List.zipWith (fun l (i : Fin n) => exp (-catNeglogp l i)) outs acts) ∧
    Answers (fun v r => discrete v r true outs (acts.map fun i : Fin n => (i : ℤ))) (List.zipWith (fun l (i : Fin n) => -catNeglogp l i) outs acts) := by
  refine answers_rows discreteRow (fun i : Fin n => (i : ℤ)) (fun l i => -catNeglogp l i) (fun l i => ?_) outs acts hl
  rw [(C102_cat_prob l i).1, discreteRow, npIndex_nonneg]
  rfl

/-- **C114, defect.** A negative number, which is no action, is answered with the probability of the category counted from the end, while `neglogp` takes its probability as 1. Other numbers are refused. -/
theorem C114_discrete_invalid {n : ℕ} (l : Fin n → ℝ) (i : Fin n) :
    discrete true false false [l] [(i : ℤ) - n] = .ok (.all [exp (-catNeglogp l i)]) ∧ exp (-catNeglogp l ((i : ℤ) - n)) = 1 ∧
    ∀ a : ℤ, a < -n ∨ n ≤ a → discrete true false false [l] [a] = .error .indexError := by
  refine ⟨?_, C102_cat_invalid l (Or.inl (by have := i.2; omega)), fun a ha => ?_⟩
  · rw [(C102_cat_prob l i).1]
    simp [discrete, perRow, discreteRow, npIndex_neg, finish, softmax]
    rfl
  · simp [discrete, perRow, discreteRow, npIndex_none ha]
    rfl

/-- **C114.** `MultiDiscrete`: the product of the probabilities of the categories, `exp (-neglogp)`. -/
theorem C114_multi {m : ℕ} {n : Fin m → ℕ} (hn : ∀ k, 0 < n k) (outs : List (Fin (∑ k, n k) → ℝ)) (acts : List (∀ k, Fin (n k))) (hl : outs.length = acts.length) :
    Answers (fun v r => multiDiscrete v r false outs (acts.map fun x k => ((x k : Fin (n k)) : ℤ))) (List.zipWith (fun o x => exp (-multiNeglogp o fun k => ((x k : Fin (n k)) : ℤ))) outs acts) ∧
    Answers (fun v r => multiDiscrete v r true outs (acts.map fun x k => ((x k : Fin (n k)) : ℤ))) (List.zipWith (fun o x => -multiNeglogp o fun k => ((x k : Fin (n k)) : ℤ)) outs acts) := by
  have hrow : ∀ (o : Fin (∑ k, n k) → ℝ) (x : ∀ k, Fin (n k)), multiRow o (fun k => ((x k : Fin (n k)) : ℤ)) = .ok (joint o x) := by
    intro o x
    unfold multiRow
    rw [dif_pos (fun k => by rw [npIndex_nonneg]; rfl)]
    congr 1
    refine Finset.prod_congr rfl fun k _ => ?_
    have : ∀ (q : Option (Fin (n k))) (h : q.isSome), q = some (x k) → q.get h = x k := by
      intro q h e
      subst e
      rfl
    rw [this _ _ (npIndex_nonneg (x k))]
    rfl
  refine answers_rows multiRow (fun (x : ∀ k, Fin (n k)) k => ((x k : Fin (n k)) : ℤ)) (fun o x => -multiNeglogp o fun k => ((x k : Fin (n k)) : ℤ)) (fun o x => ?_) outs acts hl
  rw [(C102_multi o o hn).1 x]
  exact hrow o x

/-- **C114.** `MultiBinary`: for vectors of zeros and ones the product of the probabilities of the coins, `exp (-neglogp)`. -/
theorem C114_binary {n : ℕ} (outs : List (Fin n → ℝ)) (acts : List (Fin n → Bool)) (hl : outs.length = acts.length) :
    Answers (fun v r => multiBinary v r false outs (acts.map fun x i => if x i then 1 else 0)) (List.zipWith (fun l x => exp (-berNeglogp l fun i => if x i then 1 else 0)) outs acts) ∧
    Answers (fun v r => multiBinary v r true outs (acts.map fun x i => if x i then 1 else 0)) (List.zipWith (fun l x => -berNeglogp l fun i => if x i then 1 else 0) outs acts) := by
  refine answers_rows (fun l a => .ok (binaryRow l a)) (fun (x : Fin n → Bool) i => if x i then 1 else 0) (fun l x => -berNeglogp l fun i => if x i then 1 else 0) (fun l x => ?_) outs acts hl
  rw [(C102_bernoulli l l).1]
  congr 1
  refine Finset.prod_congr rfl fun i _ => ?_
  by_cases hx : x i = true <;> simp [hx, coin, sigmoid]

/-- What `Box` is answered with: independent Gaussians whose variances are the exponentials of the standard deviations. -/
noncomputable def boxDensity {n : ℕ} (flat : Fin (n + n) → ℝ) (a : Fin n → ℝ) : ℝ :=
  ∏ i, gaussianPDFReal (flat (Fin.castAdd n i)) ⟨exp (exp (flat (Fin.natAdd n i))), (exp_pos _).le⟩ (a i)

theorem exp_boxLogRow {n : ℕ} (flat : Fin (n + n) → ℝ) (a : Fin n → ℝ) : exp (boxLogRow flat a) = boxDensity flat a := by
  have h1 : boxLogRow flat a = ∑ i, (-((a i - mean flat i) ^ 2 / (2 * exp (std flat i))) + (-(1 / 2 * log (2 * π)) - 1 / 2 * std flat i)) := by
    unfold boxLogRow boxProba
    simp only [Finset.sum_add_distrib, Finset.sum_neg_distrib, Finset.sum_sub_distrib, Finset.sum_const, Finset.card_univ, Fintype.card_fin, nsmul_eq_mul, ← Finset.mul_sum]
    ring
  rw [h1, exp_sum]
  refine Finset.prod_congr rfl fun i _ => ?_
  unfold gaussianPDFReal
  have h2 : exp (-(1 / 2 * log (2 * π)) - 1 / 2 * std flat i) = (√(2 * π * exp (std flat i)))⁻¹ := by
    rw [sqrt_eq_rpow, rpow_def_of_pos (by positivity), ← exp_neg, log_mul (by positivity) (exp_pos _).ne', log_exp]
    congr 1
    ring
  rw [exp_add, h2, mul_comm]
  show _ = (√(2 * π * exp (std flat i)))⁻¹ * exp (-(a i - mean flat i) ^ 2 / (2 * exp (std flat i)))
  rw [neg_div]

/-- **C114, defect.** `Box`: the answer is the density of Gaussians with the variance `exp σ`, where `σ` is the standard deviation of the policy. It is wrong for every policy: at the mean, it is less than three quarters
(`2/e`) of the density `exp (-neglogp)` per dimension. -/
theorem C114_box {n : ℕ} (outs : List (Fin (n + n) → ℝ)) (acts : List (Fin n → ℝ)) (hl : outs.length = acts.length) :
    Answers (fun v r => box v r false outs acts) (List.zipWith boxDensity outs acts) ∧
    Answers (fun v r => box v r true outs acts) (List.zipWith (fun o a => log (boxDensity o a)) outs acts) ∧
    ∀ o : Fin (n + n) → ℝ, boxDensity o (fun i => o (Fin.castAdd n i)) ≤ (2 / exp 1) ^ n * exp (-gaussNeglogp o fun i => o (Fin.castAdd n i)) := by
  have h : broadcast boxLogRow outs acts = .ok (List.zipWith boxLogRow outs acts) := by
    unfold broadcast
    rw [if_pos hl]
  refine ⟨answers_finish _ _ fun v r => ?_, answers_finish _ _ fun v r => ?_, fun o => ?_⟩
  · show (do let prob ← broadcast boxLogRow outs acts; finish v r (prob.map (ofLog false))) = _
    rw [h]
    show finish v r _ = _
    congr 1
    rw [List.map_zipWith]
    congr 1
    funext o a
    exact exp_boxLogRow o a
  · show (do let prob ← broadcast boxLogRow outs acts; finish v r (prob.map (ofLog true))) = _
    rw [h]
    show finish v r _ = _
    congr 1
    rw [List.map_zipWith]
    congr 1
    funext o a
    rw [← exp_boxLogRow, log_exp]
    rfl
  · have hp : (2 / exp 1) ^ n = ∏ _i : Fin n, (2 / exp 1) := by rw [Finset.prod_const, Finset.card_univ, Fintype.card_fin]
    rw [C102_gauss_density, hp, ← Finset.prod_mul_distrib]
    unfold boxDensity
    refine Finset.prod_le_prod (fun i _ => gaussianPDFReal_nonneg _ _ _) fun i _ => ?_
    unfold gaussianPDFReal
    simp only [sub_self, ne_eq, OfNat.ofNat_ne_zero, not_false_eq_true, zero_pow, neg_zero, zero_div, exp_zero, mul_one]
    show (√(2 * π * exp (exp (o (Fin.natAdd n i)))))⁻¹ ≤ 2 / exp 1 * (√(2 * π * exp (o (Fin.natAdd n i)) ^ 2))⁻¹
    have hs : 0 < exp (o (Fin.natAdd n i)) := exp_pos _
    obtain ⟨σ, hσ⟩ : ∃ σ, σ = exp (o (Fin.natAdd n i)) := ⟨_, rfl⟩
    rw [← hσ] at hs ⊢
    have h2 : √(exp σ) = exp (σ / 2) := by rw [← exp_half]
    rw [sqrt_mul (x := 2 * π) (by positivity), sqrt_mul (x := 2 * π) (by positivity), sqrt_sq hs.le, h2, mul_inv, mul_inv, mul_left_comm]
    refine mul_le_mul_of_nonneg_left ?_ (by positivity)
    have h3 : σ / 2 ≤ exp (σ / 2 - 1) := by have := add_one_le_exp (σ / 2 - 1); linarith
    rw [exp_sub] at h3
    rw [inv_eq_one_div, inv_eq_one_div, div_mul_div_comm, mul_one, div_le_div_iff₀ (exp_pos _) (by positivity)]
    rw [le_div_iff₀ (exp_pos _)] at h3
    linarith

/-- **C114, defect.** The density answered for the mean is strictly below that of the policy, for every policy with at least one dimension: the answer of `action_probability` never is the density sampled from. -/
theorem C114_box_wrong {n : ℕ} (hn : 0 < n) (o : Fin (n + n) → ℝ) : ∃ a, box false false false [o] [a] ≠ .ok (.one (exp (-gaussNeglogp o a))) := by
  refine ⟨fun i => o (Fin.castAdd n i), fun h => ?_⟩
  have h1 := (C114_box [o] [fun i => o (Fin.castAdd n i)] rfl).1.2.2 _ rfl
  have h2 := (C114_box [o] [fun i => o (Fin.castAdd n i)] rfl).2.2 o
  beta_reduce at h1
  rw [h] at h1
  injection h1 with h1
  injection h1 with h1
  rw [← h1] at h2
  have h3 : (2 / exp 1) < 1 := by
    rw [div_lt_one (exp_pos _)]
    have := quadratic_le_exp_of_nonneg (zero_le_one' ℝ)
    linarith
  have h4 : (2 / exp 1) ^ n < 1 := pow_lt_one₀ (by positivity) h3 hn.ne'
  have h5 := exp_pos (-gaussNeglogp o fun i => o (Fin.castAdd n i))
  nlinarith

/-- **C114, defect.** There is no check of the batch sizes for `Box`: a batch of observations with a single action is answered. -/
theorem C114_box_sizes {n : ℕ} (outs : List (Fin (n + n) → ℝ)) (a : Fin n → ℝ) (h : 2 ≤ outs.length) (r : Bool) : box true r false outs [a] = .ok (.all (outs.map fun o => boxDensity o a)) := by
  have : broadcast boxLogRow outs [a] = .ok (outs.map fun o => boxLogRow o a) := by
    unfold broadcast
    rw [if_neg (by simp; omega)]
  show (do let prob ← broadcast boxLogRow outs [a]; finish true r (prob.map (ofLog false))) = _
  rw [this]
  show finish true r _ = _
  rw [List.map_map]
  show Except.ok (Ret.all _) = _
  congr 2
  exact List.map_congr_left fun o _ => exp_boxLogRow o a

/-- **C114.** Without actions, the probabilities of all categories are returned, positive with sum 1, for every observation. -/
theorem C114_all {n : ℕ} (hn : 0 < n) (outs : List (Fin n → ℝ)) :
    Answers (fun v r => discreteAll v r outs) (outs.map fun l i => exp (-catNeglogp l i)) ∧ ∀ l ∈ outs, (∀ i : Fin n, 0 < exp (-catNeglogp l i)) ∧ ∑ i : Fin n, exp (-catNeglogp l i) = 1 := by
  refine ⟨answers_finish _ _ fun v r => ?_, fun l _ => ⟨fun i => exp_pos _, (C102_cat_prob l ⟨0, hn⟩).2.2⟩⟩
  show finish v r _ = _
  congr 1
  refine List.map_congr_left fun l _ => funext fun i => ?_
  exact ((C102_cat_prob l i).1).symm

/-- **C114.** For a batch without actions, `MultiDiscrete` gives for every category and observation the probabilities of all its choices, and `Box` the means (the first half of what the network says) and the
standard deviations (the exponential of the second half). -/
theorem C114_all_batch (r : Bool) {m : ℕ} {n : Fin m → ℕ} (outs : List (Fin (∑ k, n k) → ℝ)) {d : ℕ} (bouts : List (Fin (d + d) → ℝ)) :
    (∃ ps : List (List (List ℝ)), multiAll true r outs = .ok (.all ps) ∧ ps.length = m ∧ ∀ (k : Fin m) (rows : List (List ℝ)), ps[(k : ℕ)]? = some rows → rows.length = outs.length ∧
      ∀ (e : ℕ) (o : Fin (∑ k, n k) → ℝ) (row : List ℝ), outs[e]? = some o → rows[e]? = some row → row.length = n k ∧
        ∀ i : Fin (n k), row[(i : ℕ)]? = some (exp (o (finSigmaFinEquiv ⟨k, i⟩)) / ∑ j, exp (o (finSigmaFinEquiv ⟨k, j⟩)))) ∧
    boxAll true r bouts = .ok (.all [bouts.map fun o i => o (Fin.castAdd d i), bouts.map fun o i => exp (o (Fin.natAdd d i))]) := by
  refine ⟨⟨_, rfl, by simp, fun k rows hk => ?_⟩, rfl⟩
  simp only [List.getElem?_map, Option.map_eq_some_iff] at hk
  obtain ⟨k', hk', rfl⟩ := hk
  have hkk : k' = k := by
    obtain ⟨_, h⟩ := List.getElem?_eq_some_iff.1 hk'
    rw [List.getElem_finRange] at h
    rw [← h]; rfl
  subst hkk
  refine ⟨by simp, fun e o row ho hr => ?_⟩
  rw [List.getElem?_map, ho] at hr
  simp only [Option.map_some, Option.some.injEq] at hr
  subst hr
  refine ⟨by simp, fun i => ?_⟩
  rw [List.getElem?_ofFn]
  simp only [i.2, dif_pos]
  rfl

/-- **C114, defect.** Without actions, a single observation gets for `Box` only the mean and for `MultiDiscrete` only the probabilities of the first category: policies that differ in everything else get the same answer. -/
theorem C114_all_lossy {n : ℕ} (o o' : Fin (n + n) → ℝ) (h : ∀ i : Fin n, o (Fin.castAdd n i) = o' (Fin.castAdd n i)) {m : ℕ} {k : Fin (m + 1) → ℕ} (u u' : Fin (∑ j, k j) → ℝ) (h2 : block u 0 = block u' 0) :
    boxAll false false [o] = .ok (.one [fun i => o (Fin.castAdd n i)]) ∧ boxAll false false [o'] = boxAll false false [o] ∧ multiAll (n := k) false false [u] = multiAll false false [u'] := by
  refine ⟨rfl, ?_, ?_⟩
  · have : mean o' = mean o := funext fun i => (h i).symm
    show Except.ok (Ret.one [mean o']) = Except.ok (Ret.one [mean o])
    rw [this]
  · unfold multiAll
    rw [List.finRange_succ]
    simp only [List.map_cons, List.map_nil, finish, h2]
    rfl

/-- **C114.** `_softmax` is the softmax, whatever the maximum that is subtracted. -/
theorem C114_softmax {n : ℕ} (x : Fin n → ℝ) (i : Fin n) : softmaxShifted x i = exp (x i) / ∑ j, exp (x j) := p0_eq x i

/-! ### A run -/

/-- Two observations, three categories with equal logits. -/
example : discrete true false false [fun _ : Fin 3 => (0 : ℝ), fun _ => 5] [1, -1] = .ok (.all [1 / 3, 1 / 3]) := by
  have h1 : npIndex 3 1 = some 1 := by decide
  have h2 : npIndex 3 (-1) = some 2 := by decide
  have h3 : ∀ c : ℝ, ∀ i : Fin 3, softmax (fun _ => c) i = 1 / 3 := fun c i => by
    unfold softmax
    have := (exp_pos c).ne'
    simp
    field_simp
  simp [discrete, perRow, discreteRow, h1, h2, h3, finish]
  rfl

/-- Standard normal policy in one dimension at its mean: `1 / sqrt (2 π e)` is answered, the density is `1 / sqrt (2 π)`. -/
example : boxDensity (n := 1) (fun _ => 0) (fun _ => 0) = (√(2 * π * exp 1))⁻¹ ∧ exp (-gaussNeglogp (n := 1) (fun _ => 0) fun _ => 0) = (√(2 * π))⁻¹ := by
  constructor
  · simp [boxDensity, gaussianPDFReal]
    rfl
  · rw [C102_gauss_density]
    rw [Fin.prod_univ_one]
    show (√(2 * π * exp 0 ^ 2))⁻¹ * exp (-(0 - 0) ^ 2 / (2 * exp 0 ^ 2)) = _
    rw [exp_zero, one_pow, mul_one, sub_zero]
    simp only [ne_eq, OfNat.ofNat_ne_zero, not_false_eq_true, zero_pow, neg_zero, zero_div, exp_zero, mul_one]

end Neorl.ActProb

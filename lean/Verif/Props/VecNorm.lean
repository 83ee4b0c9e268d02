import Verif.VecNorm
import Verif.Props.Rms
import Mathlib.Algebra.Order.Group.MinMax

/-!
# C92: normalised observations and rewards
-/

set_option linter.unusedSectionVars false
set_option linter.unusedVariables false

namespace Neorl.VecNorm

variable {K : Type} [Field K] [LinearOrder K] [IsStrictOrderedRing K]

/-! ### Specification -/

/-- The discounted sum of the rewards of an episode, seen from its end: the last reward counts fully, the one before `γ`, and so on. -/
def disc (γ : K) (l : List K) : K := (l.reverse.zipIdx.map fun p => p.1 * γ ^ p.2).sum

/-- What has happened so far: whether the wrapper is training, the rewards of the current episode of each environment (those received while training), the batches of
observations and the batches of discounted sums that should enter the statistics. -/
structure Track (K : Type) where
  training : Bool
  ep : ℕ → List K
  obsB : List (List K)
  retB : List (List K)

/-- At the start. -/
def Track.init (training : Bool) : Track K := { training := training, ep := fun _ => [], obsB := [], retB := [] }

/-- The effect of an event.  While training, a step adds its observations and the discounted sums to the statistics; a reset adds a batch of zeros to the latter;
an episode ends with a reset or when `news` says so. -/
def Track.next (c : Conf K) (t : Track K) : Ev K → Track K
  | .train b => { t with training := b }
  | .reset obs => { t with ep := fun _ => [], retB := if t.training then t.retB ++ [List.replicate c.n 0] else t.retB }
  | .step obs rews news term =>
    let ep := if t.training then fun i => t.ep i ++ rews[i]?.toList else t.ep
    { training := t.training
      ep := fun i => if news[i]? = some true then [] else ep i
      obsB := if t.training then t.obsB ++ [obs] else t.obsB
      retB := if t.training then t.retB ++ [(List.range c.n).map fun i => disc c.gamma (ep i)] else t.retB }

def track (c : Conf K) (training : Bool) (evs : List (Ev K)) : Track K := evs.foldl (Track.next c) (Track.init training)

/-- The answers of the wrapped environments have one entry per environment. -/
def Fits (c : Conf K) : Ev K → Prop
  | .train _ => True
  | .reset obs => obs.length = c.n
  | .step obs rews news term => obs.length = c.n ∧ rews.length = c.n ∧ news.length = c.n

/-! ### Lemmas -/

theorem disc_snoc (γ : K) (l : List K) (r : K) : disc γ (l ++ [r]) = disc γ l * γ + r := by
  unfold disc
  rw [List.reverse_append, List.reverse_singleton, List.singleton_append, List.zipIdx_cons, List.map_cons, List.sum_cons, pow_zero, mul_one, add_comm]
  congr 1
  rw [zero_add, List.zipIdx_succ, List.map_map]
  generalize l.reverse.zipIdx = z
  induction z with
  | nil => simp
  | cons p z ih =>
    rw [List.map_cons, List.sum_cons, List.map_cons, List.sum_cons, ih, add_mul]
    simp [pow_succ, mul_assoc]

/-- The state agrees with the specification. -/
structure Agree (c : Conf K) (t : Track K) (s : Norm K) : Prop where
  training : s.training = t.training
  ret : s.ret = (List.range c.n).map fun i => disc c.gamma (t.ep i)
  obsR : s.obsR = Rms.run c.eps0 t.obsB
  retR : s.retR = Rms.run c.eps0 t.retB

theorem run_snoc (eps : K) (bs : List (List K)) (b : List K) : Rms.run eps (bs ++ [b]) = Rms.update (Rms.run eps bs) b := by
  simp [Rms.run]

theorem zip_disc {n : ℕ} (γ : K) (ep : ℕ → List K) {rews : List K} (hr : rews.length = n) :
    List.zipWith (fun a r => a * γ + r) ((List.range n).map fun i => disc γ (ep i)) rews = (List.range n).map fun i => disc γ (ep i ++ rews[i]?.toList) := by
  refine List.ext_getElem (by simp [hr]) ?_
  intro i h1 h2
  have hi : i < rews.length := by simp at h1; omega
  simp [List.getElem?_eq_getElem hi, disc_snoc]

theorem zero_disc {n : ℕ} (γ : K) (ep : ℕ → List K) {news : List Bool} (hn : news.length = n) :
    zeroNews ((List.range n).map fun i => disc γ (ep i)) news = (List.range n).map fun i => disc γ (if news[i]? = some true then [] else ep i) := by
  unfold zeroNews
  refine List.ext_getElem (by simp [hn]) ?_
  intro i h1 h2
  have hi : i < news.length := by simp at h1; omega
  simp only [List.getElem_zipWith, List.getElem_map, List.getElem_range, List.getElem?_eq_getElem hi, Option.some.injEq]
  split_ifs with h
  · simp [disc]
  · rfl

theorem zeros_disc (n : ℕ) (γ : K) : (List.replicate n (0 : K)) = (List.range n).map fun i => disc γ ([] : List K) := by
  refine List.ext_getElem (by simp) ?_
  intro i h1 h2
  simp [disc]

theorem updateReward_zero (c : Conf K) (s : Norm K) (h : s.ret = List.replicate c.n 0) :
    updateReward c (List.replicate c.n 0) s = { s with retR := Rms.update s.retR (List.replicate c.n 0) } := by
  have : List.zipWith (fun a r => a * c.gamma + r) s.ret (List.replicate c.n 0) = List.replicate c.n 0 := by
    rw [h]
    refine List.ext_getElem (by simp) ?_
    intro i h1 h2
    simp
  unfold updateReward
  simp only [this]
  cases s
  simp only at h
  subst h
  rfl

theorem Agree.next {c : Conf K} {t : Track K} {s : Norm K} (h : Agree c t s) {e : Ev K} (he : Fits c e) : Agree c (t.next c e) (exec c s e).1 := by
  cases e with
  | train b => exact ⟨rfl, h.ret, h.obsR, h.retR⟩
  | reset obs =>
    unfold exec reset Track.next
    simp only
    by_cases ht : s.training
    · rw [if_pos ht, updateReward_zero c _ rfl]
      rw [← h.training, if_pos ht]
      exact ⟨rfl, zeros_disc c.n c.gamma, h.obsR, by rw [run_snoc, ← h.retR]⟩
    · rw [if_neg ht, ← h.training, if_neg ht]
      exact ⟨rfl, zeros_disc c.n c.gamma, h.obsR, h.retR⟩
  | step obs rews news term =>
    obtain ⟨h1, h2, h3⟩ := he
    unfold exec stepWait Track.next
    simp only
    by_cases ht : s.training
    · have ht' : t.training = true := by rw [← h.training]; exact ht
      simp only [ht, ht', if_true, updateReward]
      refine ⟨rfl, ?_, by rw [run_snoc, ← h.obsR], ?_⟩
      · rw [h.ret, zip_disc c.gamma t.ep h2, zero_disc c.gamma _ h3]
      · rw [h.ret, zip_disc c.gamma t.ep h2, run_snoc, ← h.retR]
    · have ht' : t.training = false := by rw [← h.training]; simpa using ht
      have ht2 : s.training = false := by simpa using ht
      simp only [ht2, ht', Bool.false_eq_true, if_false]
      refine ⟨rfl, ?_, h.obsR, h.retR⟩
      rw [h.ret, zero_disc c.gamma _ h3]

theorem agree_init (c : Conf K) (tr : Bool) : Agree c (Track.init tr) (init c tr) := ⟨rfl, zeros_disc c.n c.gamma, rfl, rfl⟩

theorem agree_run (c : Conf K) : ∀ (evs : List (Ev K)) (t : Track K) (s : Norm K), Agree c t s → (∀ e ∈ evs, Fits c e) → Agree c (evs.foldl (Track.next c) t) (run c s evs).1 := by
  intro evs
  induction evs with
  | nil => intro t s h _; exact h
  | cons e es ih =>
    intro t s h he
    rw [run, List.foldl_cons]
    exact ih _ _ (h.next (he e (by simp))) fun e' h' => he e' (by simp [h'])

theorem run_append (c : Conf K) (e : Ev K) : ∀ (evs : List (Ev K)) (s : Norm K), run c s (evs ++ [e]) = ((exec c (run c s evs).1 e).1, (run c s evs).2 ++ [(exec c (run c s evs).1 e).2]) := by
  intro evs
  induction evs with
  | nil => intro s; rfl
  | cons a evs ih => intro s; simp [run, ih]

/-! ### C92 -/

/-- **C92.** After any run the discounted sum kept for environment `i` is that of the rewards of its current episode, and the statistics are those of the observations of
all training steps, and of the discounted sums at all training steps and zeros at the training resets. -/
theorem C92_statistics (c : Conf K) (tr : Bool) {evs : List (Ev K)} (he : ∀ e ∈ evs, Fits c e) :
    (run c (init c tr) evs).1.obsR = Rms.run c.eps0 (track c tr evs).obsB ∧ (run c (init c tr) evs).1.retR = Rms.run c.eps0 (track c tr evs).retB ∧
      (run c (init c tr) evs).1.ret.length = c.n ∧ (∀ i < c.n, (run c (init c tr) evs).1.ret[i]? = some (disc c.gamma ((track c tr evs).ep i))) := by
  have h := agree_run c evs _ _ (agree_init c tr) he
  refine ⟨h.obsR, h.retR, by rw [h.ret]; simp, ?_⟩
  intro i hi
  rw [h.ret, List.getElem?_map, List.getElem?_range hi]
  rfl

/-- Observation `o` normalised with the statistics of the batches `bs`: centred, divided by the deviation, cut to `±clip`. -/
def Scaled (c : Conf K) (bs : List (List K)) (o v : K) : Prop :=
  v = max (min ((o - (Rms.run c.eps0 bs).mean) / c.sq ((Rms.run c.eps0 bs).var + c.eps)) c.clipObs) (-c.clipObs)

/-- Reward `r` divided by the deviation of the discounted sums, cut to `±clip`. -/
def ScaledRew (c : Conf K) (bs : List (List K)) (r v : K) : Prop :=
  v = max (min (r / c.sq ((Rms.run c.eps0 bs).var + c.eps)) c.clipRew) (-c.clipRew)

theorem clip_eq {b : K} (hb : 0 ≤ b) (v : K) : clip b v = max (min v b) (-b) := by
  unfold clip
  rw [max_min_distrib_right, max_eq_left (by linarith : -b ≤ b)]

theorem clip_bound {b : K} (hb : 0 ≤ b) (v : K) : |clip b v| ≤ b := by
  rw [abs_le]
  unfold clip
  exact ⟨le_min (le_max_right _ _) (by linarith), min_le_right _ _⟩

/-- **C92.** What a step returns: every observation normalised with the statistics that already include this step's batch (when training), every reward
divided by the deviation of the discounted sums including this step's; `news` and the terminal observations are passed on untouched. -/
theorem C92_step (c : Conf K) (hO : c.normObs = true) (hR : c.normRew = true) (h1 : 0 ≤ c.clipObs) (h2 : 0 ≤ c.clipRew) (tr : Bool) {evs : List (Ev K)} {obs rews : List K} {news : List Bool}
    {term : List (Option K)} (he : ∀ e ∈ evs ++ [.step obs rews news term], Fits c e) :
    ∃ o r, (run c (init c tr) (evs ++ [.step obs rews news term])).2.getLast? = some (.step o r news term) ∧
      List.Forall₂ (Scaled c (track c tr (evs ++ [.step obs rews news term])).obsB) obs o ∧
      List.Forall₂ (ScaledRew c (track c tr (evs ++ [.step obs rews news term])).retB) rews r := by
  have h := agree_run c _ _ _ (agree_init c tr) he
  have hp := agree_run c evs _ _ (agree_init c tr) fun e hm => he e (by simp [hm])
  rw [run_append] at h ⊢
  simp only [List.getLast?_append, List.getLast?_singleton, Option.some_or] at h ⊢
  have hs : ∀ s : Norm K, (exec c s (.step obs rews news term)).2 =
      .step (obs.map (normObs c (exec c s (.step obs rews news term)).1)) (rews.map (normRew c (exec c s (.step obs rews news term)).1)) news term := by
    intro s
    unfold exec stepWait
    simp only
    by_cases ht : s.training
    · simp only [ht, if_true, updateReward]
      congr 1
    · have ht2 : s.training = false := by simpa using ht
      simp only [ht2, Bool.false_eq_true, if_false]
      congr 1
  refine ⟨_, _, congrArg some (hs _), ?_, ?_⟩
  · rw [List.forall₂_map_right_iff]
    refine List.forall₂_same.2 fun o _ => ?_
    unfold Scaled normObs
    rw [if_pos hO, clip_eq h1, h.obsR]
    rfl
  · rw [List.forall₂_map_right_iff]
    refine List.forall₂_same.2 fun o _ => ?_
    unfold ScaledRew normRew
    rw [if_pos hR, clip_eq h2, h.retR]
    rfl

/-- **C92.** Everything returned is within the clipping bounds. -/
theorem C92_bounds (c : Conf K) (hO : c.normObs = true) (hR : c.normRew = true) (h1 : 0 ≤ c.clipObs) (h2 : 0 ≤ c.clipRew) (s : Norm K) (evs : List (Ev K)) :
    ∀ o ∈ (run c s evs).2, (∀ l, o = .obs l → ∀ v ∈ l, |v| ≤ c.clipObs) ∧
      (∀ l r news term, o = .step l r news term → (∀ v ∈ l, |v| ≤ c.clipObs) ∧ ∀ v ∈ r, |v| ≤ c.clipRew) := by
  have hob : ∀ (s : Norm K) (l : List K), ∀ v ∈ l.map (normObs c s), |v| ≤ c.clipObs := by
    intro s l v hv
    obtain ⟨o, _, rfl⟩ := List.mem_map.1 hv
    unfold normObs
    rw [if_pos hO]
    exact clip_bound h1 _
  have hre : ∀ (s : Norm K) (l : List K), ∀ v ∈ l.map (normRew c s), |v| ≤ c.clipRew := by
    intro s l v hv
    obtain ⟨o, _, rfl⟩ := List.mem_map.1 hv
    unfold normRew
    rw [if_pos hR]
    exact clip_bound h2 _
  induction evs generalizing s with
  | nil => intro o ho; cases ho
  | cons e es ih =>
    intro o ho
    rw [run] at ho
    rcases List.mem_cons.1 ho with rfl | ho
    · cases e with
      | train b => exact ⟨fun l h => (nomatch h), fun l r news term h => (nomatch h)⟩
      | reset obs =>
        refine ⟨fun l h => ?_, fun l r news term h => (nomatch h)⟩
        cases h
        exact hob _ _
      | step obs rews news term =>
        refine ⟨fun l h => (nomatch h), fun l r news' term' h => ?_⟩
        cases h
        exact ⟨hob _ _, hre _ _⟩
    · exact ih _ o ho

/-- **C92.** An observation that is not cut can be recovered, and larger observations are never mapped below smaller ones, for any statistics. -/
theorem C92_faithful (c : Conf K) (hO : c.normObs = true) (s : Norm K) (hs : 0 < c.sq (s.obsR.var + c.eps)) (h1 : 0 ≤ c.clipObs) :
    (∀ o, |normObs c s o| < c.clipObs → o = normObs c s o * c.sq (s.obsR.var + c.eps) + s.obsR.mean) ∧ ∀ o o', o ≤ o' → normObs c s o ≤ normObs c s o' := by
  constructor
  · intro o h
    unfold normObs at h ⊢
    rw [if_pos hO] at h ⊢
    generalize hv : (o - s.obsR.mean) / c.sq (s.obsR.var + c.eps) = v at h
    have hc : clip c.clipObs v = v := by
      unfold clip at h ⊢
      rw [abs_lt] at h
      rcases le_total v c.clipObs with h3 | h3
      · rcases le_total (-c.clipObs) v with h4 | h4
        · rw [max_eq_left h4, min_eq_left h3]
        · rw [max_eq_right h4] at h
          exact absurd h.1 (not_lt.2 (min_le_left _ _))
      · rw [min_eq_right (h3.trans (le_max_left _ _))] at h
        exact absurd h.2 (lt_irrefl _)
    rw [hc, ← hv, div_mul_cancel₀ _ hs.ne', sub_add_cancel]
  · intro o o' h
    unfold normObs
    rw [if_pos hO, if_pos hO]
    unfold clip
    gcongr

/-- **C92.** Without training the statistics stay as they are, whatever is received. -/
theorem C92_frozen (c : Conf K) (s : Norm K) (hs : s.training = false) (evs : List (Ev K)) (he : ∀ b, Ev.train b ∈ evs → b = false) :
    (run c s evs).1.obsR = s.obsR ∧ (run c s evs).1.retR = s.retR := by
  induction evs generalizing s with
  | nil => exact ⟨rfl, rfl⟩
  | cons e es ih =>
    have h2 : ∀ b, Ev.train b ∈ es → b = false := fun b hb => he b (by simp [hb])
    have key : (exec c s e).1.training = false ∧ (exec c s e).1.obsR = s.obsR ∧ (exec c s e).1.retR = s.retR := by
      cases e with
      | train b => exact ⟨he b (by simp), rfl, rfl⟩
      | reset obs => unfold exec reset; simp [hs]
      | step obs rews news term => unfold exec stepWait; simp [hs]
    obtain ⟨k1, k2, k3⟩ := key
    rw [run]
    obtain ⟨i1, i2⟩ := ih _ k1 h2
    exact ⟨i1.trans k2, i2.trans k3⟩

/-- **C92, defect.** Observations returned by `reset` never enter the statistics: after any number of resets, training, the mean is still 0 and the variance 1, and the
observations are returned unshifted. -/
theorem C92_reset_uncounted (c : Conf K) (hO : c.normObs = true) (tr : Bool) (os : List (List K)) (obs : List K) :
    (run c (init c tr) (os.map Ev.reset)).1.obsR = { mean := 0, var := 1, count := c.eps0 } ∧
    (run c (init c tr) (os.map Ev.reset ++ [.reset obs])).2.getLast? = some (.obs (obs.map fun o => clip c.clipObs (o / c.sq (1 + c.eps)))) := by
  have one : ∀ (s : Norm K) (o : List K), (exec c s (.reset o)).1.obsR = s.obsR ∧ (exec c s (.reset o)).2 = .obs (o.map (normObs c s)) := by
    intro s o
    unfold exec reset
    simp only
    by_cases ht : s.training
    · rw [if_pos ht]
      exact ⟨rfl, rfl⟩
    · rw [if_neg ht]
      exact ⟨rfl, rfl⟩
  have h : ∀ (os : List (List K)) (s : Norm K), (run c s (os.map Ev.reset)).1.obsR = s.obsR := by
    intro os
    induction os with
    | nil => intro s; rfl
    | cons o os ih => intro s; rw [List.map_cons, run]; exact (ih _).trans (one s o).1
  refine ⟨h os _, ?_⟩
  rw [run_append]
  simp only [List.getLast?_append, List.getLast?_singleton, Option.some_or]
  rw [(one _ obs).2]
  unfold normObs
  rw [h os]
  simp [hO, init, Rms.init]

/-- **C92, defect.** The terminal observations in the infos are passed on raw while all other observations are normalised. -/
theorem C92_terminal_raw (c : Conf K) (s : Norm K) (obs rews : List K) (news : List Bool) (term : List (Option K)) :
    ∃ o r, (exec c s (.step obs rews news term)).2 = .step o r news term := ⟨_, _, rfl⟩

/-- **C92.** `get_original_obs` and `get_original_reward` return what the wrapped environments returned last; before the first step or reset they raise. -/
theorem C92_original (c : Conf K) (tr : Bool) (s : Norm K) (obs rews : List K) (news : List Bool) (term : List (Option K)) :
    getOriginalObs (exec c s (.step obs rews news term)).1 = .ok obs ∧ getOriginalReward (exec c s (.step obs rews news term)).1 = .ok rews ∧
    getOriginalObs (exec c s (.reset obs)).1 = .ok obs ∧ getOriginalObs (init c tr) = .error .attributeError ∧ getOriginalReward (init c tr) = .error .attributeError := by
  refine ⟨?_, ?_, ?_, rfl, rfl⟩
  · unfold exec stepWait getOriginalObs
    simp only
    cases s.training <;> rfl
  · unfold exec stepWait getOriginalReward
    simp only
    cases s.training <;> rfl
  · unfold exec reset getOriginalObs
    simp only
    cases s.training <;> rfl

/-- **C92.** A saved wrapper loaded with environments of the same shape has the same statistics and starts its discounted sums at zero; with another shape it raises,
and then refuses every later `set_venv` (defect: the wrong environments stay set). -/
theorem C92_load (o : Obj K) (v : ℕ × ℕ) :
    (o.shape = v.2 → ∃ o', setVenv v (pickled o) = (o', .ok ()) ∧ o'.s.obsR = o.s.obsR ∧ o'.s.retR = o.s.retR ∧ o'.s.training = o.s.training ∧ o'.s.ret = List.replicate v.1 0 ∧ o'.venv = some v) ∧
    (o.shape ≠ v.2 → ∃ o', setVenv v (pickled o) = (o', .error .valueError) ∧ ∀ w, setVenv w o' = (o', .error .valueError)) := by
  refine ⟨fun h => ?_, fun h => ?_⟩
  · unfold setVenv pickled
    simp [h]
  · unfold setVenv pickled
    simp [h]

/-- **C92.** Synchronising with an environment wrapped the same way gives every normalising wrapper the statistics of its counterpart and touches nothing else. -/
theorem C92_sync {σ : Type} (ws es : List (Wrap σ)) (h : ws.map Wrap.isNorm = es.map Wrap.isNorm) :
    ∃ r, sync ws es = (r, .ok ()) ∧ r.map Wrap.isNorm = es.map Wrap.isNorm ∧ (unwrap r).map Wrap.stats = (unwrap ws).map Wrap.stats ∧
      ∀ (i : ℕ) (w e : Wrap σ), ws[i]? = some w → es[i]? = some e → r[i]? = some (if w.isNorm then w else e) := by
  induction ws generalizing es with
  | nil =>
    cases es with
    | nil => exact ⟨[], rfl, rfl, rfl, by simp⟩
    | cons e es => simp at h
  | cons w ws ih =>
    cases es with
    | nil => simp at h
    | cons e es =>
      simp only [List.map_cons, List.cons.injEq] at h
      obtain ⟨h1, h2⟩ := h
      obtain ⟨r, hr, hk, hu, hi⟩ := ih es h2
      refine ⟨_, by rw [sync, hr], ?_, ?_, ?_⟩
      · cases hw : w.isNorm <;> simp [hk]
      · cases hw : w.isNorm
        · rw [hw] at h1
          simp [unwrap, hw, ← h1, hu]
        · rw [hw] at h1
          simp [unwrap, hw, ← h1]
      · intro i w' e' hw he
        cases i with
        | zero =>
          simp only [List.getElem?_cons_zero, Option.some.injEq] at hw he ⊢
          subst hw he
          cases hw : w.isNorm
          · simp
          · rw [hw] at h1
            simp only [if_true]
            cases w; cases e
            simp_all
        | succ i =>
          simp only [List.getElem?_cons_succ] at hw he ⊢
          exact hi i w' e' hw he

/-- **C92.** With fewer wrappers on the second environment it raises. -/
theorem C92_sync_short {σ : Type} (ws es : List (Wrap σ)) (h : es.length < ws.length) : (sync ws es).2 = .error .assertion := by
  induction ws generalizing es with
  | nil => simp at h
  | cons w ws ih =>
    cases es with
    | nil => rfl
    | cons e es =>
      rw [sync]
      exact ih es (by simpa using h)

/-- **C92, defect.** Only the positions are compared, not the kinds: if the wrappers are in another order, it returns normally and the normalising wrapper of the second
environment keeps its old statistics. -/
theorem C92_sync_order {σ : Type} (a b x : σ) :
    ∃ r, sync [⟨true, a⟩, ⟨false, x⟩] [⟨false, x⟩, ⟨true, b⟩] = (r, .ok ()) ∧ unwrap r = some ⟨true, b⟩ := ⟨_, rfl, rfl⟩

/-- **C92, defect.** For the off-policy learners (DQN) nothing is ever copied, whatever the wrappers are: the environment that `EvalCallback` evaluates on keeps the statistics it has, while it returns
normally. -/
theorem C92_sync_unvec {σ : Type} (ws es : List (Wrap σ)) : syncTop true ws es = (es, .ok ()) ∧ syncTop false ws es = sync ws es := ⟨rfl, rfl⟩

/-! ### Cases -/

/-- A configuration with two environments. -/
def exC : Conf ℚ := { n := 2, normObs := true, normRew := true, clipObs := 10, clipRew := 10, gamma := 1 / 2, eps := 0, eps0 := 1, sq := fun x => x }

def exE : List (Ev ℚ) := [.reset [1, 2], .step [3, 4] [4, 8] [false, false] [none, none], .step [5, 6] [2, 2] [false, true] [none, some 7]]

example : ∀ e ∈ exE, Fits exC e := by simp [exE, Fits, exC]

example : (run exC (init exC true) exE).1.ret = [4, 0] ∧ (track exC true exE).ep 0 = [4, 2] ∧ (track exC true exE).ep 1 = [] ∧
    (track exC true exE).retB = [[0, 0], [4, 8], [4, 6]] ∧ (track exC true exE).obsB = [[3, 4], [5, 6]] := by decide +kernel

example : disc (1 / 2 : ℚ) [4, 2] = 4 := by decide +kernel

end Neorl.VecNorm

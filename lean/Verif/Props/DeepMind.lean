import Verif.DeepMind
import Verif.Props.Atari
import Verif.Props.Nets
import Mathlib.Tactic.FieldSimp

/-!
# C149: the DeepMind pipeline
-/

set_option linter.unusedSectionVars false
set_option linter.unusedVariables false

namespace Neorl.Atari

variable {E A K : Type} [Field K] [LinearOrder K] [IsStrictOrderedRing K]

/-! ### Specification: in terms of the unwrapped game only -/

/-- The game after the actions. -/
def envAt (g : Rom E A K) (e : E) (as : List A) : E := as.foldl (fun e a => (g.game.step e a).1) e

/-- An action ends an episode of the wrapped environment: the game is over, or (with `episode_life`) a life but not the last is lost. -/
def Ends (c : Opts) (g : Rom E A K) (e : E) (a : A) : Prop :=
  (g.game.step e a).2.2.2 = true ∨ c.episodeLife = true ∧ 0 < g.livesOf (g.game.step e a).1 ∧ g.livesOf (g.game.step e a).1 < g.livesOf e

/-- The pixels of a frame as the agent sees them. -/
def seen (c : Opts) (o : List K) : List K := if c.scale then o.map (· / 255) else o

/-- The reward as the agent sees it. -/
def paid (c : Opts) (r : K) : K := if c.clipRewards then (if 0 < r then 1 else if r < 0 then -1 else 0) else r

/-- The frames of the actions. -/
def shots (g : Rom E A K) : E → List A → List (List K)
  | _, [] => []
  | e, a :: as => (g.game.step e a).2.1 :: shots g (g.game.step e a).1 as

/-- The wrappers know the number of lives (only `EpisodicLifeEnv` counts them). -/
def Fresh (c : Opts) (g : Rom E A K) (s : Life E) : Prop := c.episodeLife = true → s.lives = g.livesOf s.env

theorem core_step (c : Opts) (g : Rom E A K) (s : Life E) (hs : Fresh c g s) (a : A) :
    ((core c g).step s a).1.env = (g.game.step s.env a).1 ∧ Fresh c g ((core c g).step s a).1 ∧
    (c.episodeLife = true → ((core c g).step s a).1.realDone = (g.game.step s.env a).2.2.2) ∧
    ((core c g).step s a).2.1 = seen c (g.game.step s.env a).2.1 ∧ ((core c g).step s a).2.2.1 = paid c (g.game.step s.env a).2.2.1 ∧
    (((core c g).step s a).2.2.2 = true ↔ Ends c g s.env a) := by
  obtain ⟨b1, b2, b3, b4⟩ := c
  obtain ⟨gg, lo, hf, n, f, t⟩ := g
  cases b1
  · cases hf <;> cases b2 <;> cases b4 <;>
      simp [core, fireGame, plainGame, rewGame, obsGame, scalePixels, clipReward, seen, paid, Ends, Fresh]
  · have h := hs rfl
    simp only at h
    cases hf <;> cases b2 <;> cases b4 <;>
      simp [core, fireGame, lifeGame, lifeStep, rewGame, obsGame, scalePixels, clipReward, seen, paid, Ends, Fresh, h, or_comm]

/-- The environment and frame with which an episode begins before firing. -/
def begin_ (c : Opts) (g : Rom E A K) (s : Life E) : E × List K :=
  if c.episodeLife && !s.realDone then ((g.game.step s.env g.noop).1, (g.game.step s.env g.noop).2.1) else g.game.reset s.env

/-- The reset of the lower wrapper. -/
theorem life_reset (c : Opts) (g : Rom E A K) (s : Life E) :
    let g1 := if c.episodeLife then lifeGame g.game g.livesOf g.noop else plainGame g.game
    (g1.reset s).1.env = (begin_ c g s).1 ∧ (g1.reset s).2 = (begin_ c g s).2 ∧ Fresh c g (g1.reset s).1 := by
  obtain ⟨b1, b2, b3, b4⟩ := c
  obtain ⟨gg, lo, hf, n, f, t⟩ := g
  obtain ⟨e, l, rd⟩ := s
  cases b1 <;> cases rd <;> simp [plainGame, lifeGame, lifeReset, begin_, Fresh]

theorem life_step (c : Opts) (g : Rom E A K) (s : Life E) (hs : Fresh c g s) (a : A) :
    let g1 := if c.episodeLife then lifeGame g.game g.livesOf g.noop else plainGame g.game
    (g1.step s a).1.env = (g.game.step s.env a).1 ∧ Fresh c g (g1.step s a).1 ∧ (g1.step s a).2.1 = (g.game.step s.env a).2.1 ∧
    ((g1.step s a).2.2.2 = true ↔ Ends c g s.env a) := by
  obtain ⟨b1, b2, b3, b4⟩ := c
  obtain ⟨gg, lo, hf, n, f, t⟩ := g
  cases b1
  · simp [plainGame, Ends, Fresh]
  · have h := hs rfl
    simp only at h
    simp [lifeGame, lifeStep, Ends, Fresh, h, or_comm]

/-- Without the upper wrappers. -/
theorem core_reset (c : Opts) (g : Rom E A K) (s : Life E) :
    let g1 := if c.episodeLife then lifeGame g.game g.livesOf g.noop else plainGame g.game
    let g2 := if g.hasFire then fireGame g1 g.fire g.two else g1
    (core c g).reset s = ((g2.reset s).1, seen c (g2.reset s).2) := by
  obtain ⟨b1, b2, b3, b4⟩ := c
  cases b2 <;> cases b4 <;> simp [core, rewGame, obsGame, scalePixels, seen]

theorem fire_fresh (c : Opts) (g : Rom E A K) (s : Life E) : Fresh c g ((core c g).reset s).1 := by
  rw [core_reset]
  have hr := fun s => (life_reset c g s).2.2
  have hst := fun s hs a => (life_step c g s hs a).2.1
  simp only at hr hst ⊢
  generalize (if c.episodeLife = true then lifeGame g.game g.livesOf g.noop else plainGame g.game) = g1 at hr hst ⊢
  split_ifs with hf
  · simp only [fireGame, fireReset]
    have h1 := hst _ (hr s) g.fire
    split_ifs
    · exact hr _
    · exact hst _ (hr _) _
    · exact hr _
    · exact hst _ h1 _
  · exact hr s

/-- **C149.** How an episode begins.  With `episode_life` and the game not over the current game is continued with one no-op; otherwise the game is reset.  If the game has a FIRE action, actions 1 and 2 follow (here: neither ends
an episode).  The observation is the last frame, stacked four times with `frame_stack`, divided by 255 with `scale`. -/
theorem C149_reset (c : Opts) (g : Rom E A K) (s : Pipe E K) (hs : s.2.length ≤ 4)
    (h1 : g.hasFire = true → ¬ Ends c g (begin_ c g s.1).1 g.fire) (h2 : g.hasFire = true → ¬ Ends c g (g.game.step (begin_ c g s.1).1 g.fire).1 g.two) :
    let e2 := if g.hasFire then (g.game.step (begin_ c g s.1).1 g.fire).1 else (begin_ c g s.1).1
    let e := if g.hasFire then (g.game.step e2 g.two).1 else e2
    let o := if g.hasFire then (g.game.step e2 g.two).2.1 else (begin_ c g s.1).2
    (pipeReset c g s).1.1.env = e ∧ (pipeReset c g s).2 = .ok (if c.frameStack then force (List.replicate 4 (seen c o)) else seen c o) := by
  have key : ((core c g).reset s.1).1.env = (if g.hasFire then (g.game.step (g.game.step (begin_ c g s.1).1 g.fire).1 g.two).1 else (begin_ c g s.1).1) ∧
      ((core c g).reset s.1).2 = seen c (if g.hasFire then (g.game.step (g.game.step (begin_ c g s.1).1 g.fire).1 g.two).2.1 else (begin_ c g s.1).2) := by
    rw [core_reset]
    obtain ⟨r1, r2, r3⟩ := life_reset c g s.1
    have hst := life_step c g
    simp only at r1 r2 r3 hst ⊢
    generalize (if c.episodeLife = true then lifeGame g.game g.livesOf g.noop else plainGame g.game) = g1 at r1 r2 r3 hst ⊢
    by_cases hf : g.hasFire = true
    · simp only [hf, if_true, fireGame, fireReset]
      obtain ⟨a1, a2, a3, a4⟩ := hst _ r3 g.fire
      obtain ⟨b1, b2, b3, b4⟩ := hst _ a2 g.two
      rw [r1] at a1 a3 a4
      rw [a1] at b1 b3 b4
      have n1 : (g1.step (g1.reset s.1).1 g.fire).2.2.2 ≠ true := fun h => h1 hf (a4.1 h)
      have n2 : (g1.step (g1.step (g1.reset s.1).1 g.fire).1 g.two).2.2.2 ≠ true := fun h => h2 hf (b4.1 h)
      simp only [n1]
      simp [n2, b1, b3]
    · simp [hf, r1, r2]
  intro e2 e o
  have e3 : ((core c g).reset s.1).1.env = e ∧ ((core c g).reset s.1).2 = seen c o := by
    by_cases hf : g.hasFire = true <;> simpa [e, o, e2, hf] using key
  unfold pipeReset
  by_cases hF : c.frameStack = true
  · have h3 := (C104_stack (core c g) 4 s.1 s.2 hs []).1
    simp only [hF, if_true]
    refine ⟨e3.1, ?_⟩
    rw [h3, e3.2]
    rfl
  · simp only [hF]
    refine ⟨e3.1, ?_⟩
    simp [e3.2]

theorem pipe_run (c : Opts) (g : Rom E A K) : ∀ (as : List A) (s : Pipe E K) (ws : List (List K)), Fresh c g s.1 → (c.frameStack = true → ws.length = 4 ∧ s.2 = ws.map (seen c)) →
    (pipeRun c g s as).1.1.env = envAt g s.1.env as ∧ (pipeRun c g s as).2.length = as.length ∧
    ∀ k (hk : k < as.length), ∃ d, (d = true ↔ Ends c g (envAt g s.1.env (as.take k)) as[k]) ∧ (pipeRun c g s as).2[k]? = some (.ok
      (if c.frameStack then force (((ws ++ (shots g s.1.env as).take (k + 1)).drop (k + 1)).map (seen c)) else seen c (g.game.step (envAt g s.1.env (as.take k)) as[k]).2.1,
        paid c (g.game.step (envAt g s.1.env (as.take k)) as[k]).2.2.1, d)) := by
  intro as
  induction as with
  | nil => exact fun s ws _ _ => ⟨rfl, rfl, fun k hk => absurd hk (Nat.not_lt_zero _)⟩
  | cons a as ih =>
    intro s ws hs hw
    obtain ⟨c1, c2, -, c4, c5, c6⟩ := core_step c g s.1 hs a
    have p1 : (pipeStep c g s a).1.1 = ((core c g).step s.1 a).1 := by
      unfold pipeStep
      split_ifs <;> rfl
    have p2 : c.frameStack = true → ((ws ++ [(g.game.step s.1.env a).2.1]).drop 1).length = 4 ∧ (pipeStep c g s a).1.2 = ((ws ++ [(g.game.step s.1.env a).2.1]).drop 1).map (seen c) := by
      intro hF
      obtain ⟨w1, w2⟩ := hw hF
      refine ⟨by simp [w1], ?_⟩
      unfold pipeStep
      rw [if_pos hF]
      simp only [stackStep, push, w2, List.length_map, w1, c4]
      simp
    have p3 : ∃ d, (d = true ↔ Ends c g s.1.env a) ∧ (pipeStep c g s a).2 = .ok (if c.frameStack then force (((ws ++ [(g.game.step s.1.env a).2.1]).drop 1).map (seen c)) else seen c (g.game.step s.1.env a).2.1,
        paid c (g.game.step s.1.env a).2.2.1, d) := by
      refine ⟨((core c g).step s.1 a).2.2.2, c6, ?_⟩
      by_cases hF : c.frameStack = true
      · obtain ⟨q1, q2⟩ := p2 hF
        unfold pipeStep at q2 ⊢
        simp only [hF, if_true] at q2 ⊢
        simp only [stackStep] at q2 ⊢
        rw [q2, getOb, if_pos (by rw [List.length_map]; exact q1)]
        simp [Except.map, c5]
      · unfold pipeStep
        simp only [hF]
        simp [← c4, ← c5]
    obtain ⟨i1, i2, i3⟩ := ih (pipeStep c g s a).1 ((ws ++ [(g.game.step s.1.env a).2.1]).drop 1) (by rw [p1]; exact c2) p2
    rw [p1, c1] at i1 i3
    refine ⟨i1, by simp [pipeRun, i2], fun k hk => ?_⟩
    cases k with
    | zero =>
      obtain ⟨d, d1, d2⟩ := p3
      refine ⟨d, d1, ?_⟩
      simp only [pipeRun, List.getElem?_cons_zero, d2]
      simp [envAt, shots]
    | succ k =>
      obtain ⟨d, d1, d2⟩ := i3 k (by simpa using hk)
      refine ⟨d, d1, ?_⟩
      simp only [pipeRun, List.getElem?_cons_succ, d2]
      by_cases hF : c.frameStack = true
      · have w1 := (hw hF).1
        have e : ((ws ++ [(g.game.step s.1.env a).2.1]).drop 1 ++ (shots g (g.game.step s.1.env a).1 as).take (k + 1)).drop (k + 1) =
            (ws ++ (shots g s.1.env (a :: as)).take (k + 1 + 1)).drop (k + 1 + 1) := by
          rw [shots, List.take_succ_cons, ← List.drop_append_of_le_length (by simp), List.drop_drop, List.append_assoc, Nat.add_comm 1 (k + 1)]
          rfl
        simp only [hF, if_true, e]
        rfl
      · simp only [hF]
        rfl

/-- **C149.** An episode: after a `reset` in any state, for any actions, the `k`-th step does the `k`-th action in the game; the reward is that of the game, or its sign with `clip_rewards`; `done` exactly if the game is over or,
with `episode_life`, a life but not the last is lost; the observation is the frame, or with `frame_stack` the last four frames since the reset (the first one repeated), divided by 255 with `scale`. -/
theorem C149_episode (c : Opts) (g : Rom E A K) (s : Pipe E K) (hs : s.2.length ≤ 4) (as : List A) :
    ∃ o0, (pipeReset c g s).2 = .ok (if c.frameStack then force (List.replicate 4 o0) else o0) ∧
    let e := (pipeReset c g s).1.1.env
    let run := pipeRun c g (pipeReset c g s).1 as
    run.1.1.env = envAt g e as ∧ run.2.length = as.length ∧
    ∀ k (hk : k < as.length), ∃ d, (d = true ↔ Ends c g (envAt g e (as.take k)) as[k]) ∧ run.2[k]? = some (.ok
      (if c.frameStack then force ((List.replicate 4 o0 ++ ((shots g e as).take (k + 1)).map (seen c)).drop (k + 1)) else seen c (g.game.step (envAt g e (as.take k)) as[k]).2.1,
        paid c (g.game.step (envAt g e (as.take k)) as[k]).2.2.1, d)) := by
  obtain ⟨w, hw⟩ : ∃ w, ((core c g).reset s.1).2 = seen c w := by
    rw [core_reset]
    exact ⟨_, rfl⟩
  have hf : Fresh c g (pipeReset c g s).1.1 := by
    unfold pipeReset
    split_ifs <;> exact fire_fresh c g s.1
  have hst := (C104_stack (core c g) 4 s.1 s.2 hs []).1
  have h2 : c.frameStack = true → (List.replicate 4 w).length = 4 ∧ (pipeReset c g s).1.2 = (List.replicate 4 w).map (seen c) := by
    intro hF
    refine ⟨by simp, ?_⟩
    unfold pipeReset
    rw [if_pos hF]
    have : getOb 4 (stackReset (core c g) 4 s.1 s.2).2.1 = .ok (List.replicate 4 ((core c g).reset s.1).2) := hst
    unfold getOb at this
    split_ifs at this
    simp only [Except.ok.injEq] at this
    simp only [this, hw, List.map_replicate]
  obtain ⟨r1, r2, r3⟩ := pipe_run c g as (pipeReset c g s).1 (List.replicate 4 w) hf h2
  refine ⟨seen c w, ?_, r1, r2, fun k hk => ?_⟩
  · unfold pipeReset
    by_cases hF : c.frameStack = true
    · simp only [hF, if_true, hst, hw]
      rfl
    · simp only [hF]
      simp [hw]
  · obtain ⟨d, d1, d2⟩ := r3 k hk
    refine ⟨d, d1, ?_⟩
    rw [d2, List.map_drop, List.map_append, List.map_replicate]

/-- **C149.** Which episodes restart the game: with `episode_life`, after at least one step, the next episode resets the game exactly if the game itself was over at the last step. -/
theorem C149_restart (c : Opts) (hc : c.episodeLife = true) (g : Rom E A K) (s : Pipe E K) (hs : s.2.length ≤ 4) (as : List A) (a : A) :
    let t := (pipeRun c g (pipeReset c g s).1 (as ++ [a])).1
    let e := envAt g (pipeReset c g s).1.1.env as
    begin_ c g t.1 = if (g.game.step e a).2.2.2 then g.game.reset (g.game.step e a).1 else ((g.game.step (g.game.step e a).1 g.noop).1, (g.game.step (g.game.step e a).1 g.noop).2.1) := by
  have hf : Fresh c g (pipeReset c g s).1.1 := by
    unfold pipeReset
    split_ifs <;> exact fire_fresh c g s.1
  have p1 : ∀ (s : Pipe E K) a, (pipeStep c g s a).1.1 = ((core c g).step s.1 a).1 := by
    intro s a
    unfold pipeStep
    split_ifs <;> rfl
  have key : ∀ (as : List A) (s : Pipe E K), Fresh c g s.1 → (pipeRun c g s (as ++ [a])).1.1.env = (g.game.step (envAt g s.1.env as) a).1 ∧
      (pipeRun c g s (as ++ [a])).1.1.realDone = (g.game.step (envAt g s.1.env as) a).2.2.2 := by
    intro as
    induction as with
    | nil =>
      intro s hs
      obtain ⟨c1, c2, c3, -⟩ := core_step c g s.1 hs a
      simp only [List.nil_append, pipeRun, p1, envAt, List.foldl_nil]
      exact ⟨c1, c3 hc⟩
    | cons b as ih =>
      intro s hs
      obtain ⟨c1, c2, c3, -⟩ := core_step c g s.1 hs b
      have := ih (pipeStep c g s b).1 (by rw [p1]; exact c2)
      rw [p1, c1] at this
      exact this
  intro t e
  obtain ⟨k1, k2⟩ := key as (pipeReset c g s).1 hf
  have e1 : t.1.env = (g.game.step e a).1 := k1
  have e2 : t.1.realDone = (g.game.step e a).2.2.2 := k2
  unfold begin_
  rw [e1, e2, hc]
  cases (g.game.step e a).2.2.2 <;> rfl

/-! ### The input of the network -/

/-- **C149.** The stacked array: component `4 * p + j` is pixel `p` of frame `j`. -/
theorem C149_force (fs : List (List K)) {m : ℕ} (h4 : fs.length = 4) (hm : ∀ f ∈ fs, f.length = m) :
    (force fs).length = m * 4 ∧ ∀ p (hp : p < m) j (hj : j < fs.length), (force fs)[p * 4 + j]? = (fs[j])[p]? := by
  have h0 : (fs.headD []).length = m := by
    cases fs with
    | nil => simp at h4
    | cons f fs => exact hm f (by simp)
  have gen : ∀ n, ((List.range n).flatMap fun p => fs.map fun f => f.getD p 0).length = n * 4 ∧
      ∀ p < n, ∀ j (hj : j < fs.length), ((List.range n).flatMap fun p => fs.map fun f => f.getD p 0)[p * 4 + j]? = some ((fs[j]).getD p 0) := by
    intro n
    induction n with
    | zero => exact ⟨by simp, fun p hp => absurd hp (Nat.not_lt_zero _)⟩
    | succ n ih =>
      obtain ⟨i1, i2⟩ := ih
      rw [List.range_succ, List.flatMap_append]
      refine ⟨by simp only [List.length_append, i1, List.flatMap_cons, List.flatMap_nil, List.append_nil, List.length_map, h4]; ring, fun p hp j hj => ?_⟩
      rcases Nat.lt_succ_iff_lt_or_eq.1 hp with hlt | rfl
      · rw [List.getElem?_append_left (by rw [i1]; omega)]
        exact i2 p hlt j hj
      · rw [List.getElem?_append_right (by rw [i1]; omega), i1]
        have : p * 4 + j - p * 4 = j := by omega
        rw [this]
        simp [List.getElem?_eq_getElem hj]
  unfold force
  rw [h0]
  refine ⟨(gen m).1, fun p hp j hj => ?_⟩
  rw [(gen m).2 p hp j hj]
  have := hm _ (List.getElem_mem hj)
  rw [List.getD_eq_getElem?_getD, List.getElem?_eq_getElem (by omega)]
  rfl

theorem rescale_const (u : K) (hu : u ≠ 0) : ∀ (x : List K) (n : ℕ), x.length = n → Nets.rescaleAll x (List.replicate n (.fin 0)) (List.replicate n (.fin u)) = x.map fun v => some (v / u)
  | [], n, h => by simp [Nets.rescaleAll]
  | v :: x, n + 1, h => by
    simp only [List.replicate_succ, Nets.rescaleAll, List.map_cons, rescale_const u hu x n (by simpa using h)]
    simp [Nets.rescale, hu]

theorem input_const (u : K) (hu : u ≠ 0) (x : List K) (n : ℕ) (hx : x.length = n) :
    Nets.observationInput (.box (List.replicate n (.fin 0)) (List.replicate n (.fin u))) true (.vec x) = .ok (x.map fun v => some (v / u)) := by
  unfold Nets.observationInput
  simp only [List.length_replicate, hx, if_true]
  cases n with
  | zero =>
    have : x = [] := List.length_eq_zero_iff.1 hx
    subst this
    simp [Nets.rescaleAll]
  | succ n =>
    have : Nets.scaled true (List.replicate (n + 1) (Nets.Bound.fin (0 : K))) (List.replicate (n + 1) (.fin u)) = true := by
      simp [Nets.scaled, Nets.Bound.isInf, Nets.width, hu, List.replicate_succ]
    rw [if_pos this, rescale_const u hu x (n + 1) hx]

/-- **C149.** What the convolutional policies get (their `scale` is true), of pixels `y` (all frames of the observation): each pixel divided by 255, whether by the wrapper or by the policy.
**Defect**: with both `frame_stack` and `scale` it is divided by 255 twice, because the stacked space is declared with the bounds 0 and 255. -/
theorem C149_input (c : Opts) (m : ℕ) (y : List K) (hy : y.length = if c.frameStack then m * 4 else m) :
    Nets.observationInput (declared c m) true (.vec (seen c y)) = .ok (y.map fun v => some (if c.frameStack && c.scale then v / 255 / 255 else v / 255)) := by
  have h255 : (255 : K) ≠ 0 := by norm_num
  obtain ⟨b1, b2, b3, b4⟩ := c
  unfold declared seen
  cases b3 <;> cases b4 <;> simp only [Bool.false_eq_true, if_false, if_true, Bool.and_self, Bool.and_false, Bool.and_true] at hy ⊢
  · rw [input_const 255 h255 y m hy]
  · rw [input_const 1 one_ne_zero _ m (by simpa using hy)]
    simp
  · rw [input_const 255 h255 y _ hy]
  · rw [input_const 255 h255 _ _ (by simpa using hy)]
    simp

/-- **C149 (defect).** So with both, whatever the picture, no input of the network exceeds 1/255. -/
theorem C149_dark (c : Opts) (hc : c.frameStack = true ∧ c.scale = true) (m : ℕ) (y : List K) (hy : y.length = m * 4) (hp : ∀ v ∈ y, 0 ≤ v ∧ v ≤ 255) :
    ∃ z, Nets.observationInput (declared c m) true (.vec (seen c y)) = .ok z ∧ ∀ w ∈ z, ∃ v, w = some v ∧ 0 ≤ v ∧ v ≤ 1 / 255 := by
  refine ⟨_, C149_input c m y (by simpa [hc.1] using hy), fun w hw => ?_⟩
  obtain ⟨v, hv, rfl⟩ := List.mem_map.1 hw
  obtain ⟨p1, p2⟩ := hp v hv
  refine ⟨v / 255 / 255, by simp [hc.1, hc.2], by positivity, ?_⟩
  have : v / 255 ≤ 1 := (div_le_one (by norm_num)).2 p2
  exact div_le_div_of_nonneg_right this (by norm_num)

/-- **C149.** Scaling and stacking commute: the array of scaled frames is the scaled array of frames, so the observations of `C149_episode` are those of `C149_input`. -/
theorem C149_commute (c : Opts) (fs : List (List K)) : force (fs.map (seen c)) = seen c (force fs) := by
  unfold seen
  split_ifs with h
  · unfold force
    have : ((fs.map fun o : List K => o.map (· / 255)).headD []).length = (fs.headD []).length := by cases fs <;> simp
    rw [this, List.map_flatMap]
    congr 1
    funext p
    simp only [List.map_map]
    congr 1
    funext f
    simp only [Function.comp, List.getD_eq_getElem?_getD, List.getElem?_map]
    cases f[p]? <;> simp
  · simp

/-! ### A concrete case -/

/-- A game with one pixel showing the time; action 0 costs a life at times divisible by 3; the game is over at time 9. -/
def rom : Rom (ℕ × ℕ) ℕ ℚ where
  game := ⟨fun _ => ((0, 3), [0]), fun e a => let t := e.1 + 1; let l := if t % 3 = 0 then e.2 - 1 else e.2; ((t, l), [t], if a = 0 then -2 else 5, decide (9 ≤ t))⟩
  livesOf e := e.2
  hasFire := true
  noop := 0
  fire := 1
  two := 2

example : (pipeReset ⟨true, true, true, false⟩ rom (pipeInit (0, 0))).2.toOption = some [2, 2, 2, 2] := by decide +kernel
example : ((pipeRun ⟨true, true, true, false⟩ rom (pipeReset ⟨true, true, true, false⟩ rom (pipeInit (0, 0))).1 [0, 3]).2.map Except.toOption) =
    [some ([2, 2, 2, 3], -1, true), some ([2, 2, 3, 4], 1, false)] := by decide +kernel
example : let s := (pipeReset ⟨true, true, true, false⟩ rom (pipeInit (0, 0))).1
    (pipeReset ⟨true, true, true, false⟩ rom (pipeRun ⟨true, true, true, false⟩ rom s [0]).1).2.toOption = some [6, 6, 6, 6] := by decide +kernel
example : ¬ Ends ⟨true, true, true, false⟩ rom (0, 3) 1 ∧ ¬ Ends ⟨true, true, true, false⟩ rom (1, 3) 2 ∧ Ends ⟨true, true, true, false⟩ rom (2, 3) 0 := by
  simp [Ends, rom]
example : (Nets.observationInput (declared ⟨true, true, true, true⟩ 1) true (.vec (seen ⟨true, true, true, true⟩ [255, 0, 255, 51]))).toOption =
    some [some ((1 : ℚ) / 255), some 0, some (1 / 255), some (1 / 1275)] := by decide +kernel

end Neorl.Atari

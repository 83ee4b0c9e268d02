import Verif.Rollout
import Mathlib.Data.List.Count
import Mathlib.Data.List.Perm.Basic
import Mathlib.Data.List.Flatten
import Mathlib.Tactic.Linarith
import Mathlib.Tactic.Ring
import Mathlib.Tactic.FieldSimp
import Mathlib.Tactic.Positivity

/-!
# C96 and C97: rollouts and minibatches of the on-policy learners
-/

set_option linter.unusedSectionVars false
set_option linter.unusedVariables false

namespace Neorl.Rollout

variable {Θ E O D R A S : Type}

/-! ### Specification -/

/-- Where the interaction stands: environments, observation, dones, recurrent state, number of the next draw. -/
abbrev Pos (E O D S : Type) := E × O × D × S × ℕ

/-- The parameters `θ` acting on the environments: every row holds the observation and dones acted on, the action of the policy and the reward for it; the next row goes on from what the environments
returned. -/
inductive Walk (env : Env E O D R A) (agent : Agent Θ O D S A) (clip : A → A) (θ : Θ) : Pos E O D S → List (Row O D R A) → Pos E O D S → Prop
  | nil (x) : Walk env agent clip θ x [] x
  | cons (e o d s k a s' e' o' r d' rows y) : agent.act θ k o s d = (a, s') → env.step e (clip a) = (e', o', r, d') →
      Walk env agent clip θ (e', o', d', s', k + 1) rows y → Walk env agent clip θ (e, o, d, s, k) (⟨o, d, a, r⟩ :: rows) y

/-- Rollouts of length `n` one after the other, each followed by an update of the parameters with it. -/
inductive Walks (env : Env E O D R A) (agent : Agent Θ O D S A) (clip : A → A) (upd : Θ → List (Row O D R A) → Θ) (n : ℕ) : Θ → Pos E O D S → List (List (Row O D R A)) → Θ → Pos E O D S → Prop
  | nil (θ x) : Walks env agent clip upd n θ x [] θ x
  | cons (θ x rows y rest θ' z) : Walk env agent clip θ x rows y → rows.length = n → Walks env agent clip upd n (upd θ rows) y rest θ' z →
      Walks env agent clip upd n θ x (rows :: rest) θ' z

/-- Where a runner stands. -/
def St.pos (s : St E O D S) : Pos E O D S := (s.e, s.obs, s.done, s.state, s.calls)

/-! ### Rollouts -/

theorem run_full (c : Setup Θ E O D R A S) (θ : Θ) : ∀ (k : ℕ) (s : St E O D S), (∀ i, i < k → c.stop (s.calls + i) = false) → s.out = (s.obs, s.done) →
    ∃ rows s', runLoop c θ k s = (s', some rows) ∧ Walk c.env c.agent c.clip θ s.pos rows s'.pos ∧ rows.length = k ∧ s'.nts = s.nts + k * c.n ∧ s'.calls = s.calls + k ∧
      s'.out = (s'.obs, s'.done)
  | 0, s, _, ho => ⟨[], s, rfl, .nil _, rfl, by simp, rfl, ho⟩
  | k + 1, s, h, ho => by
    have h0 : c.stop s.calls = false := by simpa using h 0 (by omega)
    obtain ⟨rows, s', h1, h2, h3, h4, h5, h6⟩ := run_full c θ k
      { e := (c.env.step s.e (c.clip (c.agent.act θ s.calls s.obs s.state s.done).1)).1,
        obs := (c.env.step s.e (c.clip (c.agent.act θ s.calls s.obs s.state s.done).1)).2.1,
        done := (c.env.step s.e (c.clip (c.agent.act θ s.calls s.obs s.state s.done).1)).2.2.2,
        state := (c.agent.act θ s.calls s.obs s.state s.done).2, nts := s.nts + c.n, calls := s.calls + 1,
        out := ((c.env.step s.e (c.clip (c.agent.act θ s.calls s.obs s.state s.done).1)).2.1, (c.env.step s.e (c.clip (c.agent.act θ s.calls s.obs s.state s.done).1)).2.2.2) }
      (fun i hi => by have := h (i + 1) (by omega); simpa [Nat.add_assoc, Nat.add_comm 1 i] using this) rfl
    refine ⟨_, s', ?_, .cons _ _ _ _ _ _ _ _ _ _ _ rows _ rfl rfl h2, by simp [h3], by rw [h4]; ring, by rw [h5]; simp only; omega, h6⟩
    rw [runLoop]
    cases hb : c.early <;> simp [h0, h1]

theorem run_stop (c : Setup Θ E O D R A S) (θ : Θ) : ∀ (k j : ℕ) (s : St E O D S), j < k → (∀ i, i < j → c.stop (s.calls + i) = false) → c.stop (s.calls + j) = true →
    ∃ s' rows z row y, runLoop c θ k s = (s', none) ∧ Walk c.env c.agent c.clip θ s.pos rows z ∧ rows.length = j ∧ Walk c.env c.agent c.clip θ z [row] y ∧
      s'.e = y.1 ∧ s'.out = (y.2.1, y.2.2.1) ∧ s'.nts = s.nts + (j + 1) * c.n ∧ s'.calls = s.calls + j + 1 ∧
      (s'.obs, s'.done, s'.state) = if c.early then (y.2.1, y.2.2.1, y.2.2.2.1) else (z.2.1, z.2.2.1, z.2.2.2.1)
  | 0, j, s, h, _, _ => by omega
  | k + 1, 0, s, _, _, h1 => by
    have h0 : c.stop s.calls = true := h1
    refine ⟨(runLoop c θ (k + 1) s).1, [], s.pos, ⟨s.obs, s.done, (c.agent.act θ s.calls s.obs s.state s.done).1,
        (c.env.step s.e (c.clip (c.agent.act θ s.calls s.obs s.state s.done).1)).2.2.1⟩,
      ((c.env.step s.e (c.clip (c.agent.act θ s.calls s.obs s.state s.done).1)).1, (c.env.step s.e (c.clip (c.agent.act θ s.calls s.obs s.state s.done).1)).2.1,
        (c.env.step s.e (c.clip (c.agent.act θ s.calls s.obs s.state s.done).1)).2.2.2, (c.agent.act θ s.calls s.obs s.state s.done).2, s.calls + 1),
      ?_, .nil _, rfl, .cons _ _ _ _ _ _ _ _ _ _ _ [] _ rfl rfl (.nil _), ?_⟩
    · rw [runLoop]; simp [h0]
    · rw [runLoop]
      cases hb : c.early <;> simp [h0, St.pos]
  | k + 1, j + 1, s, hj, h, h1 => by
    have h0 : c.stop s.calls = false := by simpa using h 0 (by omega)
    obtain ⟨s', rows, z, row, y, g1, g2, g3, g4, g5, g6, g7, g8, g9⟩ := run_stop c θ k j
      { e := (c.env.step s.e (c.clip (c.agent.act θ s.calls s.obs s.state s.done).1)).1,
        obs := (c.env.step s.e (c.clip (c.agent.act θ s.calls s.obs s.state s.done).1)).2.1,
        done := (c.env.step s.e (c.clip (c.agent.act θ s.calls s.obs s.state s.done).1)).2.2.2,
        state := (c.agent.act θ s.calls s.obs s.state s.done).2, nts := s.nts + c.n, calls := s.calls + 1,
        out := ((c.env.step s.e (c.clip (c.agent.act θ s.calls s.obs s.state s.done).1)).2.1, (c.env.step s.e (c.clip (c.agent.act θ s.calls s.obs s.state s.done).1)).2.2.2) }
      (by omega) (fun i hi => by have := h (i + 1) (by omega); simpa [Nat.add_assoc, Nat.add_comm 1 i] using this)
      (by simpa [Nat.add_assoc, Nat.add_comm 1 j] using h1)
    refine ⟨s', _, z, row, y, ?_, .cons _ _ _ _ _ _ _ _ _ _ _ rows _ rfl rfl g2, by simp [g3], g4, g5, g6, by rw [g7]; ring, by rw [g8]; simp only; omega, g9⟩
    rw [runLoop]
    cases hb : c.early <;> simp [h0, g1]

theorem learn_full (c : Setup Θ E O D R A S) (n : ℕ) : ∀ (k : ℕ) (θ : Θ) (s : St E O D S), (∀ i, i < k * n → c.stop (s.calls + i) = false) → s.out = (s.obs, s.done) →
    ∃ s' θ' rolls, learnLoop c n k θ s = (s', θ', rolls) ∧ Walks c.env c.agent c.clip c.upd n θ s.pos rolls θ' s'.pos ∧ rolls.length = k ∧ s'.nts = s.nts + k * n * c.n ∧
      s'.calls = s.calls + k * n ∧ s'.out = (s'.obs, s'.done)
  | 0, θ, s, _, ho => ⟨s, θ, [], rfl, .nil _ _, rfl, by simp, by simp, ho⟩
  | k + 1, θ, s, h, ho => by
    obtain ⟨rows, s1, g1, g2, g3, g4, g5, g6⟩ := run_full c θ n s (fun i hi => h i (by nlinarith)) ho
    obtain ⟨s', θ', rolls, f1, f2, f3, f4, f5, f6⟩ := learn_full c n k (c.upd θ rows) s1 (fun i hi => by
      rw [g5, Nat.add_assoc]; exact h (n + i) (by nlinarith)) g6
    refine ⟨s', θ', rows :: rolls, ?_, .cons _ _ _ _ _ _ _ g2 g3 f2, by simp [f3], by rw [f4, g4]; ring, by rw [f5, g5]; ring, f6⟩
    rw [learnLoop]
    simp [g1, f1]

theorem learn_stop (c : Setup Θ E O D R A S) (n : ℕ) : ∀ (k j : ℕ) (θ : Θ) (s : St E O D S), j < k * n → (∀ i, i < j → c.stop (s.calls + i) = false) → c.stop (s.calls + j) = true →
    s.out = (s.obs, s.done) →
    ∃ s' θ' rolls x rows z row y, learnLoop c n k θ s = (s', θ', rolls) ∧ Walks c.env c.agent c.clip c.upd n θ s.pos rolls θ' x ∧ rolls.length = j / n ∧
      Walk c.env c.agent c.clip θ' x rows z ∧ rows.length = j % n ∧ Walk c.env c.agent c.clip θ' z [row] y ∧
      s'.e = y.1 ∧ s'.out = (y.2.1, y.2.2.1) ∧ s'.nts = s.nts + (j + 1) * c.n ∧ s'.calls = s.calls + j + 1 ∧
      (s'.obs, s'.done, s'.state) = if c.early then (y.2.1, y.2.2.1, y.2.2.2.1) else (z.2.1, z.2.2.1, z.2.2.2.1)
  | 0, j, θ, s, h, _, _, _ => by omega
  | k + 1, j, θ, s, hj, h, h1, ho => by
    by_cases hn : j < n
    · obtain ⟨s', rows, z, row, y, g1, g2, g3, g4, g5⟩ := run_stop c θ n j s hn h h1
      refine ⟨s', θ, [], s.pos, rows, z, row, y, ?_, .nil _ _, by simp [Nat.div_eq_of_lt hn], g2, by rw [g3, Nat.mod_eq_of_lt hn], g4, g5⟩
      rw [learnLoop]; simp [g1]
    · obtain ⟨rows, s1, g1, g2, g3, g4, g5, g6⟩ := run_full c θ n s (fun i hi => h i (by omega)) ho
      have hn0 : 0 < n := by
        rcases Nat.eq_zero_or_pos n with h0 | h0
        · simp [h0] at hj
        · exact h0
      obtain ⟨s', θ', rolls, x, rws, z, row, y, f1, f2, f3, f4, f5, f6, f7, f8, f9, f10, f11⟩ := learn_stop c n k (j - n) (c.upd θ rows) s1 (by
        have : (k + 1) * n = k * n + n := by ring
        omega) (fun i hi => by rw [g5, Nat.add_assoc]; exact h (n + i) (by omega)) (by rw [g5, Nat.add_assoc, Nat.add_sub_cancel' (by omega)]; exact h1) g6
      refine ⟨s', θ', rows :: rolls, x, rws, z, row, y, ?_, .cons _ _ _ _ _ _ _ g2 g3 f2, ?_, f4, ?_, f6, f7, f8, ?_, ?_, f11⟩
      · rw [learnLoop]; simp [g1, f1]
      · rw [List.length_cons, f3, Nat.div_eq_sub_div (a := j) hn0 (by omega)]
      · rw [f5, Nat.mod_eq_sub_mod (a := j) (by omega)]
      · rw [f9, g4]
        have : j + 1 = n + (j - n + 1) := by omega
        rw [this]; ring
      · rw [f10, g5]; omega

/-- C96: a training that the callback does not stop consists of the planned number of rollouts, each of `n_steps` steps; all of them together are one walk through the environments, every update goes by
the rollout just made and the next rollout acts with its parameters; `num_timesteps` counts every step of every environment, from zero or from where it was; and the runner ends on what the environments
returned last. -/
theorem C96_rollouts (c : Setup Θ E O D R A S) (n k : ℕ) (reset : Bool) (θ : Θ) (s : St E O D S) (h : ∀ i, i < k * n → c.stop (s.calls + i) = false) (ho : s.out = (s.obs, s.done)) :
    ∃ s' θ' rolls, learn c n k reset θ s = (s', θ', rolls) ∧ Walks c.env c.agent c.clip c.upd n θ s.pos rolls θ' s'.pos ∧ rolls.length = k ∧
      s'.nts = (if reset then 0 else s.nts) + k * n * c.n ∧ s'.out = (s'.obs, s'.done) := by
  unfold learn
  cases reset
  · obtain ⟨s', θ', rolls, f1, f2, f3, f4, f5, f6⟩ := learn_full c n k θ s h ho
    exact ⟨s', θ', rolls, f1, f2, f3, by simpa using f4, f6⟩
  · obtain ⟨s', θ', rolls, f1, f2, f3, f4, f5, f6⟩ := learn_full c n k θ { s with nts := 0 } h ho
    exact ⟨s', θ', rolls, f1, f2, f3, by simpa using f4, f6⟩

/-- C96: a training that the callback stops after step `j` has made `j / n_steps` full rollouts and as many updates; the rollout that was going on is thrown away, though its steps (the last one
included) were taken and counted; with PPO2 the runner stands where the environments stand. -/
theorem C96_stopped (c : Setup Θ E O D R A S) (n k j : ℕ) (reset : Bool) (θ : Θ) (s : St E O D S) (hj : j < k * n) (h : ∀ i, i < j → c.stop (s.calls + i) = false)
    (h1 : c.stop (s.calls + j) = true) (ho : s.out = (s.obs, s.done)) :
    ∃ s' θ' rolls x rows y, learn c n k reset θ s = (s', θ', rolls) ∧ Walks c.env c.agent c.clip c.upd n θ s.pos rolls θ' x ∧ rolls.length = j / n ∧
      Walk c.env c.agent c.clip θ' x rows y ∧ rows.length = j % n + 1 ∧ s'.e = y.1 ∧ s'.nts = (if reset then 0 else s.nts) + (j + 1) * c.n ∧
      (c.early = true → s'.pos = y ∧ s'.out = (s'.obs, s'.done)) := by
  have key : ∀ s0 : St E O D S, s0.calls = s.calls → s0.pos = s.pos → s0.out = (s0.obs, s0.done) → ∃ s' θ' rolls x rows y, learnLoop c n k θ s0 = (s', θ', rolls) ∧ Walks c.env c.agent c.clip c.upd n θ s.pos rolls θ' x ∧ rolls.length = j / n ∧
      Walk c.env c.agent c.clip θ' x rows y ∧ rows.length = j % n + 1 ∧ s'.e = y.1 ∧ s'.nts = s0.nts + (j + 1) * c.n ∧
      (c.early = true → s'.pos = y ∧ s'.out = (s'.obs, s'.done)) := by
    intro s0 hc hp ho0
    obtain ⟨s', θ', rolls, x, rows, z, row, y, f1, f2, f3, f4, f5, f6, f7, f8, f9, f10, f11⟩ := learn_stop c n k j θ s0 hj (by rw [hc]; exact h) (by rw [hc]; exact h1) ho0
    have hjoin : ∀ (u : Pos E O D S) (l : List (Row O D R A)) (v : Pos E O D S), Walk c.env c.agent c.clip θ' u l v → ∀ m w, Walk c.env c.agent c.clip θ' v m w →
        Walk c.env c.agent c.clip θ' u (l ++ m) w ∧ w.2.2.2.2 = u.2.2.2.2 + l.length + m.length := by
      intro u l v hw
      have hcnt : ∀ (u : Pos E O D S) (l : List (Row O D R A)) (v : Pos E O D S), Walk c.env c.agent c.clip θ' u l v → v.2.2.2.2 = u.2.2.2.2 + l.length := by
        intro u l v hw
        induction hw with
        | nil => simp
        | cons e o d st k a s' e' o' r d' rows y h1 h2 h3 ih => rw [ih]; simp; omega
      induction hw with
      | nil x => intro m w hm; exact ⟨hm, by rw [hcnt _ _ _ hm]; simp⟩
      | cons e o d st k a s' e' o' r d' rows y h1 h2 h3 ih =>
        intro m w hm
        obtain ⟨i1, i2⟩ := ih m w hm
        exact ⟨.cons _ _ _ _ _ _ _ _ _ _ _ _ _ h1 h2 i1, by rw [i2]; simp; omega⟩
    have hcount : ∀ (θ : Θ) (u : Pos E O D S) (l : List (Row O D R A)) (v : Pos E O D S), Walk c.env c.agent c.clip θ u l v → v.2.2.2.2 = u.2.2.2.2 + l.length := by
      intro θ u l v hw
      induction hw with
      | nil => simp
      | cons e o d st k a s' e' o' r d' rows y h1 h2 h3 ih => rw [ih]; simp; omega
    have hcs : ∀ (θ : Θ) (u : Pos E O D S) (ls : List (List (Row O D R A))) (θ' : Θ) (v : Pos E O D S), Walks c.env c.agent c.clip c.upd n θ u ls θ' v → v.2.2.2.2 = u.2.2.2.2 + ls.length * n := by
      intro θ u ls θ' v hw
      induction hw with
      | nil => simp
      | cons θ x rows y rest θ' z a b cc ih => rw [ih, hcount _ _ _ _ a, b]; simp; ring
    obtain ⟨w1, w2⟩ := hjoin _ _ _ f4 _ _ f6
    refine ⟨s', θ', rolls, x, rows ++ [row], y, f1, hp ▸ f2, f3, w1, by simp [f5], f7, f9, fun he => ?_⟩
    rw [if_pos he] at f11
    simp only [Prod.mk.injEq] at f11
    refine ⟨?_, by rw [f8, f11.1, f11.2.1]⟩
    have hy : y.2.2.2.2 = s'.calls := by
      rw [w2, hcs _ _ _ _ _ f2, f3, f10, f5]
      have := Nat.div_add_mod' j n
      simp [St.pos]; omega
    obtain ⟨y1, y2, y3, y4, y5⟩ := y
    simp only [St.pos, Prod.mk.injEq]
    exact ⟨f7, f11.1, f11.2.1, f11.2.2, hy.symm⟩
  unfold learn
  cases reset
  · obtain ⟨s', θ', rolls, x, rows, y, r⟩ := key s rfl rfl ho
    exact ⟨s', θ', rolls, x, rows, y, by simpa using r⟩
  · obtain ⟨s', θ', rolls, x, rows, y, r⟩ := key { s with nts := 0 } rfl rfl ho
    exact ⟨s', θ', rolls, x, rows, y, by simpa using r⟩

/-- C96 (defect): after a stop by the callback, A2C and ACER keep the observation, dones and recurrent state the last step started from, while the environments have moved on: the next `learn` acts on an
observation the environments have left. -/
theorem C96_stale (c : Setup Θ E O D R A S) (n k j : ℕ) (reset : Bool) (θ : Θ) (s : St E O D S) (hj : j < k * n) (h : ∀ i, i < j → c.stop (s.calls + i) = false)
    (h1 : c.stop (s.calls + j) = true) (ho : s.out = (s.obs, s.done)) (he : c.early = false) :
    ∃ s' θ' rolls x rows z row y, learn c n k reset θ s = (s', θ', rolls) ∧ Walks c.env c.agent c.clip c.upd n θ s.pos rolls θ' x ∧ Walk c.env c.agent c.clip θ' x rows z ∧
      Walk c.env c.agent c.clip θ' z [row] y ∧ s'.e = y.1 ∧ s'.out = (y.2.1, y.2.2.1) ∧ (s'.obs, s'.done, s'.state) = (z.2.1, z.2.2.1, z.2.2.2.1) := by
  unfold learn
  cases reset
  · obtain ⟨s', θ', rolls, x, rows, z, row, y, f1, f2, f3, f4, f5, f6, f7, f8, f9, f10, f11⟩ := learn_stop c n k j θ s hj h h1 ho
    exact ⟨s', θ', rolls, x, rows, z, row, y, f1, f2, f4, f6, f7, f8, by simpa [he] using f11⟩
  · obtain ⟨s', θ', rolls, x, rows, z, row, y, f1, f2, f3, f4, f5, f6, f7, f8, f9, f10, f11⟩ := learn_stop c n k j θ { s with nts := 0 } hj h h1 ho
    exact ⟨s', θ', rolls, x, rows, z, row, y, f1, f2, f4, f6, f7, f8, by simpa [he] using f11⟩

/-- C96: PPO2 and A2C take the largest number of whole rollouts that fits into `total_timesteps`, ACER the smallest number that reaches it. -/
theorem C96_updates (total nBatch : ℕ) (h : 0 < nBatch) :
    updates total nBatch * nBatch ≤ total ∧ total < (updates total nBatch + 1) * nBatch ∧
    total ≤ updatesAcer total nBatch * nBatch ∧ updatesAcer total nBatch * nBatch < total + nBatch := by
  unfold updates updatesAcer
  have a1 := Nat.div_add_mod' total nBatch
  have a2 := Nat.mod_lt total h
  have b1 := Nat.div_add_mod' (total + nBatch - 1) nBatch
  have b2 := Nat.mod_lt (total + nBatch - 1) h
  refine ⟨by omega, ?_, by omega, by omega⟩
  rw [Nat.add_mul]; omega

/-- C96 (defect): with fewer `total_timesteps` than one rollout, PPO2 and A2C learn nothing and take no step, without a word; ACER makes one rollout. -/
theorem C96_nothing (c : Setup Θ E O D R A S) (n total nBatch : ℕ) (reset : Bool) (θ : Θ) (s : St E O D S) (h : total < nBatch) (h0 : 0 < total) :
    (learn c n (updates total nBatch) reset θ s).2 = (θ, []) ∧ (learn c n (updates total nBatch) reset θ s).1.pos = s.pos ∧ updatesAcer total nBatch = 1 := by
  refine ⟨?_, ?_, ?_⟩
  · simp [learn, updates, Nat.div_eq_of_lt h, learnLoop]
  · cases reset <;> simp [learn, updates, Nat.div_eq_of_lt h, learnLoop, St.pos]
  · unfold updatesAcer
    exact Nat.div_eq_of_lt_le (by omega) (by omega)

/-- C96: the progress handed to the learning rate schedule falls in equal steps from 1 and stays positive. -/
theorem C96_frac (n u : ℕ) (h1 : 1 ≤ u) (h2 : u ≤ n) : frac n 1 = 1 ∧ 0 < frac n u ∧ frac n u ≤ 1 ∧ frac n u - frac n (u + 1) = 1 / n := by
  have hn : (0 : ℚ) < n := by exact_mod_cast (by omega : 0 < n)
  have hu : (1 : ℚ) ≤ u := by exact_mod_cast h1
  have hun : (u : ℚ) ≤ n := by exact_mod_cast h2
  refine ⟨by simp [frac], ?_, ?_, ?_⟩
  · unfold frac
    rw [sub_pos, div_lt_one hn]; linarith
  · unfold frac
    have : 0 ≤ ((u : ℚ) - 1) / n := div_nonneg (by linarith) hn.le
    linarith
  · unfold frac
    push_cast
    field_simp
    ring

/-! ### Minibatches -/

theorem slices_spec (b n : ℕ) (hb : 0 < b) (inds : List ℕ) (hl : inds.length = n) : ∀ (fuel start : ℕ), n ≤ start + fuel * b → b ∣ n → b ∣ start → start ≤ n →
    (slices b n inds fuel start).flatten = inds.drop start ∧ (∀ m ∈ slices b n inds fuel start, m.length = b) ∧ (slices b n inds fuel start).length * b = n - start
  | 0, start, h, _, _, hs => by
    have : start = n := by omega
    subst this
    simp [slices, hl]
  | fuel + 1, start, h, hd, hds, hs => by
    rw [slices]
    by_cases hlt : start < n
    · have hstep : start + b ≤ n := by
        obtain ⟨x, rfl⟩ := hd
        obtain ⟨y, rfl⟩ := hds
        have : y < x := lt_of_mul_lt_mul_left hlt (Nat.zero_le b)
        calc b * y + b = b * (y + 1) := by ring
          _ ≤ b * x := Nat.mul_le_mul_left _ this
      obtain ⟨r1, r2, r3⟩ := slices_spec b n hb inds hl fuel (start + b) (by nlinarith) hd (Nat.dvd_add hds dvd_rfl) hstep
      rw [if_pos hlt]
      refine ⟨?_, ?_, ?_⟩
      · rw [List.flatten_cons, r1, ← List.drop_drop, List.take_append_drop]
      · intro m hm
        rcases List.mem_cons.1 hm with rfl | hm
        · simp [hl]; omega
        · exact r2 m hm
      · rw [List.length_cons, Nat.add_mul, r3]; omega
    · have : start = n := by omega
      subst this
      simp [hl]

/-- C97: the minibatches of PPO2 with a policy that is not recurrent.  However `np.random.shuffle` arranges the indices, every epoch has `nminibatches` minibatches of `n_batch / nminibatches` samples
each, every sample is in exactly one of them, so that every sample is used exactly `noptepochs` times. -/
theorem C97_minibatches (nBatch nmini nopt : ℕ) (shuf : ℕ → List ℕ) (h0 : 0 < nBatch) (hm : 0 < nmini) (hd : nmini ∣ nBatch) (hs : ∀ k, k < nopt → (shuf k).Perm (List.range nBatch)) :
    ∃ bs, minibatches nBatch nmini nopt shuf = .ok bs ∧ bs.length = nopt * nmini ∧ (∀ b ∈ bs, b.length = nBatch / nmini ∧ ∀ i ∈ b, i < nBatch) ∧
      (∀ i, i < nBatch → bs.flatten.count i = nopt) ∧
      ∀ k, k < nopt → ((bs.drop (k * nmini)).take nmini).flatten.Perm (List.range nBatch) := by
  obtain ⟨q, rfl⟩ := hd
  have hq : 0 < q := Nat.pos_of_mul_pos_left h0
  have hdiv : nmini * q / nmini = q := Nat.mul_div_cancel_left _ hm
  have hep : ∀ k, k < nopt → (epoch (nmini * q) q (shuf k)).flatten = shuf k ∧ (∀ m ∈ epoch (nmini * q) q (shuf k), m.length = q) ∧ (epoch (nmini * q) q (shuf k)).length = nmini := by
    intro k hk
    obtain ⟨r1, r2, r3⟩ := slices_spec q (nmini * q) hq (shuf k) (by rw [(hs k hk).length_eq, List.length_range]) (nmini * q) 0 (by nlinarith [Nat.zero_le (nmini * q)]) (Nat.dvd_mul_left _ _) (Nat.dvd_zero _) (Nat.zero_le _)
    exact ⟨by simpa [epoch] using r1, r2, Nat.eq_of_mul_eq_mul_right hq (by simpa [epoch] using r3)⟩
  refine ⟨(List.range nopt).flatMap fun k => epoch (nmini * q) (nmini * q / nmini) (shuf k), by simp [minibatches, Nat.ne_of_gt hm], ?_, ?_, ?_, ?_⟩
  · rw [hdiv]
    clear h0
    induction nopt with
    | zero => simp
    | succ m ih =>
      rw [List.range_succ, List.flatMap_append, List.length_append, ih (fun k hk => hs k (by omega)) (fun k hk => hep k (by omega))]
      simp [(hep m (by omega)).2.2]; ring
  · intro b hb
    rw [hdiv] at hb ⊢
    obtain ⟨k, hk, hb⟩ := List.mem_flatMap.1 hb
    rw [List.mem_range] at hk
    refine ⟨(hep k hk).2.1 b hb, fun i hi => ?_⟩
    have : i ∈ shuf k := by
      rw [← (hep k hk).1]; exact List.mem_flatten.2 ⟨b, hb, hi⟩
    simpa using (hs k hk).mem_iff.1 this
  · intro i hi
    rw [hdiv]
    induction nopt with
    | zero => simp
    | succ m ih =>
      rw [List.range_succ, List.flatMap_append, List.flatten_append, List.count_append, ih (fun k hk => hs k (by omega)) (fun k hk => hep k (by omega))]
      simp only [List.flatMap_cons, List.flatMap_nil, List.append_nil]
      rw [(hep m (by omega)).1, (hs m (by omega)).count_eq, List.count_eq_one_of_mem List.nodup_range (by simpa using hi)]
  · intro k hk
    rw [hdiv]
    have hsplit : ∀ (n : ℕ), n ≤ nopt → ((List.range n).flatMap fun k => epoch (nmini * q) q (shuf k)).length = n * nmini := by
      intro n hn
      induction n with
      | zero => simp
      | succ m ih =>
        rw [List.range_succ, List.flatMap_append, List.length_append, ih (by omega)]
        simp [(hep m (by omega)).2.2]; ring
    obtain ⟨r, hr⟩ : ∃ r, nopt = k + (1 + r) := ⟨nopt - k - 1, by omega⟩
    have e : ((List.range nopt).flatMap fun k => epoch (nmini * q) q (shuf k)) =
        ((List.range k).flatMap fun k => epoch (nmini * q) q (shuf k)) ++ (epoch (nmini * q) q (shuf k) ++ ((List.range r).map fun x => k + (1 + x)).flatMap fun k => epoch (nmini * q) q (shuf k)) := by
      rw [hr, List.range_add, List.flatMap_append, List.range_add]
      simp [List.range_one, List.map_map, Function.comp_def]
    rw [e, List.drop_append_of_le_length (by rw [hsplit k (by omega)]), List.drop_eq_nil_of_le (by rw [hsplit k (by omega)]), List.nil_append,
      List.take_append_of_le_length (by rw [(hep k hk).2.2]), List.take_of_length_le (by rw [(hep k hk).2.2]), (hep k hk).1]
    exact hs k hk

/-- C97: `nminibatches` not dividing the batch is refused, zero is a division by zero; for recurrent policies it has to divide the number of environments as well. -/
theorem C97_refused (nBatch nEnvs nSteps nmini nopt : ℕ) (shuf : ℕ → List ℕ) :
    ((∃ b, minibatches nBatch nmini nopt shuf = .ok b) ↔ 0 < nmini ∧ nmini ∣ nBatch) ∧
    minibatches nBatch 0 nopt shuf = .error .zeroDivision ∧
    ((∃ b, minibatchesRec nEnvs nSteps nmini nopt shuf = .ok b) ↔ 0 < nmini ∧ nmini ∣ nEnvs) := by
  refine ⟨?_, rfl, ?_⟩
  · unfold minibatches
    rcases Nat.eq_zero_or_pos nmini with rfl | hm
    · simp
    · rw [if_neg (by omega)]
      by_cases hd : nmini ∣ nBatch
      · rw [if_neg (by simpa using Nat.mod_eq_zero_of_dvd hd)]
        exact ⟨fun _ => ⟨hm, hd⟩, fun _ => ⟨_, rfl⟩⟩
      · rw [if_pos (by rwa [Ne, ← Nat.dvd_iff_mod_eq_zero])]
        simp [hd]
  · unfold minibatchesRec
    rcases Nat.eq_zero_or_pos nmini with rfl | hm
    · simp
    · rw [if_neg (by omega)]
      by_cases hd : nmini ∣ nEnvs
      · rw [if_neg (by simpa using Nat.mod_eq_zero_of_dvd (Dvd.dvd.mul_right hd nSteps)), if_neg (by simpa using Nat.mod_eq_zero_of_dvd hd)]
        exact ⟨fun _ => ⟨hm, hd⟩, fun _ => ⟨_, rfl⟩⟩
      · have h2 : nEnvs % nmini ≠ 0 := by rwa [Ne, ← Nat.dvd_iff_mod_eq_zero]
        constructor
        · rintro ⟨b, hb⟩
          split at hb
          · simp at hb
          · simp at hb
        · rintro ⟨_, h⟩; exact absurd h hd

/-- C97: the minibatches of PPO2 with a recurrent policy: every minibatch holds whole rollouts of `n_envs / nminibatches` environments, each in the order of time, and every environment is in exactly one
minibatch of every epoch. -/
theorem C97_recurrent (nEnvs nSteps nmini nopt : ℕ) (shuf : ℕ → List ℕ) (h0 : 0 < nEnvs) (hst : 0 < nSteps) (hm : 0 < nmini) (hd : nmini ∣ nEnvs)
    (hs : ∀ k, k < nopt → (shuf k).Perm (List.range nEnvs)) :
    ∃ bs : List (List (List ℕ)), minibatchesRec nEnvs nSteps nmini nopt shuf = .ok (bs.flatten.map fun envs => envs.flatMap fun e => (List.range nSteps).map fun t => e * nSteps + t) ∧ bs.length = nopt ∧
      ∀ b ∈ bs, b.length = nmini ∧ b.flatten.Perm (List.range nEnvs) ∧ ∀ envs ∈ b, envs.length = nEnvs / nmini := by
  obtain ⟨q, rfl⟩ := hd
  have hq : 0 < q := Nat.pos_of_mul_pos_left h0
  have hdiv : nmini * q / nmini = q := Nat.mul_div_cancel_left _ hm
  have hdiv2 : nmini * q * nSteps / nmini / nSteps = q := by
    rw [Nat.mul_assoc, Nat.mul_div_cancel_left _ hm, Nat.mul_div_cancel _ hst]
  refine ⟨(List.range nopt).map fun k => slices q (nmini * q) (shuf k) (nmini * q) 0, ?_, by simp, ?_⟩
  · unfold minibatchesRec
    rw [if_neg (by omega), if_neg (by simp [Nat.mul_assoc]), if_neg (by simp), hdiv2]
    congr 1
    rw [List.map_flatten, List.map_map, ← List.flatMap_def]
    rfl
  · intro b hb
    obtain ⟨k, hk, rfl⟩ := List.mem_map.1 hb
    rw [List.mem_range] at hk
    obtain ⟨r1, r2, r3⟩ := slices_spec q (nmini * q) hq (shuf k) (by rw [(hs k hk).length_eq, List.length_range]) (nmini * q) 0 (by nlinarith [Nat.zero_le (nmini * q)]) (Nat.dvd_mul_left _ _) (Nat.dvd_zero _) (Nat.zero_le _)
    refine ⟨Nat.eq_of_mul_eq_mul_right hq (by simpa using r3), ?_, by rw [hdiv]; exact r2⟩
    rw [r1]; simpa using hs k hk

/-- C97: `swap_and_flatten` puts the entry of step `t` and environment `e` at `e * n_steps + t`, the place the recurrent minibatches look for it. -/
theorem C97_flatten {α : Type} (nEnvs : ℕ) (arr : List (List α)) (hr : ∀ row ∈ arr, row.length = nEnvs) :
    (swapFlatten nEnvs arr).length = nEnvs * arr.length ∧ ∀ e t, e < nEnvs → t < arr.length → (swapFlatten nEnvs arr)[e * arr.length + t]? = (arr[t]?.bind fun row => row[e]?) := by
  have hcol : ∀ e, e < nEnvs → (arr.filterMap fun row => row[e]?).length = arr.length ∧ ∀ t : ℕ, (arr.filterMap fun row => row[e]?)[t]? = (arr[t]?.bind fun row => row[e]?) := by
    intro e he
    induction arr with
    | nil => simp
    | cons row rest ih =>
      have hlen : e < row.length := by rw [hr row (by simp)]; exact he
      obtain ⟨i1, i2⟩ := ih (fun r h => hr r (List.mem_cons_of_mem _ h))
      rw [List.filterMap_cons, List.getElem?_eq_getElem hlen]
      refine ⟨by simp [i1], fun t => ?_⟩
      cases t with
      | zero => simp [hlen]
      | succ t => simpa using i2 t
  have gen : ∀ n, n ≤ nEnvs → ((List.range n).flatMap fun e => arr.filterMap fun row => row[e]?).length = n * arr.length ∧
      ∀ e t, e < n → t < arr.length → ((List.range n).flatMap fun e => arr.filterMap fun row => row[e]?)[e * arr.length + t]? = (arr[t]?.bind fun row => row[e]?) := by
    intro n hn
    induction n with
    | zero => simp
    | succ m ih =>
      obtain ⟨i1, i2⟩ := ih (by omega)
      rw [List.range_succ, List.flatMap_append]
      simp only [List.flatMap_cons, List.flatMap_nil, List.append_nil]
      refine ⟨by rw [List.length_append, i1, (hcol m (by omega)).1]; ring, fun e t he ht => ?_⟩
      by_cases hem : e < m
      · rw [List.getElem?_append_left (by rw [i1]; nlinarith), i2 e t hem ht]
      · have : e = m := by omega
        subst this
        rw [List.getElem?_append_right (by rw [i1]; omega), i1, Nat.add_sub_cancel_left, (hcol e (by omega)).2 t]
  exact gen nEnvs le_rfl

/-! ### Examples -/

/-- An environment that counts its steps and hands out their number; episodes of three steps. -/
def exEnv : Env ℕ ℕ Bool ℕ ℕ := ⟨fun e a => (e + 1, e + 1, 10 * a, (e + 1) % 3 == 0)⟩

def exAgent : Agent ℕ ℕ Bool ℕ ℕ := ⟨fun θ k o s d => (θ + o, if d then 0 else s + 1)⟩

def exSetup (early : Bool) (stop : ℕ → Bool) : Setup ℕ ℕ ℕ Bool ℕ ℕ ℕ := ⟨exEnv, exAgent, min 5, 1, early, stop, fun θ rows => θ + rows.length⟩

def exSt : St ℕ ℕ Bool ℕ := ⟨0, 0, false, 0, 0, 0, (0, false)⟩

/-- Two rollouts of two steps. -/
example : (learn (exSetup true fun _ => false) 2 2 true 1 exSt).2 = (5, [[⟨0, false, 1, 10⟩, ⟨1, false, 2, 20⟩], [⟨2, false, 5, 50⟩, ⟨3, true, 6, 50⟩]]) ∧
    (learn (exSetup true fun _ => false) 2 2 true 1 exSt).1.nts = 4 := by decide +kernel

example : (∀ i, i < 2 * 2 → (exSetup true fun _ => false).stop (exSt.calls + i) = false) ∧ exSt.out = (exSt.obs, exSt.done) := ⟨fun _ _ => rfl, rfl⟩

/-- Stopped after the fourth step: PPO2 stands at 4 as the environments do, A2C at 3. -/
example : (learn (exSetup true (· == 3)) 2 5 true 1 exSt).1.obs = 4 ∧ (learn (exSetup false (· == 3)) 2 5 true 1 exSt).1.obs = 3 ∧
    (learn (exSetup false (· == 3)) 2 5 true 1 exSt).1.e = 4 ∧ (learn (exSetup false (· == 3)) 2 5 true 1 exSt).2.1 = 3 := by decide +kernel

example : updates 100 32 = 3 ∧ updatesAcer 100 32 = 4 ∧ updates 31 32 = 0 := by decide +kernel

example : minibatches 4 2 2 (fun k => if k = 0 then [2, 0, 3, 1] else [1, 3, 0, 2]) = .ok [[2, 0], [3, 1], [1, 3], [0, 2]] ∧ minibatches 4 3 2 (fun _ => [0, 1, 2, 3]) = .error .assertion := by
  decide +kernel

example : minibatchesRec 2 3 2 1 (fun _ => [1, 0]) = .ok [[3, 4, 5], [0, 1, 2]] := by decide +kernel

example : swapFlatten 2 [["a0", "b0"], ["a1", "b1"], ["a2", "b2"]] = ["a0", "a1", "a2", "b0", "b1", "b2"] := by decide +kernel

end Neorl.Rollout

import Verif.Atari
import Mathlib.Algebra.BigOperators.Group.Finset.Basic
import Mathlib.Logic.Function.Iterate

/-!
# C104: Atari wrappers
-/

set_option linter.unusedSectionVars false
set_option linter.unusedVariables false

namespace Neorl.Atari

variable {E O A K : Type}

/-- State after `i` times action `a`. -/
def after (g : Game E O A K) (a : A) (e : E) (i : ℕ) : E := (fun e => (g.step e a).1)^[i] e

/-- What step number `i` of that sequence returns. -/
def result (g : Game E O A K) (a : A) (e : E) (i : ℕ) : O × K × Bool := (g.step (after g a e i) a).2

theorem after_succ (g : Game E O A K) (a : A) (e : E) (i : ℕ) : after g a e (i + 1) = after g a (g.step e a).1 i := by
  unfold after; rw [Function.iterate_succ_apply]

theorem after_succ' (g : Game E O A K) (a : A) (e : E) (i : ℕ) : after g a e (i + 1) = (g.step (after g a e i) a).1 := by
  unfold after; rw [Function.iterate_succ_apply']

/-- State and observation after `j` no-ops in one episode, none of which ended it. -/
inductive Since (g : Game E O A K) (noop : A) : ℕ → E → O → Prop
  | start (e : E) : Since g noop 0 (g.reset e).1 (g.reset e).2
  | next {j : ℕ} {e e' : E} {o o' : O} {r : K} : Since g noop j e o → g.step e noop = (e', o', r, false) → Since g noop (j + 1) e' o'

/-- **C104.** `NoopResetEnv.reset` ends in a running episode in which nothing but no-ops, at most `noops` of them, has been done, with the current observation. -/
theorem C104_noop (g : Game E O A K) (noop : A) {noops : ℕ} (h : noops ≠ 0) (e : E) :
    ∃ e' o', noopReset g noop noops e = .ok (e', o') ∧ ∃ j ≤ noops, Since g noop j e' o' := by
  have key : ∀ k e1 o1 j, Since g noop j e1 o1 → ∃ j' ≤ j + k, Since g noop j' (noopLoop g noop k e1 o1).1 (noopLoop g noop k e1 o1).2 := by
    intro k
    induction k with
    | zero => exact fun e1 o1 j hj => ⟨j, le_refl _, hj⟩
    | succ k ih =>
      intro e1 o1 j hj
      rcases hs : g.step e1 noop with ⟨e2, o2, r, d⟩
      cases d with
      | false =>
        have e : noopLoop g noop (k + 1) e1 o1 = noopLoop g noop k e2 o2 := by simp [noopLoop, hs]
        rw [e]
        obtain ⟨j', hle, hj'⟩ := ih e2 o2 (j + 1) (.next hj hs)
        exact ⟨j', by omega, hj'⟩
      | true =>
        have e : noopLoop g noop (k + 1) e1 o1 = noopLoop g noop k (g.reset e2).1 (g.reset e2).2 := by simp [noopLoop, hs]
        rw [e]
        obtain ⟨j', hle, hj'⟩ := ih _ _ 0 (.start e2)
        exact ⟨j', by omega, hj'⟩
  refine ⟨(noopLoop g noop noops (g.reset e).1 (g.reset e).2).1, (noopLoop g noop noops (g.reset e).1 (g.reset e).2).2, by simp [noopReset, h], ?_⟩
  obtain ⟨j, hle, hj⟩ := key noops _ _ 0 (.start e)
  exact ⟨j, by omega, hj⟩

/-- **C104.** If none of them ends the episode, exactly `noops` no-ops are done. -/
theorem C104_noop_exact (g : Game E O A K) (noop : A) (k : ℕ) (e : E) (hd : ∀ i ≤ k, (result g noop (g.reset e).1 i).2.2 = false) :
    noopReset g noop (k + 1) e = .ok (after g noop (g.reset e).1 (k + 1), (result g noop (g.reset e).1 k).1) := by
  have key : ∀ k e1 o1, (∀ i ≤ k, (result g noop e1 i).2.2 = false) → noopLoop g noop (k + 1) e1 o1 = (after g noop e1 (k + 1), (result g noop e1 k).1) := by
    intro k
    induction k with
    | zero =>
      intro e1 o1 hd
      have := hd 0 (le_refl _)
      rcases hs : g.step e1 noop with ⟨e2, o2, r, d⟩
      simp only [result, after, Function.iterate_zero, id, hs] at this
      subst this
      simp [noopLoop, hs, after, result]
    | succ k ih =>
      intro e1 o1 hd
      have h0 := hd 0 (Nat.zero_le _)
      rcases hs : g.step e1 noop with ⟨e2, o2, r, d⟩
      simp only [result, after, Function.iterate_zero, id, hs] at h0
      subst h0
      have e : noopLoop g noop (k + 1 + 1) e1 o1 = noopLoop g noop (k + 1) e2 o2 := by rw [noopLoop]; simp [hs]
      have hr : ∀ i, result g noop e2 i = result g noop e1 (i + 1) := fun i => by unfold result; rw [after_succ, hs]
      rw [e, ih e2 o2 (fun i hi => by rw [hr]; exact hd (i + 1) (by omega)), hr, after_succ g noop e1, hs]
  unfold noopReset
  simp only [Nat.succ_ne_zero, if_false]
  rw [key k _ _ hd]

/-- **C104.** `FireResetEnv.reset`, if neither of the two actions ends the episode: reset, action 1, action 2 and the observation after that. -/
theorem C104_fire (g : Game E O A K) (fire two : A) (e : E) :
    let e1 := (g.reset e).1; let e2 := (g.step e1 fire).1
    (g.step e1 fire).2.2.2 = false → (g.step e2 two).2.2.2 = false → fireReset g fire two e = ((g.step e2 two).1, (g.step e2 two).2.1) := by
  intro e1 e2 h1 h2
  simp only [e1, e2] at h1 h2
  simp [fireReset, h1, h2, e1, e2]

/-- **C104 (defect).** If action 1 ends the episode, the new episode is started without it. -/
theorem C104_fire_skipped (g : Game E O A K) (fire two : A) (e : E) :
    let e1 := (g.reset e).1; let e3 := (g.reset (g.step e1 fire).1).1
    (g.step e1 fire).2.2.2 = true → (g.step e3 two).2.2.2 = false → fireReset g fire two e = ((g.step e3 two).1, (g.step e3 two).2.1) := by
  intro e1 e3 h1 h2
  simp only [e1, e3] at h1 h2
  simp [fireReset, h1, h2, e1, e3]

/-- **C104 (defect).** If action 2 ends the episode, the environment is reset but the last observation of the finished episode is returned as the first of the new one. -/
theorem C104_fire_stale (g : Game E O A K) (fire two : A) (e : E) :
    let e1 := (g.reset e).1; let e2 := (g.step e1 fire).1
    (g.step e1 fire).2.2.2 = false → (g.step e2 two).2.2.2 = true → fireReset g fire two e = ((g.reset (g.step e2 two).1).1, (g.step e2 two).2.1) := by
  intro e1 e2 h1 h2
  simp only [e1, e2] at h1 h2
  simp [fireReset, h1, h2, e1, e2]

/-! ### Lives -/

/-- Calls of the wrapper. -/
inductive Call (A : Type)
  | reset
  | step (a : A)

/-- State after the calls. -/
def lifeRun (g : Game E O A K) (livesOf : E → ℕ) (noop : A) (s : Life E) : List (Call A) → Life E
  | [] => s
  | .reset :: cs => lifeRun g livesOf noop (lifeReset g livesOf noop s).1 cs
  | .step a :: cs => lifeRun g livesOf noop (lifeStep g livesOf s a).1 cs

/-- The `done` of the environment at the latest of the `step` calls; `true` if there was none. -/
def lastReal (g : Game E O A K) (livesOf : E → ℕ) (noop : A) (s : Life E) (acc : Bool) : List (Call A) → Bool
  | [] => acc
  | .reset :: cs => lastReal g livesOf noop (lifeReset g livesOf noop s).1 acc cs
  | .step a :: cs => lastReal g livesOf noop (lifeStep g livesOf s a).1 (g.step s.env a).2.2.2 cs

/-- **C104.** Whatever was called before, `EpisodicLifeEnv.reset` resets the game exactly if the game was over at the latest `step` (or there was none), and otherwise does one no-op. -/
theorem C104_life_reset (g : Game E O A K) (livesOf : E → ℕ) (noop : A) (e : E) (cs : List (Call A)) :
    let s := lifeRun g livesOf noop (lifeInit e) cs
    (lastReal g livesOf noop (lifeInit e) true cs = true → ((lifeReset g livesOf noop s).1.env, (lifeReset g livesOf noop s).2) = g.reset s.env) ∧
    (lastReal g livesOf noop (lifeInit e) true cs = false → ((lifeReset g livesOf noop s).1.env, (lifeReset g livesOf noop s).2) = ((g.step s.env noop).1, (g.step s.env noop).2.1)) := by
  have key : ∀ cs (s : Life E) acc, s.realDone = acc → (lifeRun g livesOf noop s cs).realDone = lastReal g livesOf noop s acc cs := by
    intro cs
    induction cs with
    | nil => exact fun s acc h => h
    | cons c cs ih =>
      intro s acc h
      cases c with
      | reset =>
        refine ih _ _ ?_
        unfold lifeReset
        split <;> exact h
      | step a => exact ih _ _ rfl
  intro s
  have hs : s.realDone = lastReal g livesOf noop (lifeInit e) true cs := key cs (lifeInit e) true rfl
  constructor
  · intro h
    have h' : s.realDone = true := by rw [hs, h]
    unfold lifeReset
    rw [if_pos h']
  · intro h
    have h' : s.realDone = false := by rw [hs, h]
    unfold lifeReset
    rw [if_neg (by rw [h']; decide)]

/-- **C104.** `EpisodicLifeEnv.step` passes the observation and the reward on, and reports `done` exactly if the game is over or a life, but not the last, has been lost since the previous call. -/
theorem C104_life_step (g : Game E O A K) (livesOf : E → ℕ) (noop : A) (e : E) (cs : List (Call A)) (hcs : cs ≠ []) (a : A) :
    let s := lifeRun g livesOf noop (lifeInit e) cs
    (lifeStep g livesOf s a).1.env = (g.step s.env a).1 ∧ (lifeStep g livesOf s a).2.1 = (g.step s.env a).2.1 ∧ (lifeStep g livesOf s a).2.2.1 = (g.step s.env a).2.2.1 ∧
    ((lifeStep g livesOf s a).2.2.2 = true ↔ (g.step s.env a).2.2.2 = true ∨ (0 < livesOf (g.step s.env a).1 ∧ livesOf (g.step s.env a).1 < livesOf s.env)) := by
  have key : ∀ cs (s : Life E), (cs = [] → s.lives = livesOf s.env) → (lifeRun g livesOf noop s cs).lives = livesOf (lifeRun g livesOf noop s cs).env := by
    intro cs
    induction cs with
    | nil => exact fun s h => h rfl
    | cons c cs ih =>
      intro s h
      cases c with
      | reset =>
        refine ih _ fun _ => ?_
        unfold lifeReset
        split <;> rfl
      | step a => exact ih _ fun _ => rfl
  intro s
  have hs : s.lives = livesOf s.env := key cs (lifeInit e) fun h => absurd h hcs
  refine ⟨rfl, rfl, rfl, ?_⟩
  unfold lifeStep
  simp only
  rw [hs]
  split_ifs with h
  · simp [h]
  · simp [h]

/-- **C104 (defect).** If the no-op with which a new life is begun ends the game, the final observation is returned as a first one, and a further `reset` still does not reset the game. -/
theorem C104_life_over (g : Game E O A K) (livesOf : E → ℕ) (noop : A) (s : Life E) (hs : s.realDone = false) :
    (lifeReset g livesOf noop s).2 = (g.step s.env noop).2.1 ∧
    (lifeReset g livesOf noop (lifeReset g livesOf noop s).1).1.env = (g.step (g.step s.env noop).1 noop).1 := by
  simp [lifeReset, hs]

/-! ### Frame skipping -/

section
variable [AddCommMonoid K]

theorem skipLoop_spec (g : Game E O A K) (a : A) (skip : ℕ) (J : ℕ) : ∀ (n i : ℕ) (e : E) (b : Buf O) (r : K) (d : Option Bool), i + n = skip → J < n →
    (∀ k < J, (result g a e k).2.2 = false) → ((result g a e J).2.2 = true ∨ J + 1 = n) →
    skipLoop g a skip n i e b r d = (after g a e (J + 1),
      (if skip ≤ i + J + 2 ∧ i + 2 ≤ skip then (result g a e (skip - 2 - i)).1 else b.1, if i + J + 1 = skip then (result g a e J).1 else b.2),
      r + ∑ k ∈ Finset.range (J + 1), (result g a e k).2.1, some (result g a e J).2.2) := by
  induction J with
  | zero =>
    intro n i e b r d hi hn _ hd
    obtain ⟨n, rfl⟩ : ∃ m, n = m + 1 := ⟨n - 1, by omega⟩
    rcases hs : g.step e a with ⟨e1, o, r1, d1⟩
    have hres : result g a e 0 = (o, r1, d1) := by simp [result, after, hs]
    have haf : after g a e 1 = e1 := by simp [after, hs]
    rw [hres] at hd
    have hb : (if i + 1 = skip then ((if i + 2 = skip then (o, b.2) else b).1, o) else (if i + 2 = skip then (o, b.2) else b)) =
        (if skip ≤ i + 0 + 2 ∧ i + 2 ≤ skip then (result g a e (skip - 2 - i)).1 else b.1, if i + 0 + 1 = skip then (result g a e 0).1 else b.2) := by
      by_cases h1 : i + 1 = skip
      · have h2 : ¬ (i + 2 = skip) := by omega
        have h3 : ¬ (skip ≤ i + 0 + 2 ∧ i + 2 ≤ skip) := by omega
        rw [if_pos h1, if_neg h2, if_neg h3, if_pos (by omega), hres]
      · by_cases h2 : i + 2 = skip
        · have h3 : skip - 2 - i = 0 := by omega
          rw [if_neg h1, if_pos h2, if_pos (by omega), if_neg (by omega), h3, hres]
        · rw [if_neg h1, if_neg h2, if_neg (by omega), if_neg (by omega)]
    rw [skipLoop]
    simp only [hs]
    rw [hb, haf]
    rcases hd with hd | hd
    · simp only at hd
      subst hd
      simp [hres]
    · obtain rfl : n = 0 := by omega
      cases d1 <;> simp [skipLoop, hres]
  | succ J ih =>
    intro n i e b r d hi hn hnd hd
    obtain ⟨n, rfl⟩ : ∃ m, n = m + 1 := ⟨n - 1, by omega⟩
    rcases hs : g.step e a with ⟨e1, o, r1, d1⟩
    have hres : result g a e 0 = (o, r1, d1) := by simp [result, after, hs]
    have h0 := hnd 0 (by omega)
    rw [hres] at h0
    simp only at h0
    subst h0
    have hr : ∀ k, result g a e1 k = result g a e (k + 1) := fun k => by unfold result; rw [after_succ, hs]
    have ih' := ih n (i + 1) e1 (if i + 1 = skip then ((if i + 2 = skip then (o, b.2) else b).1, o) else (if i + 2 = skip then (o, b.2) else b)) (r + r1) (some false) (by omega) (by omega)
      (fun k hk => by rw [hr]; exact hnd (k + 1) (by omega)) (by
        rw [hr]
        rcases hd with hd | hd
        · exact Or.inl hd
        · right; omega)
    rw [skipLoop]
    simp only [hs, Bool.false_eq_true, if_false]
    rw [ih']
    simp only [hr]
    have haf : after g a e1 (J + 1) = after g a e (J + 1 + 1) := by rw [after_succ g a e (J + 1), hs]
    have hsum : r + r1 + ∑ k ∈ Finset.range (J + 1), (result g a e (k + 1)).2.1 = r + ∑ k ∈ Finset.range (J + 1 + 1), (result g a e k).2.1 := by
      rw [Finset.sum_range_succ' _ (J + 1), hres, add_assoc, add_comm r1]
    rw [haf, hsum]
    congr 2
    have hn1 : i + 1 ≠ skip := by omega
    rw [if_neg hn1]
    by_cases h2 : i + 2 = skip
    · have h3 : ¬ (skip ≤ i + 1 + J + 2 ∧ i + 1 + 2 ≤ skip) := by omega
      have h4 : skip - 2 - i = 0 := by omega
      have h6 : skip ≤ i + (J + 1) + 2 ∧ i + 2 ≤ skip := by omega
      rw [if_pos h2, if_neg h3, if_pos h6, h4, hres]
      congr 1
      by_cases h5 : i + 1 + J + 1 = skip
      · rw [if_pos h5, if_pos (by omega)]
      · rw [if_neg h5, if_neg (by omega)]
    · rw [if_neg h2]
      congr 1
      · by_cases h3 : skip ≤ i + 1 + J + 2 ∧ i + 1 + 2 ≤ skip
        · have h4 : skip - 2 - (i + 1) + 1 = skip - 2 - i := by omega
          have h6 : skip ≤ i + (J + 1) + 2 ∧ i + 2 ≤ skip := by omega
          rw [if_pos h3, if_pos h6, ← h4]
        · rw [if_neg h3, if_neg (by omega)]
      · by_cases h5 : i + 1 + J + 1 = skip
        · rw [if_pos h5, if_pos (by omega)]
        · rw [if_neg h5, if_neg (by omega)]

/-- The last step that `MaxAndSkipEnv.step` executes. -/
def Last (g : Game E O A K) (a : A) (skip : ℕ) (e : E) (J : ℕ) : Prop :=
  J < skip ∧ (∀ k < J, (result g a e k).2.2 = false) ∧ ((result g a e J).2.2 = true ∨ J + 1 = skip)

/-- **C104.** Frame skipping: the action is repeated until the episode ends, at most `skip` times; the reward is the sum, `done` that of the last step, and if all `skip` steps are made the
observation is the maximum of the last two frames. -/
theorem C104_skip (g : Game E O A K) (mx : O → O → O) (a : A) {skip : ℕ} (hs : skip ≠ 0) (e : E) (b : Buf O) :
    ∃ J b' o, Last g a skip e J ∧
      maxSkipStep g mx skip e b a = .ok (after g a e (J + 1), b', o, ∑ k ∈ Finset.range (J + 1), (result g a e k).2.1, (result g a e J).2.2) ∧
      (2 ≤ skip → J + 1 = skip → o = mx (result g a e (skip - 2)).1 (result g a e (skip - 1)).1) := by
  obtain ⟨J, hJ⟩ : ∃ J, Last g a skip e J := by
    by_cases h : ∃ k, k < skip ∧ (result g a e k).2.2 = true
    · classical
      refine ⟨Nat.find h, (Nat.find_spec h).1, fun k hk => ?_, Or.inl (Nat.find_spec h).2⟩
      have := Nat.find_min h hk
      have hk' : k < skip := hk.trans (Nat.find_spec h).1
      simpa [hk'] using this
    · push Not at h
      exact ⟨skip - 1, by omega, fun k hk => by simpa using h k (by omega), Or.inr (by omega)⟩
  have e1 := skipLoop_spec g a skip J skip 0 e b 0 none (by omega) hJ.1 hJ.2.1 hJ.2.2
  have e2 : maxSkipStep g mx skip e b a = .ok (after g a e (J + 1),
      (if skip ≤ 0 + J + 2 ∧ 0 + 2 ≤ skip then (result g a e (skip - 2 - 0)).1 else b.1, if 0 + J + 1 = skip then (result g a e J).1 else b.2),
      mx (if skip ≤ 0 + J + 2 ∧ 0 + 2 ≤ skip then (result g a e (skip - 2 - 0)).1 else b.1) (if 0 + J + 1 = skip then (result g a e J).1 else b.2),
      0 + ∑ k ∈ Finset.range (J + 1), (result g a e k).2.1, (result g a e J).2.2) := by
    unfold maxSkipStep; rw [e1]
  rw [zero_add (∑ k ∈ Finset.range (J + 1), _)] at e2
  refine ⟨J, _, _, hJ, e2, fun h2 h3 => ?_⟩
  have : skip - 1 = J := by omega
  rw [if_pos (by omega), if_pos (by omega), this]
  rfl

/-- **C104 (defect).** If the episode ends before the last two steps, the observation returned is made of old frames only: of whatever the buffer contained before. -/
theorem C104_skip_stale (g : Game E O A K) (mx : O → O → O) (a : A) {skip J : ℕ} {e : E} (hJ : Last g a skip e J) (hlt : J + 2 < skip) (b : Buf O) :
    ∃ e' r d, maxSkipStep g mx skip e b a = .ok (e', b, mx b.1 b.2, r, d) := by
  have e1 := skipLoop_spec g a skip J skip 0 e b 0 none (by omega) hJ.1 hJ.2.1 hJ.2.2
  rw [if_neg (by omega), if_neg (by omega)] at e1
  exact ⟨_, _, _, by unfold maxSkipStep; rw [e1]⟩

/-- **C104 (defect).** With `skip=1` every frame is combined with the initial frame of zeros, and with `skip=0` `step` fails. -/
theorem C104_skip_small (g : Game E O A K) (mx : O → O → O) (a : A) (e : E) (b : Buf O) :
    (∃ e' b' r d, maxSkipStep g mx 1 e b a = .ok (e', b', mx b.1 (g.step e a).2.1, r, d) ∧ b'.1 = b.1) ∧ maxSkipStep g mx 0 e b a = .error .unboundLocal := by
  refine ⟨?_, rfl⟩
  have e1 := skipLoop_spec g a 1 0 1 0 e b 0 none (by omega) (by omega) (fun k hk => absurd hk (by omega)) (Or.inr rfl)
  rw [if_neg (by omega), if_pos (by omega)] at e1
  refine ⟨after g a e 1, (b.1, (result g a e 0).1), 0 + ∑ k ∈ Finset.range (0 + 1), (result g a e k).2.1, (result g a e 0).2.2, ?_, rfl⟩
  unfold maxSkipStep
  rw [e1]
  rfl

end

/-- **C104.** Clipped rewards are the signs. -/
theorem C104_clip [Field K] [LinearOrder K] [IsStrictOrderedRing K] (r : K) : (0 < r ↔ clipReward r = 1) ∧ (r < 0 ↔ clipReward r = -1) ∧ (r = 0 ↔ clipReward r = 0) := by
  have h01 : (0 : K) < 1 := zero_lt_one
  unfold clipReward
  rcases lt_trichotomy r 0 with h | h | h
  · rw [if_neg (not_lt.2 h.le), if_pos h]
    refine ⟨⟨fun h' => absurd h' (not_lt.2 h.le), fun h' => ?_⟩, ⟨fun _ => rfl, fun _ => h⟩, ⟨fun h' => absurd h' h.ne, fun h' => ?_⟩⟩
    · linarith
    · linarith
  · subst h
    rw [if_neg (lt_irrefl _), if_neg (lt_irrefl _)]
    refine ⟨⟨fun h' => absurd h' (lt_irrefl _), fun h' => absurd h' h01.ne⟩, ⟨fun h' => absurd h' (lt_irrefl _), fun h' => ?_⟩, ⟨fun _ => rfl, fun _ => rfl⟩⟩
    linarith
  · rw [if_pos h]
    refine ⟨⟨fun _ => rfl, fun _ => h⟩, ⟨fun h' => absurd h' (not_lt.2 h.le), fun h' => ?_⟩, ⟨fun h' => absurd h' h.ne', fun h' => ?_⟩⟩
    · linarith
    · linarith

/-- **C104 (defect).** `WarpFrame` does not resize and does not remove the colours: the observations have the announced shape only if the frames are 84 x 84 with no colour axis. -/
theorem C104_warp (shape : List ℕ) : warpShape shape = .ok warpSpace ↔ shape = [84, 84] := by
  unfold warpShape warpSpace
  constructor
  · intro h
    split at h
    · simp only [Except.ok.injEq, List.cons.injEq] at h
      obtain ⟨rfl, rfl, _, rfl⟩ := h
      rfl
    · cases h
  · rintro rfl
    rfl

/-! ### Frame stacking -/

/-- What the wrapped environment itself returns. -/
def gameRun (g : Game E O A K) : E → List A → List (O × K × Bool)
  | _, [] => []
  | e, a :: as => (g.step e a).2 :: gameRun g (g.step e a).1 as

theorem push_full {n : ℕ} {fs : List O} (h : fs.length = n) (o : O) : (push n fs o).length = n ∧ push n fs o = (fs ++ [o]).drop 1 := by
  unfold push
  rw [h, Nat.add_sub_cancel_left]
  exact ⟨by simp [h], rfl⟩

theorem fill_eq (n : ℕ) (o : O) : ∀ (k : ℕ) (fs : List O), fs.length ≤ n → fill n o k fs = (fs ++ List.replicate k o).drop (fs.length + k - n) := by
  intro k
  induction k with
  | zero => intro fs h; simp [fill, Nat.sub_eq_zero_of_le h]
  | succ k ih =>
    intro fs h
    have hl : (push n fs o).length ≤ n := by unfold push; simp; omega
    rw [fill, ih _ hl]
    have hr : List.replicate (k + 1) o = o :: List.replicate k o := rfl
    rw [hr]
    unfold push
    rw [show fs ++ o :: List.replicate k o = (fs ++ [o]) ++ List.replicate k o by simp]
    rcases Nat.lt_or_ge fs.length n with h1 | h1
    · rw [show fs.length + 1 - n = 0 by omega, List.drop_zero]
      simp only [List.length_append, List.length_cons, List.length_nil]
      congr 1
      omega
    · have hn : fs.length = n := by omega
      rw [hn, Nat.add_sub_cancel_left]
      have e : (fs ++ [o]).drop 1 ++ List.replicate k o = ((fs ++ [o]) ++ List.replicate k o).drop 1 := by
        rw [List.drop_append_of_le_length (l₁ := fs ++ [o]) (by rw [List.length_append]; exact Nat.le_add_left _ _)]
      rw [e, List.drop_drop]
      congr 1
      simp [hn, Nat.add_comm]

/-- **C104.** After a reset the stack is `n` copies of the first frame (whatever it held before), and after `k + 1` further steps it consists of the last `n` frames, where the first frame counts `n` times. -/
theorem C104_stack (g : Game E O A K) (n : ℕ) (e : E) (fs : List O) (hfs : fs.length ≤ n) (as : List A) :
    (stackReset g n e fs).2.2 = .ok (List.replicate n (g.reset e).2) ∧
    ∀ (k : ℕ) (r : O × K × Bool), (gameRun g (g.reset e).1 as)[k]? = some r →
      (stackRun g n (stackReset g n e fs).1 (stackReset g n e fs).2.1 as).2.2[k]? =
        some (.ok ((List.replicate n (g.reset e).2 ++ ((gameRun g (g.reset e).1 as).take (k + 1)).map fun r => r.1).drop (k + 1), r.2.1, r.2.2)) := by
  have hfill : fill n (g.reset e).2 n fs = List.replicate n (g.reset e).2 := by
    rw [fill_eq n _ n fs hfs, Nat.add_sub_cancel, List.drop_left]
  have h1 : stackReset g n e fs = ((g.reset e).1, List.replicate n (g.reset e).2, .ok (List.replicate n (g.reset e).2)) := by
    unfold stackReset
    simp only [hfill, getOb, List.length_replicate, if_true]
  rw [h1]
  refine ⟨rfl, ?_⟩
  have key : ∀ (as : List A) (e : E) (fs : List O), fs.length = n → ∀ (k : ℕ) (r : O × K × Bool), (gameRun g e as)[k]? = some r →
      (stackRun g n e fs as).2.2[k]? = some (.ok ((fs ++ ((gameRun g e as).take (k + 1)).map fun r => r.1).drop (k + 1), r.2.1, r.2.2)) := by
    intro as
    induction as with
    | nil => intro e fs _ k r h; simp [gameRun] at h
    | cons a as ih =>
      intro e fs hf k r h
      obtain ⟨p1, p2⟩ := push_full hf (g.step e a).2.1
      cases k with
      | zero =>
        simp only [gameRun, List.getElem?_cons_zero, Option.some.injEq] at h
        subst h
        simp only [stackRun, stackStep, gameRun, List.getElem?_cons_zero, getOb, p1, if_true, List.take_succ_cons, List.take_zero, List.map_cons, List.map_nil]
        rw [p2]
        rfl
      | succ k =>
        simp only [gameRun, List.getElem?_cons_succ] at h
        have := ih (g.step e a).1 (push n fs (g.step e a).2.1) p1 k r h
        simp only [stackRun, stackStep, gameRun, List.getElem?_cons_succ, List.take_succ_cons, List.map_cons]
        rw [this, p2]
        congr 3
        rw [← List.drop_append_of_le_length (by simp), List.drop_drop]
        congr 1
        · omega
        · simp
  exact fun k r h => key as _ _ (by simp) k r h

/-! ### Concrete cases -/

/-- A game whose state is a counter; it is over at 5; observation = counter, reward = counter, lives = 3 below 3 and 2 afterwards. -/
def demo : Game ℕ ℕ ℕ ℤ := ⟨fun _ => (0, 0), fun e a => (e + 1 + a, e + 1 + a, (e + 1 + a : ℕ), decide (5 ≤ e + 1 + a))⟩

example : noopReset demo 0 7 99 = .ok (2, 2) ∧ noopReset demo 0 3 99 = .ok (3, 3) := by decide +kernel

/-- Observation 4 belongs to the running game; 6 to a finished one. -/
example : fireReset demo 0 2 99 = (4, 4) ∧ fireReset demo 0 4 99 = (0, 6) ∧ fireReset demo 4 2 99 = (3, 3) := by decide +kernel

example : maxSkipStep demo max 4 0 (0, 0) 0 = .ok (4, (3, 4), 4, 10, false) ∧ maxSkipStep demo max 4 4 (3, 2) 0 = .ok (5, (3, 2), 3, 5, true) ∧
    maxSkipStep demo max 1 0 (9, 0) 0 = .ok (1, (9, 1), 9, 1, false) := ⟨rfl, rfl, rfl⟩

/-- Lives fall from 3 to 2 at the third step. -/
example : (lifeStep demo (fun e => if e < 3 then 3 else 2) ⟨2, 3, false⟩ 0).2 = (3, 3, true) ∧ (lifeReset demo (fun e => if e < 3 then 3 else 2) 0 ⟨4, 2, false⟩) = (⟨5, 2, false⟩, 5) := by decide +kernel

example : (stackReset demo 3 99 []).2.2 = .ok [0, 0, 0] ∧ (stackRun demo 3 0 [0, 0, 0] [0, 0, 0, 0]).2.1 = [2, 3, 4] := by decide +kernel

end Neorl.Atari

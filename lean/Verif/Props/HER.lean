import Verif.HER

/-!
# Property theorems C38: hindsight experience replay
-/

set_option linter.unusedSectionVars false
set_option linter.unusedVariables false

namespace Neorl.HER

open Neorl.Replay (Buf)

variable {V O G R I A : Type}

/-- Feeding the steps of one episode, of which only the last is terminal. -/
theorem addAll_episode (env : Env V O G R I) (st : Strategy) (n : ℕ) (dr : ℕ → ℕ → ℕ → ℕ) (b : Buf (Tr V A R)) (last : Tr V A R × I)
    (hl : last.1.done = true) : ∀ (steps pre : List (Tr V A R × I)) (c : ℕ), (∀ p ∈ steps, p.1.done = false) →
    addAll env st n dr c ⟨pre, b⟩ (steps ++ [last]) =
      match storeLoop env st n (dr (c + steps.length)) (pre ++ steps ++ [last]) 0 (pre ++ steps ++ [last]) b with
      | .error e => .error e
      | .ok b' => .ok ⟨[], b'⟩ := by
  intro steps
  induction steps with
  | nil =>
    intro pre c _
    obtain ⟨t, info⟩ := last
    simp only [List.nil_append, addAll, add, List.append_nil, List.length_nil, Nat.add_zero]
    rw [if_pos hl]
    cases storeLoop env st n (dr c) (pre ++ [(t, info)]) 0 (pre ++ [(t, info)]) b <;> rfl
  | cons p steps ih =>
    intro pre c hp
    obtain ⟨t, info⟩ := p
    have ht : t.done = false := hp (t, info) (by simp)
    simp only [List.cons_append, addAll, add, ht]
    have := ih (pre ++ [(t, info)]) (c + 1) (fun q hq => hp q (by simp [hq]))
    simp only [Bool.false_eq_true, if_false]
    rw [this]
    simp only [List.append_assoc, List.cons_append, List.nil_append, List.length_cons]
    rw [show c + 1 + steps.length = c + (steps.length + 1) by omega]

/-- **C38.** Feeding a whole episode into hindsight replay (any strategy, any draws) never raises and submits to the replay buffer, in order,
for each step the original transition unchanged followed by its relabelled copies.  Each relabelled copy keeps the
action, is not terminal, has the new goal as desired goal in both observations and the reward recomputed for the goal;
the goal was achieved at an allowed step of the same episode (`future`: strictly later), or, for the `random` strategy, at a
stored or already submitted transition.  Before the end of the episode nothing is submitted. -/
theorem C38_episode (env : Env V O G R I) (st : Strategy) (n : ℕ) (dr : ℕ → ℕ → ℕ → ℕ) {cap : ℕ} (hc : 0 < cap)
    {b : Buf (Tr V A R)} {xs : List (Tr V A R)} (hb : Replay.Inv cap b xs) (steps : List (Tr V A R × I)) (last : Tr V A R × I)
    (hs : ∀ p ∈ steps, p.1.done = false) (hl : last.1.done = true) :
    ∃ (goals : List (List G)) (b' : Buf (Tr V A R)), addAll env st n dr 0 ⟨[], b⟩ (steps ++ [last]) = .ok ⟨[], b'⟩ ∧
      goals.length = steps.length + 1 ∧
      Replay.extend b (List.zipWith (fun (p : Tr V A R × I) gs => p.1 :: gs.map (fun g =>
        ({ obs := env.ofDict { env.toDict p.1.obs with desired := g }, act := p.1.act,
           rew := env.reward (env.toDict p.1.obs').achieved g p.2,
           obs' := env.ofDict { env.toDict p.1.obs' with desired := g }, done := false } : Tr V A R)))
        (steps ++ [last]) goals).flatten = .ok b' ∧
      (∀ (k : ℕ) gs, goals[k]? = some gs → gs.length = (if st = .future ∧ k = steps.length then 0 else n)) ∧
      (st ≠ .random → ∀ (k : ℕ) gs, goals[k]? = some gs → ∀ g ∈ gs, ∃ (j : ℕ) (t : Tr V A R × I), Allowed st (steps.length + 1) k j ∧
        (steps ++ [last])[j]? = some t ∧ g = (env.toDict t.1.obs).achieved) := by
  obtain ⟨goals, b', h1, h2, h3, h4, h5⟩ := storeLoop_spec env st n (dr (0 + steps.length)) (steps ++ [last]) hc
    (steps ++ [last]) 0 b xs rfl hb
  have hlen : (steps ++ [last]).length = steps.length + 1 := by simp
  refine ⟨goals, b', ?_, by rw [h1, hlen], h3, ?_, ?_⟩
  · rw [addAll_episode env st n dr b last hl steps [] 0 hs]
    simp only [List.nil_append]
    rw [h2]
  · intro k gs hk
    rw [h4 k gs hk]
    congr 2
    rw [hlen]
    apply propext
    omega
  · intro hst k gs hk g hg
    rcases h5 k gs hk g hg with ⟨j, t, h6, h7, h8⟩ | ⟨h6, _⟩
    · rw [hlen, Nat.zero_add] at h6
      exact ⟨j, t, h6, h7, h8⟩
    · exact absurd h6 hst

/-- **C38, unfinished episodes.** As long as no step is terminal nothing reaches the replay buffer. -/
theorem C38_pending (env : Env V O G R I) (st : Strategy) (n : ℕ) (dr : ℕ → ℕ → ℕ → ℕ) (b : Buf (Tr V A R)) :
    ∀ (steps pre : List (Tr V A R × I)) (c : ℕ), (∀ p ∈ steps, p.1.done = false) →
    addAll env st n dr c ⟨pre, b⟩ steps = .ok ⟨pre ++ steps, b⟩ := by
  intro steps
  induction steps with
  | nil => intro pre c _; simp [addAll]
  | cons p steps ih =>
    intro pre c hp
    obtain ⟨t, info⟩ := p
    have ht : t.done = false := hp (t, info) (by simp)
    simp only [addAll, add, ht, Bool.false_eq_true, if_false]
    rw [ih (pre ++ [(t, info)]) (c + 1) (fun q hq => hp q (by simp [hq]))]
    simp

/-- **C38, count.** An episode of `T` steps submits `T + n (T - 1)` transitions with `future` and `T (n + 1)` with `final`/`episode`/
`random`. -/
theorem C38_count (env : Env V O G R I) (st : Strategy) (n : ℕ) (dr : ℕ → ℕ → ℕ → ℕ) {cap : ℕ}
    {b : Buf (Tr V A R)} {xs : List (Tr V A R)} (hb : Replay.Inv cap b xs) (hc : 0 < cap) (steps : List (Tr V A R × I))
    (last : Tr V A R × I) (hs : ∀ p ∈ steps, p.1.done = false) (hl : last.1.done = true) :
    ∃ (sub : List (Tr V A R)) (b' : Buf (Tr V A R)), addAll env st n dr 0 ⟨[], b⟩ (steps ++ [last]) = .ok ⟨[], b'⟩ ∧
      Replay.extend b sub = .ok b' ∧
      sub.length = (if st = .future then steps.length + 1 + n * steps.length else (steps.length + 1) * (n + 1)) := by
  obtain ⟨goals, b', h1, h2, h3, h4, _⟩ := C38_episode env st n dr hc hb steps last hs hl
  refine ⟨_, b', h1, h3, ?_⟩
  -- lengths of the blocks
  have key : ∀ (m : ℕ) (ps : List (Tr V A R × I)) (gl : List (List G)), ps.length = gl.length → (∀ (k : ℕ) gs, gl[k]? = some gs → gs.length = m) →
      ∀ f : Tr V A R × I → G → Tr V A R,
      (List.zipWith (fun p gs => p.1 :: gs.map (f p)) ps gl).flatten.length = ps.length * (m + 1) := by
    intro m ps
    induction ps with
    | nil => intro gl _ _ f; simp
    | cons p ps ih =>
      intro gl hle hm f
      cases gl with
      | nil => simp at hle
      | cons gs gl =>
        have := ih gl (by simpa using hle) (fun k gs hk => hm (k + 1) gs (by simpa using hk)) f
        simp only [List.zipWith_cons_cons, List.flatten_cons, List.length_append, List.length_cons, List.length_map, this]
        rw [hm 0 gs (by simp)]
        ring
  by_cases hst : st = .future
  · rw [if_pos hst]
    have hg : goals = goals.take steps.length ++ [[]] := by
      have hlast : goals[steps.length]? = some [] := by
        have hx : steps.length < goals.length := by omega
        rw [List.getElem?_eq_getElem hx]
        have := h4 steps.length _ (List.getElem?_eq_getElem hx)
        rw [if_pos ⟨hst, rfl⟩] at this
        rw [List.length_eq_zero_iff.1 this]
      conv_lhs => rw [← List.take_append_drop steps.length goals]
      congr 1
      apply List.ext_getElem?
      intro k
      rw [List.getElem?_drop]
      cases k with
      | zero => simpa using hlast
      | succ k => rw [List.getElem?_eq_none (by omega)]; simp
    rw [hg, List.zipWith_append (by simp; omega)]
    simp only [List.zipWith_cons_cons, List.zipWith_nil_left, List.map_nil, List.flatten_append, List.length_append]
    rw [key n steps (goals.take steps.length) (by simp; omega) ?_]
    · simp; ring
    · intro k gs hk
      rw [List.getElem?_take] at hk
      split_ifs at hk with hk'
      rw [h4 k gs hk, if_neg]
      rintro ⟨_, h⟩; omega
  · rw [if_neg hst, key n (steps ++ [last]) goals (by simp [h2]) ?_]
    · simp
    · intro k gs hk
      rw [h4 k gs hk, if_neg (fun h => hst h.1)]

/-- **C38, negation for the strategy `final`.** The documentation promises the goal achieved at the end of the episode; the code takes the
goal achieved *before* the last action. -/
theorem C38_final_not_final_state : ∃ (env : Env ℤ ℤ ℤ ℤ Unit) (steps : List (Tr ℤ ℤ ℤ × Unit)) (last : Tr ℤ ℤ ℤ × Unit),
    last.1.done = true ∧ (∀ d, sampleGoal env .final (steps ++ [last]) [] 0 d = .ok (env.toDict last.1.obs).achieved) ∧
    (env.toDict last.1.obs).achieved ≠ (env.toDict last.1.obs').achieved := by
  refine ⟨⟨fun v => ⟨v, v, 9⟩, fun d => d.observation, fun a g _ => if a = g then 1 else 0⟩, [(⟨0, 1, 0, 1, false⟩, ())],
    (⟨1, 1, 0, 2, true⟩, ()), rfl, ?_, by decide⟩
  intro d
  simp [sampleGoal]

/-- A concrete two-step episode. -/
example : ((addAll (⟨fun v => ⟨v.1, v.1, v.2⟩, fun d => (d.observation, d.desired), fun a g _ => if a = g then 1 else 0⟩ : Env (ℤ × ℤ) ℤ ℤ ℤ Unit)
    .future 1 (fun _ _ _ => 0) 0 ⟨[], Replay.new 10⟩
    [(⟨(0, 9), 1, 0, (1, 9), false⟩, ()), (⟨(1, 9), 1, 0, (2, 9), true⟩, ())]).map
      (fun s => s.buf.storage.map (fun t => (t.obs, t.rew, t.obs', t.done)))) =
    .ok [((0, 9), 0, (1, 9), false), ((0, 1), 1, (1, 1), false), ((1, 9), 0, (2, 9), true)] := by decide +kernel

end Neorl.HER

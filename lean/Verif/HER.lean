import Verif.Replay

/-!
# Hindsight experience replay

Model of `neorl/rl/baselines/deepq/replay_buffer.py`.
-/

set_option linter.unusedSectionVars false
set_option linter.unusedVariables false

namespace Neorl.HER

open Neorl.Replay (Buf)

/-- `GoalSelectionStrategy`, lines 7-23. -/
inductive Strategy
  | future | final | episode | random
  deriving DecidableEq

/-- A goal observation as dictionary (the three keys of a gym `GoalEnv`). -/
structure ObsDict (O G : Type) where
  observation : O
  achieved : G
  desired : G

/-- The methods of the wrapped environment used here (an arbitrary environment): conversions and `compute_reward`. -/
structure Env (V O G R I : Type) where
  toDict : V → ObsDict O G
  ofDict : ObsDict O G → V
  reward : G → G → I → R

/-- A transition as stored in the replay buffer. -/
structure Tr (V A R : Type) where
  obs : V
  act : A
  rew : R
  obs' : V
  done : Bool

variable {V O G R I A : Type}

/-- `_sample_achieved_goal`, lines 99-125.  `np.random.choice(np.arange(lo, hi))` raises `ValueError` on an empty range and otherwise
returns `lo + d % (hi - lo)` for an arbitrary natural `d` (every member of the range is reached). -/
def sampleGoal (env : Env V O G R I) (st : Strategy) (ep : List (Tr V A R × I)) (storage : List (Tr V A R)) (i d : ℕ) : Py G :=
  match st with
  | .future =>
    if i + 1 < ep.length then
      match ep[i + 1 + d % (ep.length - (i + 1))]? with
      | some t => .ok (env.toDict t.1.obs).achieved
      | none => .error .indexError
    else .error .valueError
  | .final =>
    match ep.getLast? with
    | some t => .ok (env.toDict t.1.obs).achieved
    | none => .error .indexError
  | .episode =>
    if 0 < ep.length then
      match ep[d % ep.length]? with
      | some t => .ok (env.toDict t.1.obs).achieved
      | none => .error .indexError
    else .error .valueError
  | .random =>
    if 0 < storage.length then
      match storage[d % storage.length]? with
      | some t => .ok (env.toDict t.obs).achieved
      | none => .error .indexError
    else .error .valueError

/-- `_sample_achieved_goals`, lines 127-138. -/
def sampleGoals (env : Env V O G R I) (st : Strategy) (ep : List (Tr V A R × I)) (storage : List (Tr V A R)) (i : ℕ)
    (dr : ℕ → ℕ) : ℕ → Py (List G)
  | 0 => .ok []
  | n + 1 =>
    match sampleGoals env st ep storage i dr n, sampleGoal env st ep storage i (dr n) with
    | .ok gs, .ok g => .ok (gs ++ [g])
    | .error e, _ => .error e
    | _, .error e => .error e

/-- The relabelled transition, lines 166-184. -/
def relabel (env : Env V O G R I) (t : Tr V A R) (info : I) (goal : G) : Tr V A R :=
  let od := env.toDict t.obs
  let nd := env.toDict t.obs'
  let od := { od with desired := goal }
  let nd := { nd with desired := goal }
  { obs := env.ofDict od, act := t.act, rew := env.reward nd.achieved goal info, obs' := env.ofDict nd, done := false }

/-- The inner loop, lines 164-184. -/
def storeGoals (env : Env V O G R I) (t : Tr V A R) (info : I) (b : Buf (Tr V A R)) : List G → Py (Buf (Tr V A R))
  | [] => .ok b
  | g :: gs =>
    match Replay.add b (relabel env t info g) with
    | .error e => .error e
    | .ok b' => storeGoals env t info b' gs

/-- The outer loop of `_store_episode`, lines 148-184, from transition index `i` on.  `dr i k` is the draw for the `k`-th goal of
transition `i`. -/
def storeLoop (env : Env V O G R I) (st : Strategy) (n : ℕ) (dr : ℕ → ℕ → ℕ) (ep : List (Tr V A R × I)) :
    ℕ → List (Tr V A R × I) → Buf (Tr V A R) → Py (Buf (Tr V A R))
  | _, [], b => .ok b
  | i, (t, info) :: rest, b =>
    match Replay.add b t with
    | .error e => .error e
    | .ok b1 =>
      if i + 1 = ep.length ∧ st = .future then .ok b1
      else
        match sampleGoals env st ep b1.storage i (dr i) n with
        | .error e => .error e
        | .ok goals =>
          match storeGoals env t info b1 goals with
          | .error e => .error e
          | .ok b2 => storeLoop env st n dr ep (i + 1) rest b2

/-- Wrapper state: pending transitions of the current episode and the replay buffer (lines 58-61). -/
structure State (V A R I : Type) where
  pending : List (Tr V A R × I)
  buf : Buf (Tr V A R)

/-- `add`, lines 63-81. -/
def add (env : Env V O G R I) (st : Strategy) (n : ℕ) (dr : ℕ → ℕ → ℕ) (s : State V A R I) (t : Tr V A R) (info : I) :
    Py (State V A R I) :=
  let ep := s.pending ++ [(t, info)]
  if t.done then
    match storeLoop env st n dr ep 0 ep s.buf with
    | .error e => .error e
    | .ok b => .ok ⟨[], b⟩
  else .ok ⟨ep, s.buf⟩

/-- Several `add`s (`dr` gives the draws of each call). -/
def addAll (env : Env V O G R I) (st : Strategy) (n : ℕ) (dr : ℕ → ℕ → ℕ → ℕ) : ℕ → State V A R I → List (Tr V A R × I) →
    Py (State V A R I)
  | _, s, [] => .ok s
  | c, s, (t, info) :: rest =>
    match add env st n (dr c) s t info with
    | .error e => .error e
    | .ok s' => addAll env st n dr (c + 1) s' rest

/-! ### Specification -/

/-- Specification: steps `j` of an episode of length `T` whose achieved goal may replace the goal of step `i`. -/
def Allowed (st : Strategy) (T i j : ℕ) : Prop :=
  match st with
  | .future => i < j ∧ j < T
  | .final => j + 1 = T
  | .episode => j < T
  | .random => False

/-! ### Lemmas -/

theorem extend_append {α : Type} (xs ys : List α) : ∀ {b b' : Buf α}, Replay.extend b xs = .ok b' →
    Replay.extend b (xs ++ ys) = Replay.extend b' ys := by
  induction xs with
  | nil => intro b b' h; simp only [Replay.extend] at h; cases h; rfl
  | cons x xs ih =>
    intro b b' h
    simp only [Replay.extend] at h
    simp only [List.cons_append, Replay.extend]
    split at h
    · cases h
    · exact ih h

theorem storeGoals_eq (env : Env V O G R I) (t : Tr V A R) (info : I) (gs : List G) (b : Buf (Tr V A R)) :
    storeGoals env t info b gs = Replay.extend b (gs.map (relabel env t info)) := by
  induction gs generalizing b with
  | nil => rfl
  | cons g gs ih =>
    simp only [storeGoals, List.map_cons, Replay.extend]
    split <;> simp_all

theorem sampleGoal_ok (env : Env V O G R I) {st : Strategy} {ep : List (Tr V A R × I)} {storage : List (Tr V A R)} {i d : ℕ}
    (hi : i < ep.length) (hf : st = .future → i + 1 < ep.length) (hs : st = .random → storage ≠ []) :
    ∃ g, sampleGoal env st ep storage i d = .ok g ∧
      ((∃ j t, Allowed st ep.length i j ∧ ep[j]? = some t ∧ g = (env.toDict t.1.obs).achieved) ∨
       (st = .random ∧ ∃ t ∈ storage, g = (env.toDict t.obs).achieved)) := by
  cases st with
  | future =>
    have h1 := hf rfl
    have hlt : i + 1 + d % (ep.length - (i + 1)) < ep.length := by
      have := Nat.mod_lt d (show 0 < ep.length - (i + 1) by omega)
      omega
    refine ⟨(env.toDict (ep[i + 1 + d % (ep.length - (i + 1))]).1.obs).achieved, ?_,
      Or.inl ⟨_, _, ?_, List.getElem?_eq_getElem hlt, rfl⟩⟩
    · simp only [sampleGoal, h1, if_true, List.getElem?_eq_getElem hlt]
    · exact ⟨by omega, hlt⟩
  | final =>
    have hne : ep ≠ [] := by rintro rfl; simp at hi
    refine ⟨(env.toDict (ep.getLast hne).1.obs).achieved, ?_, Or.inl ⟨ep.length - 1, ep.getLast hne, ?_, ?_, rfl⟩⟩
    · simp only [sampleGoal, List.getLast?_eq_some_getLast hne]
    · simp only [Allowed]; omega
    · rw [List.getLast_eq_getElem]; exact List.getElem?_eq_getElem (by omega)
  | episode =>
    have hp : 0 < ep.length := by omega
    have hlt : d % ep.length < ep.length := Nat.mod_lt _ hp
    refine ⟨(env.toDict (ep[d % ep.length]).1.obs).achieved, ?_, Or.inl ⟨_, _, ?_, List.getElem?_eq_getElem hlt, rfl⟩⟩
    · simp only [sampleGoal, hp, if_true, List.getElem?_eq_getElem hlt]
    · exact hlt
  | random =>
    have hp : 0 < storage.length := List.length_pos_of_ne_nil (hs rfl)
    have hlt : d % storage.length < storage.length := Nat.mod_lt _ hp
    refine ⟨(env.toDict (storage[d % storage.length]).obs).achieved, ?_, Or.inr ⟨rfl, _, List.getElem_mem hlt, rfl⟩⟩
    simp only [sampleGoal, hp, if_true, List.getElem?_eq_getElem hlt]

theorem sampleGoals_ok (env : Env V O G R I) {st : Strategy} {ep : List (Tr V A R × I)} {storage : List (Tr V A R)} {i : ℕ}
    (dr : ℕ → ℕ) (hi : i < ep.length) (hf : st = .future → i + 1 < ep.length) (hs : st = .random → storage ≠ []) (n : ℕ) :
    ∃ gs, sampleGoals env st ep storage i dr n = .ok gs ∧ gs.length = n ∧ ∀ g ∈ gs,
      ((∃ j t, Allowed st ep.length i j ∧ ep[j]? = some t ∧ g = (env.toDict t.1.obs).achieved) ∨
       (st = .random ∧ ∃ t ∈ storage, g = (env.toDict t.obs).achieved)) := by
  induction n with
  | zero => exact ⟨[], rfl, rfl, by simp⟩
  | succ n ih =>
    obtain ⟨gs, h1, h2, h3⟩ := ih
    obtain ⟨g, g1, g2⟩ := sampleGoal_ok env (d := dr n) hi hf hs
    refine ⟨gs ++ [g], by simp only [sampleGoals, h1, g1], by simp [h2], ?_⟩
    intro x hx
    rcases List.mem_append.1 hx with hx | hx
    · exact h3 x hx
    · rw [List.mem_singleton.1 hx]; exact g2

/-- Every element stored after an insertion is old or the inserted one. -/
theorem mem_add {α : Type} {b b' : Buf α} {x y : α} (h : Replay.add b x = .ok b') (hy : y ∈ b'.storage) : y ∈ b.storage ∨ y = x := by
  unfold Replay.add at h
  by_cases h0 : b.maxsize = 0
  · rw [if_pos h0] at h; cases h
  · rw [if_neg h0] at h
    simp only [Except.ok.injEq] at h
    rw [← h] at hy
    simp only at hy
    split_ifs at hy
    · rcases List.mem_append.1 hy with hy | hy
      · exact Or.inl hy
      · exact Or.inr (List.mem_singleton.1 hy)
    · exact List.mem_or_eq_of_mem_set hy

theorem mem_extend {α : Type} {xs : List α} : ∀ {b b' : Buf α} {y : α}, Replay.extend b xs = .ok b' → y ∈ b'.storage →
    y ∈ b.storage ∨ y ∈ xs := by
  induction xs with
  | nil => intro b b' y h hy; simp only [Replay.extend] at h; cases h; exact Or.inl hy
  | cons x xs ih =>
    intro b b' y h hy
    simp only [Replay.extend] at h
    split at h
    · cases h
    · rename_i b1 h1
      rcases ih h hy with h2 | h2
      · rcases mem_add h1 h2 with h3 | h3
        · exact Or.inl h3
        · exact Or.inr (by simp [h3])
      · exact Or.inr (by simp [h2])

/-- The block of transitions submitted for step `i`. -/
def block (env : Env V O G R I) (p : Tr V A R × I) (gs : List G) : List (Tr V A R) := p.1 :: gs.map (relabel env p.1 p.2)

/-- Main description of `_store_episode`. -/
theorem storeLoop_spec (env : Env V O G R I) (st : Strategy) (n : ℕ) (dr : ℕ → ℕ → ℕ) (ep : List (Tr V A R × I)) {cap : ℕ}
    (hc : 0 < cap) : ∀ (rest : List (Tr V A R × I)) (i : ℕ) (b : Buf (Tr V A R)) (xs : List (Tr V A R)), rest = ep.drop i →
    Replay.Inv cap b xs →
    ∃ (goals : List (List G)) (b' : Buf (Tr V A R)), goals.length = rest.length ∧
      storeLoop env st n dr ep i rest b = .ok b' ∧
      Replay.extend b (List.zipWith (block env) rest goals).flatten = .ok b' ∧
      (∀ (k : ℕ) gs, goals[k]? = some gs → gs.length = (if st = .future ∧ i + k + 1 = ep.length then 0 else n)) ∧
      ∀ (k : ℕ) gs, goals[k]? = some gs → ∀ g ∈ gs,
        ((∃ j t, Allowed st ep.length (i + k) j ∧ ep[j]? = some t ∧ g = (env.toDict t.1.obs).achieved) ∨
         (st = .random ∧ ∃ t, (t ∈ b.storage ∨ t ∈ ((List.zipWith (block env) rest goals).take (k + 1)).flatten) ∧
           g = (env.toDict t.obs).achieved)) := by
  intro rest
  induction rest with
  | nil =>
    intro i b xs _ hb
    exact ⟨[], b, rfl, rfl, rfl, by simp, by simp⟩
  | cons p rest ih =>
    obtain ⟨t, info⟩ := p
    intro i b xs hrest hb
    have hi : i < ep.length := by
      by_contra hcon
      rw [List.drop_eq_nil_of_le (by omega)] at hrest
      cases hrest
    have hrest' : rest = ep.drop (i + 1) := by
      rw [← List.tail_drop, ← hrest, List.tail_cons]
    obtain ⟨b1, a1, a2⟩ := Replay.add_inv hc hb t
    by_cases hlast : i + 1 = ep.length ∧ st = .future
    · have hnil : rest = [] := by rw [hrest', List.drop_eq_nil_of_le (by omega)]
      subst hnil
      refine ⟨[[]], b1, rfl, ?_, ?_, ?_, ?_⟩
      · simp only [storeLoop, a1, if_pos hlast]
      · simp [block, Replay.extend, a1]
      · intro k gs hk
        cases k with
        | zero => simp at hk; subst hk; rw [if_pos ⟨hlast.2, by omega⟩]; rfl
        | succ k => simp at hk
      · intro k gs hk g hg
        cases k with
        | zero => simp at hk; subst hk; simp at hg
        | succ k => simp at hk
    · have hne : b1.storage ≠ [] := by
        have := a2.len
        simp only [List.length_append, List.length_singleton] at this
        intro hcon
        rw [hcon] at this
        simp at this
        omega
      obtain ⟨gs, g1, g2, g3⟩ := sampleGoals_ok env (st := st) (ep := ep) (storage := b1.storage) (dr i) hi
        (by
          intro hst
          have : ¬ (i + 1 = ep.length) := fun h => hlast ⟨h, hst⟩
          omega) (fun _ => hne) n
      obtain ⟨b2, c1, c2⟩ := Replay.extend_inv hc a2 (ys := gs.map (relabel env t info))
      obtain ⟨goals, b', d1, d2, d3, d4, d5⟩ := ih (i + 1) b2 _ hrest' c2
      refine ⟨gs :: goals, b', by simp [d1], ?_, ?_, ?_, ?_⟩
      · simp only [storeLoop, a1, if_neg hlast, g1, storeGoals_eq, c1, d2]
      · simp only [List.zipWith_cons_cons, List.flatten_cons, block, List.cons_append, Replay.extend, a1]
        rw [extend_append _ _ c1]; exact d3
      · intro k gs' hk
        cases k with
        | zero =>
          simp only [List.getElem?_cons_zero, Option.some.injEq] at hk
          subst hk
          rw [g2, if_neg]
          rintro ⟨h1, h2⟩; exact hlast ⟨by omega, h1⟩
        | succ k =>
          simp only [List.getElem?_cons_succ] at hk
          rw [d4 k gs' hk]
          congr 2
          rw [show i + 1 + k + 1 = i + (k + 1) + 1 by omega]
      · intro k gs' hk g hg
        cases k with
        | zero =>
          simp only [List.getElem?_cons_zero, Option.some.injEq] at hk
          subst hk
          rcases g3 g hg with h | ⟨hst, t', h1, h2⟩
          · exact Or.inl h
          · refine Or.inr ⟨hst, t', ?_, h2⟩
            rcases mem_add a1 h1 with h3 | h3
            · exact Or.inl h3
            · right; simp [block, h3]
        | succ k =>
          simp only [List.getElem?_cons_succ] at hk
          rcases d5 k gs' hk g hg with h | ⟨hst, t', h1, h2⟩
          · left; rw [show i + (k + 1) = i + 1 + k by omega]; exact h
          · refine Or.inr ⟨hst, t', ?_, h2⟩
            rcases h1 with h1 | h1
            · rcases mem_extend c1 h1 with h3 | h3
              · rcases mem_add a1 h3 with h4 | h4
                · exact Or.inl h4
                · right; simp [block, h4]
              · right
                simp only [List.zipWith_cons_cons, List.take_succ_cons, List.flatten_cons, block, List.mem_append, List.mem_cons]
                exact Or.inl (Or.inr h3)
            · right
              simp only [List.zipWith_cons_cons, List.take_succ_cons, List.flatten_cons, List.mem_append]
              exact Or.inr h1

end Neorl.HER

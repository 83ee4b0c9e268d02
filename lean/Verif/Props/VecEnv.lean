import Verif.VecEnv
import Mathlib.Logic.Relation
import Mathlib.Order.RelClasses
import Mathlib.Tactic.Linarith

/-!
# C91: several environments at once

* every environment of a `DummyVecEnv` goes through exactly the run it would make alone with its own actions, restarted whenever an episode ends (`C91_rows`);
* a `SubprocVecEnv` returns the same under every interleaving of the processes, and always answers (`C91_processes`, `C91_terminates`);
* too few actions: an exception after some environments have moved, or waiting for ever (`C91_short`, `C91_hangs`);
* seeds (`C91_seeds`).
-/

set_option linter.unusedSectionVars false
set_option linter.unusedVariables false

namespace Neorl.VecEnv

section
variable {S A O K I : Type}

/-! ### Specification -/

/-- What one environment alone shows when it is driven by `none` (a reset) and `some a` (a step, followed by a reset when the episode ends): the observation to
act on next, and for a step the reward, whether the episode ended, the info, and the observation the episode ended with. -/
def alone (g : Gym S A O K I) : S → List (Option A) → List (O × Option (K × Bool × I × Option O))
  | _, [] => []
  | s, none :: cs => ((g.reset s).2, none) :: alone g (g.reset s).1 cs
  | s, some a :: cs =>
    match g.step s a with
    | (s1, o, r, true, i) => ((g.reset s1).2, some (r, true, i, some o)) :: alone g (g.reset s1).1 cs
    | (s1, o, r, false, i) => (o, some (r, false, i, none)) :: alone g s1 cs

/-- The part of a command that concerns environment `i`. -/
def share (i : ℕ) : Cmd A → Option A
  | .reset => none
  | .step acts => acts[i]?

/-- The part of an answer that concerns environment `i`. -/
def part (i : ℕ) : Resp O K I → Option (O × Option (K × Bool × I × Option O))
  | .obs l => l[i]?.map fun o => (o, none)
  | .rows l => l[i]?.map fun r => (r.obs, some (r.rew, r.done, r.info, r.term))

/-- The number of environments an answer speaks of. -/
def size : Resp O K I → ℕ
  | .obs l => l.length
  | .rows l => l.length

/-- Every step has an action for each of `n` environments. -/
def Enough (n : ℕ) (cmds : List (Cmd A)) : Prop := ∀ acts, Cmd.step acts ∈ cmds → n ≤ acts.length

/-- Rounding of the reward. -/
def round (f : K → K) : O × Option (K × Bool × I × Option O) → O × Option (K × Bool × I × Option O)
  | (o, none) => (o, none)
  | (o, some (r, d)) => (o, some (f r, d))

/-! ### `DummyVecEnv` -/

/-- All buffers have the length of the list of environments. -/
structure Wf (d : Dummy S A O K I) (n : ℕ) : Prop where
  envs : d.envs.length = n
  obs : d.obs.length = n
  rews : d.rews.length = n
  dones : d.dones.length = n
  infos : d.infos.length = n

/-- The entries of environment `i`. -/
def slot (d : Dummy S A O K I) (i : ℕ) : Option S × Option O × Option K × Option Bool × Option (I × Option O) :=
  (d.envs[i]?, d.obs[i]?, d.rews[i]?, d.dones[i]?, d.infos[i]?)

theorem wf_stepOne {d : Dummy S A O K I} {n : ℕ} (h : Wf d n) (g : Gym S A O K I) (f : K → K) (s : S) (a : A) (idx : ℕ) : Wf (stepOne g f s a idx d) n := by
  unfold stepOne
  simp only
  split_ifs <;> exact ⟨by simp [h.envs], by simp [h.obs], by simp [h.rews], by simp [h.dones], by simp [h.infos]⟩

/-- The state after a step, with the restart. -/
def nextS (g : Gym S A O K I) (s : S) (a : A) : S := if (g.step s a).2.2.2.1 then (g.reset (g.step s a).1).1 else (g.step s a).1

/-- The row of a step, with the restart. -/
def nextRow (g : Gym S A O K I) (s : S) (a : A) : Row O K I :=
  if (g.step s a).2.2.2.1 then
    { obs := (g.reset (g.step s a).1).2, rew := (g.step s a).2.2.1, done := true, info := (g.step s a).2.2.2.2, term := some (g.step s a).2.1 }
  else { obs := (g.step s a).2.1, rew := (g.step s a).2.2.1, done := false, info := (g.step s a).2.2.2.2, term := none }

/-- The entries made from a state and a row. -/
def slotOf (s : S) (r : Row O K I) (f : K → K) : Option S × Option O × Option K × Option Bool × Option (I × Option O) :=
  (some s, some r.obs, some (f r.rew), some r.done, some (r.info, r.term))

theorem slot_stepOne {d : Dummy S A O K I} {n : ℕ} (h : Wf d n) (g : Gym S A O K I) (f : K → K) (s : S) (a : A) {idx : ℕ} (hi : idx < n) (j : ℕ) :
    slot (stepOne g f s a idx d) j = if idx = j then slotOf (nextS g s a) (nextRow g s a) f else slot d j := by
  unfold stepOne slot nextS nextRow slotOf
  have h1 := h.envs; have h2 := h.obs; have h3 := h.rews; have h4 := h.dones; have h5 := h.infos
  by_cases hd : (g.step s a).2.2.2.1 = true
  · by_cases hj : idx = j
    · subst hj
      simp [hd, h1, h2, h3, h4, h5, hi]
    · simp [hd, hj]
  · have hd' : (g.step s a).2.2.2.1 = false := by simpa using hd
    by_cases hj : idx = j
    · subst hj
      simp [hd', h1, h2, h3, h4, h5, hi]
    · simp [hd', hj]

theorem envs_of_slot {d d' : Dummy S A O K I} {j : ℕ} (h : slot d j = slot d' j) : d.envs[j]? = d'.envs[j]? := congrArg Prod.fst h

/-- The loop of `step_wait` for the environments that have an action, and the exception at the first that has none. -/
theorem stepLoop_spec (g : Gym S A O K I) (f : K → K) (acts : List A) {n : ℕ} : ∀ (k idx : ℕ) (d : Dummy S A O K I), Wf d n → idx + k = n →
    ∃ d' e, stepLoop g f acts idx k d = (d', e) ∧ Wf d' n ∧ e = (if n ≤ acts.length ∨ k = 0 then none else some .indexError) ∧
      ∀ j, slot d' j = if h : idx ≤ j ∧ j < n ∧ j < acts.length then
        (match d.envs[j]? with | some s => slotOf (nextS g s acts[j]) (nextRow g s acts[j]) f | none => slot d j) else slot d j := by
  intro k
  induction k with
  | zero =>
    intro idx d h hk
    refine ⟨d, none, rfl, h, by simp, ?_⟩
    intro j
    rw [dif_neg (by omega)]
  | succ k ih =>
    intro idx d h hk
    have hi : idx < n := by omega
    rw [stepLoop]
    have hl : idx < d.envs.length := by rw [h.envs]; exact hi
    have hs : d.envs[idx]? = some d.envs[idx] := List.getElem?_eq_getElem hl
    by_cases ha : idx < acts.length
    · have haa : acts[idx]? = some acts[idx] := List.getElem?_eq_getElem ha
      rw [hs, haa]
      simp only
      obtain ⟨d', e, h1, h2, h3, h4⟩ := ih (idx + 1) (stepOne g f d.envs[idx] acts[idx] idx d) (wf_stepOne h ..) (by omega)
      refine ⟨d', e, h1, h2, ?_, ?_⟩
      · rw [h3]
        by_cases hn : n ≤ acts.length
        · simp [hn]
        · rw [if_neg, if_neg] <;> omega
      · intro j
        rw [h4 j, slot_stepOne h _ _ _ _ hi]
        by_cases hj : idx = j
        · subst hj
          rw [dif_neg (by omega), if_pos rfl, dif_pos ⟨le_rfl, hi, ha⟩, hs]
        · have he : (stepOne g f d.envs[idx] acts[idx] idx d).envs[j]? = d.envs[j]? := by
            refine envs_of_slot ?_
            rw [slot_stepOne h _ _ _ _ hi, if_neg hj]
          rw [if_neg hj, he]
          by_cases hc : idx + 1 ≤ j ∧ j < n ∧ j < acts.length
          · rw [dif_pos hc, dif_pos ⟨by omega, hc.2⟩]
          · rw [dif_neg hc, dif_neg (by omega)]
    · have haa : acts[idx]? = none := List.getElem?_eq_none (by omega)
      rw [hs, haa]
      refine ⟨d, some .indexError, rfl, h, ?_, ?_⟩
      · rw [if_neg]; omega
      · intro j
        rw [dif_neg (by omega)]

theorem resetLoop_spec (g : Gym S A O K I) {n : ℕ} : ∀ (k idx : ℕ) (d : Dummy S A O K I), Wf d n → idx + k = n →
    Wf (resetLoop g idx k d) n ∧ ∀ j, ((resetLoop g idx k d).envs[j]?, (resetLoop g idx k d).obs[j]?) =
      if idx ≤ j ∧ j < n then (match d.envs[j]? with | some s => (some (g.reset s).1, some (g.reset s).2) | none => (d.envs[j]?, d.obs[j]?)) else (d.envs[j]?, d.obs[j]?) := by
  intro k
  induction k with
  | zero =>
    intro idx d h hk
    refine ⟨h, ?_⟩
    intro j
    rw [if_neg (by omega)]; rfl
  | succ k ih =>
    intro idx d h hk
    have hi : idx < n := by omega
    rw [resetLoop]
    have hl : idx < d.envs.length := by rw [h.envs]; exact hi
    have hs : d.envs[idx]? = some d.envs[idx] := List.getElem?_eq_getElem hl
    rw [hs]
    simp only
    obtain ⟨h1, h2⟩ := ih (idx + 1) { d with envs := d.envs.set idx (g.reset d.envs[idx]).1, obs := d.obs.set idx (g.reset d.envs[idx]).2 }
      ⟨by simp [h.envs], by simp [h.obs], h.rews, h.dones, h.infos⟩ (by omega)
    refine ⟨h1, ?_⟩
    intro j
    rw [h2 j]
    by_cases hj : idx = j
    · subst hj
      rw [if_neg (show ¬ (idx + 1 ≤ idx ∧ idx < n) by omega), if_pos (show idx ≤ idx ∧ idx < n from ⟨le_rfl, hi⟩), hs]
      simp [h.envs, h.obs, hi]
    · simp only [List.getElem?_set_ne hj]
      by_cases hc : idx + 1 ≤ j ∧ j < n
      · rw [if_pos hc, if_pos ⟨by omega, hc.2⟩]
      · rw [if_neg hc, if_neg (by omega)]

/-- A row as the list of its buffers. -/
theorem rowsOf_get {d : Dummy S A O K I} {j : ℕ} {s : S} {r : Row O K I} {f : K → K} (h : slot d j = slotOf s r f) : (rowsOf d)[j]? = some { r with rew := f r.rew } := by
  unfold slot slotOf at h
  simp only [Prod.mk.injEq] at h
  obtain ⟨_, h2, h3, h4, h5⟩ := h
  unfold rowsOf
  have e : (List.zip d.obs (List.zip d.rews (List.zip d.dones d.infos)))[j]? = some (r.obs, f r.rew, r.done, r.info, r.term) :=
    List.getElem?_zip_eq_some.2 ⟨h2, List.getElem?_zip_eq_some.2 ⟨h3, List.getElem?_zip_eq_some.2 ⟨h4, h5⟩⟩⟩
  rw [List.getElem?_map, e]
  rfl

theorem rowsOf_length {d : Dummy S A O K I} {n : ℕ} (h : Wf d n) : (rowsOf d).length = n := by
  simp [rowsOf, h.obs, h.rews, h.dones, h.infos]

/-- One call with states given by a function. -/
theorem exec_reset (g : Gym S A O K I) (f : K → K) {n : ℕ} {σ : Fin n → S} {d : Dummy S A O K I} (h : Wf d n) (he : d.envs = List.ofFn σ) :
    ∃ d', exec g f d .reset = (d', .ok (.obs (List.ofFn fun i => (g.reset (σ i)).2))) ∧ Wf d' n ∧ d'.envs = List.ofFn fun i => (g.reset (σ i)).1 := by
  obtain ⟨h1, h2⟩ := resetLoop_spec g n 0 d h (by omega)
  have key : ∀ j : ℕ, (resetLoop g 0 n d).envs[j]? = (List.ofFn fun i => (g.reset (σ i)).1)[j]? ∧ (resetLoop g 0 n d).obs[j]? = (List.ofFn fun i => (g.reset (σ i)).2)[j]? := by
    intro j
    have hj := h2 j
    by_cases hn : j < n
    · have hs : d.envs[j]? = some (σ ⟨j, hn⟩) := by rw [he]; simp [hn]
      rw [if_pos ⟨by omega, hn⟩, hs] at hj
      rw [(Prod.mk.inj hj).1, (Prod.mk.inj hj).2]
      simp [hn]
    · rw [List.getElem?_eq_none (l := (resetLoop g 0 n d).envs) (by rw [h1.envs]; omega), List.getElem?_eq_none (l := (resetLoop g 0 n d).obs) (by rw [h1.obs]; omega)]
      simp [hn]
  have e1 : (resetLoop g 0 n d).envs = List.ofFn fun i => (g.reset (σ i)).1 := List.ext_getElem? fun j => (key j).1
  have e2 : (resetLoop g 0 n d).obs = List.ofFn fun i => (g.reset (σ i)).2 := List.ext_getElem? fun j => (key j).2
  refine ⟨resetLoop g 0 n d, ?_, h1, e1⟩
  unfold exec
  simp only [h.envs, e2]

theorem exec_step (g : Gym S A O K I) (f : K → K) {n : ℕ} {σ : Fin n → S} {d : Dummy S A O K I} (h : Wf d n) (he : d.envs = List.ofFn σ) {acts : List A} (ha : n ≤ acts.length) :
    ∃ d', exec g f d (.step acts) = (d', .ok (.rows (List.ofFn fun i : Fin n => { nextRow g (σ i) (acts[i.1]'(by omega)) with rew := f (nextRow g (σ i) (acts[i.1]'(by omega))).rew }))) ∧
      Wf d' n ∧ d'.envs = List.ofFn fun i : Fin n => nextS g (σ i) (acts[i.1]'(by omega)) := by
  have hw : Wf { d with actions := some acts } n := ⟨h.envs, h.obs, h.rews, h.dones, h.infos⟩
  obtain ⟨d', e, h1, h2, h3, h4⟩ := stepLoop_spec g f acts n 0 { d with actions := some acts } hw (by omega)
  rw [if_pos (Or.inl ha)] at h3
  subst h3
  have hj : ∀ (j : ℕ) (hn : j < n), slot d' j = slotOf (nextS g (σ ⟨j, hn⟩) (acts[j]'(by omega))) (nextRow g (σ ⟨j, hn⟩) (acts[j]'(by omega))) f := by
    intro j hn
    have hs : d.envs[j]? = some (σ ⟨j, hn⟩) := by rw [he]; simp [hn]
    rw [h4 j, dif_pos ⟨by omega, hn, by omega⟩]
    simp only [hs]
  have e1 : d'.envs = List.ofFn fun i : Fin n => nextS g (σ i) (acts[i.1]'(by omega)) := by
    refine List.ext_getElem? fun j => ?_
    by_cases hn : j < n
    · have := congrArg Prod.fst (hj j hn)
      simp only [slot, slotOf] at this
      rw [this]
      simp [hn]
    · rw [List.getElem?_eq_none (by rw [h2.envs]; omega)]
      simp [hn]
  have e2 : rowsOf d' = List.ofFn fun i : Fin n => { nextRow g (σ i) (acts[i.1]'(by omega)) with rew := f (nextRow g (σ i) (acts[i.1]'(by omega))).rew } := by
    refine List.ext_getElem? fun j => ?_
    by_cases hn : j < n
    · rw [rowsOf_get (hj j hn)]
      simp [hn]
    · rw [List.getElem?_eq_none (by rw [rowsOf_length h2]; omega)]
      simp [hn]
  refine ⟨d', ?_, h2, e1⟩
  unfold exec stepWait
  simp only [h.envs, h1, e2]

theorem wf_create {o0 : O} {k0 : K} {i0 : I} {envs : List S} {d : Dummy S A O K I} (h : create o0 k0 i0 envs = .ok d) : Wf d envs.length ∧ d.envs = envs ∧ envs ≠ [] := by
  unfold create at h
  split at h
  · cases h
  · rename_i hne
    cases h
    exact ⟨⟨rfl, by simp, by simp, by simp, by simp⟩, rfl, fun h => hne h⟩

theorem enough_cons {n : ℕ} {c : Cmd A} {cs : List (Cmd A)} (h : Enough n (c :: cs)) : (∀ acts, c = .step acts → n ≤ acts.length) ∧ Enough n cs :=
  ⟨fun acts hc => h acts (by rw [hc]; exact List.mem_cons_self), fun acts hm => h acts (List.mem_cons_of_mem _ hm)⟩

theorem alone_some (g : Gym S A O K I) (s : S) (a : A) (cs : List (Option A)) :
    alone g s (some a :: cs) = ((nextRow g s a).obs, some ((nextRow g s a).rew, (nextRow g s a).done, (nextRow g s a).info, (nextRow g s a).term)) :: alone g (nextS g s a) cs := by
  rw [alone]
  unfold nextRow nextS
  generalize g.step s a = t
  obtain ⟨s1, o, r, b, i⟩ := t
  cases b <;> rfl

theorem run_rows (g : Gym S A O K I) (f : K → K) {n : ℕ} : ∀ (cmds : List (Cmd A)) (σ : Fin n → S) (d : Dummy S A O K I), Wf d n → d.envs = List.ofFn σ → Enough n cmds →
    ∃ d' rs, run g f d cmds = .ok (d', rs) ∧ (∀ r ∈ rs, size r = n) ∧
      ∀ i : Fin n, rs.map (part i.1) = ((alone g (σ i) (cmds.map (share i.1))).map (round f)).map some := by
  intro cmds
  induction cmds with
  | nil => intro σ d _ _ _; exact ⟨d, [], rfl, by simp, by simp [alone]⟩
  | cons c cs ih =>
    intro σ d h he hc
    obtain ⟨h1, h2⟩ := enough_cons hc
    cases c with
    | reset =>
      obtain ⟨d1, e1, w1, e2⟩ := exec_reset g f h he
      obtain ⟨d2, rs, r1, r2, r3⟩ := ih _ d1 w1 e2 h2
      refine ⟨d2, .obs (List.ofFn fun i => (g.reset (σ i)).2) :: rs, ?_, List.forall_mem_cons.2 ⟨?_, r2⟩, ?_⟩
      · rw [run, e1]; simp only; rw [r1]
      · simp [size]
      · intro i
        rw [List.map_cons, r3 i, List.map_cons]
        simp only [share, alone, List.map_cons]
        congr 1
        simp [part, round]
    | step acts =>
      have ha := h1 acts rfl
      obtain ⟨d1, e1, w1, e2⟩ := exec_step g f h he ha
      obtain ⟨d2, rs, r1, r2, r3⟩ := ih _ d1 w1 e2 h2
      refine ⟨d2, .rows (List.ofFn fun i : Fin n => { nextRow g (σ i) (acts[i.1]'(by omega)) with rew := f (nextRow g (σ i) (acts[i.1]'(by omega))).rew }) :: rs, ?_,
        List.forall_mem_cons.2 ⟨?_, r2⟩, ?_⟩
      · rw [run, e1]; simp only; rw [r1]
      · simp [size]
      · intro i
        rw [List.map_cons, r3 i, List.map_cons]
        have hi : share i.1 (Cmd.step acts) = some (acts[i.1]'(by omega)) := by
          simp only [share]
          exact List.getElem?_eq_getElem _
        rw [hi, alone_some, List.map_cons, List.map_cons]
        congr 1
        simp [part, round]

/-- **C91.** A `DummyVecEnv` with an action for every environment never raises, every answer has one row per environment, and the rows of environment `i` are what the
environment shows alone when it is given its own actions: it is restarted exactly when its episode ends, the observation is then the first of the new episode and
`terminal_observation` the last of the old one.  Nothing the other environments do matters.  The reward is rounded to 32 bit. -/
theorem C91_rows (g : Gym S A O K I) (f32 : K → K) (o0 : O) (k0 : K) (i0 : I) {envs : List S} (hne : envs ≠ []) {cmds : List (Cmd A)} (hc : Enough envs.length cmds) :
    ∃ d d' rs, create o0 k0 i0 envs = .ok d ∧ run g f32 d cmds = .ok (d', rs) ∧ (∀ r ∈ rs, size r = envs.length) ∧
      ∀ (i : ℕ) (hi : i < envs.length), rs.map (part i) = ((alone g envs[i] (cmds.map (share i))).map (round f32)).map some := by
  have hcr : ∃ d : Dummy S A O K I, create o0 k0 i0 envs = .ok d := by
    cases envs with
    | nil => exact absurd rfl hne
    | cons a as => exact ⟨_, rfl⟩
  obtain ⟨d, hd⟩ := hcr
  obtain ⟨hw, he, _⟩ := wf_create hd
  obtain ⟨d', rs, r1, r2, r3⟩ := run_rows g f32 cmds (fun i : Fin envs.length => envs[i]) d hw (by rw [he]; simp) hc
  exact ⟨d, d', rs, hd, r1, r2, fun i hi => r3 ⟨i, hi⟩⟩

/-- **C91.** With fewer actions than environments `DummyVecEnv.step` raises an index error, after the environments that have an action have been stepped (and
restarted): the vector is left with some environments one step ahead. -/
theorem C91_short (g : Gym S A O K I) (f32 : K → K) {o0 : O} {k0 : K} {i0 : I} {envs : List S} {d : Dummy S A O K I} (hd : create o0 k0 i0 envs = .ok d) {acts : List A}
    (ha : acts.length < envs.length) :
    ∃ d', exec g f32 d (.step acts) = (d', .error .indexError) ∧ ∀ (j : ℕ) (hj : j < envs.length), d'.envs[j]? = some
      (match acts[j]? with
       | none => envs[j]
       | some a => match g.step envs[j] a with | (s1, _, _, true, _) => (g.reset s1).1 | (s1, _, _, false, _) => s1) := by
  obtain ⟨hw, he, _⟩ := wf_create hd
  have hw' : Wf { d with actions := some acts } envs.length := ⟨hw.envs, hw.obs, hw.rews, hw.dones, hw.infos⟩
  obtain ⟨d', e, h1, h2, h3, h4⟩ := stepLoop_spec g f32 acts envs.length 0 { d with actions := some acts } hw' (by omega)
  rw [if_neg (by omega)] at h3
  subst h3
  refine ⟨d', ?_, ?_⟩
  · unfold exec stepWait
    simp only [hw.envs, h1]
  · intro j hj
    have h5 := congrArg Prod.fst (h4 j)
    have hs : d.envs[j]? = some envs[j] := by rw [he]; exact List.getElem?_eq_getElem hj
    by_cases hja : j < acts.length
    · rw [dif_pos ⟨by omega, hj, hja⟩] at h5
      simp only [hs] at h5
      simp only [slot, slotOf] at h5
      rw [h5, List.getElem?_eq_getElem hja]
      unfold nextS
      simp only
      generalize g.step envs[j] acts[j] = t
      obtain ⟨s1, o, r, b, i⟩ := t
      cases b <;> rfl
    · rw [dif_neg (by omega)] at h5
      simp only [slot, hs] at h5
      rw [h5, List.getElem?_eq_none (by omega)]

/-! ### `SubprocVecEnv` -/

variable {n : ℕ}

/-- The answers to a list of messages, and the state after them. -/
def process (g : Gym S A O K I) : S → List (Msg A) → S × List (Reply O K I)
  | s, [] => (s, [])
  | s, m :: ms => ((process g (handle g s m).1 ms).1, (handle g s m).2 :: (process g (handle g s m).1 ms).2)

theorem process_append (g : Gym S A O K I) (m : Msg A) : ∀ (ms : List (Msg A)) (s : S),
    process g s (ms ++ [m]) = ((handle g (process g s ms).1 m).1, (process g s ms).2 ++ [(handle g (process g s ms).1 m).2]) := by
  intro ms
  induction ms with
  | nil => intro s; rfl
  | cons a ms ih => intro s; simp [process, ih]

/-- The main program alone, with processes that answer at once: what it receives, or nothing if it waits for an answer that never comes. -/
def ideal (g : Gym S A O K I) : (Fin n → S) → (Fin n → List (Reply O K I)) → List (Op n A) → Option (List (Fin n × Reply O K I))
  | _, _, [] => some []
  | σ, p, .send i m :: ops => ideal g (Function.update σ i (handle g (σ i) m).1) (Function.update p i (p i ++ [(handle g (σ i) m).2])) ops
  | σ, p, .recv i :: ops =>
    match p i with
    | [] => none
    | r :: out => (ideal g σ (Function.update p i out) ops).map ((i, r) :: ·)

/-- The states once all messages under way are handled. -/
def fin (g : Gym S A O K I) (y : Sys n S A O K I) : Fin n → S := fun i => (process g (y.ws i).s (y.ws i).inbox).1
/-- The answers under way and to come. -/
def pend (g : Gym S A O K I) (y : Sys n S A O K I) : Fin n → List (Reply O K I) := fun i => (y.ws i).outbox ++ (process g (y.ws i).s (y.ws i).inbox).2

def outcome (g : Gym S A O K I) (y : Sys n S A O K I) : Option (List (Fin n × Reply O K I)) := (ideal g (fin g y) (pend g y) y.ops).map (y.log ++ ·)

theorem outcome_step {g : Gym S A O K I} {y z : Sys n S A O K I} (h : Step g y z) : outcome g z = outcome g y := by
  cases h with
  | send i m ops h =>
    unfold outcome
    simp only [h, ideal]
    congr 2
    · funext j
      unfold fin
      by_cases hj : j = i
      · subst hj; simp [process_append]
      · simp [hj]
    · funext j
      unfold pend fin
      by_cases hj : j = i
      · subst hj; simp [process_append]
      · simp [hj]
  | recv i r out ops h hr =>
    unfold outcome
    have hp : pend g y i = r :: (out ++ (process g (y.ws i).s (y.ws i).inbox).2) := by unfold pend; rw [hr]; rfl
    simp only [h, ideal, hp, Option.map_map]
    have e1 : fin g { y with ops := ops, log := y.log ++ [(i, r)], ws := Function.update y.ws i { y.ws i with outbox := out } } = fin g y := by
      funext j
      unfold fin
      by_cases hj : j = i
      · subst hj; simp
      · simp [hj]
    have e2 : pend g { y with ops := ops, log := y.log ++ [(i, r)], ws := Function.update y.ws i { y.ws i with outbox := out } } =
        Function.update (pend g y) i (out ++ (process g (y.ws i).s (y.ws i).inbox).2) := by
      funext j
      unfold pend
      by_cases hj : j = i
      · subst hj; simp
      · simp [hj]
    rw [e1, e2]
    congr 1
    funext l
    simp
  | work i m rest h =>
    unfold outcome
    simp only
    congr 2
    · funext j
      unfold fin
      by_cases hj : j = i
      · subst hj; simp [h, process]
      · simp [hj]
    · funext j
      unfold pend
      by_cases hj : j = i
      · subst hj; simp [h, process]
      · simp [hj]

theorem outcome_steps {g : Gym S A O K I} {y z : Sys n S A O K I} (h : Relation.ReflTransGen (Step g) y z) : outcome g z = outcome g y := by
  induction h with
  | refl => rfl
  | tail _ h ih => rw [outcome_step h, ih]

/-- A system with an outcome is finished or can move. -/
theorem progress {g : Gym S A O K I} {y : Sys n S A O K I} (h : outcome g y ≠ none) (hs : ∀ z, ¬ Step g y z) : y.ops = [] := by
  by_contra hne
  obtain ⟨op, ops, hop⟩ := List.exists_cons_of_ne_nil hne
  cases op with
  | send i m => exact hs _ (Step.send y i m ops hop)
  | recv i =>
    cases hout : (y.ws i).outbox with
    | cons r out => exact hs _ (Step.recv y i r out ops hop hout)
    | nil =>
      cases hin : (y.ws i).inbox with
      | cons m rest => exact hs _ (Step.work y i m rest hin)
      | nil =>
        refine h ?_
        have hp : pend g y i = [] := by unfold pend; rw [hout, hin]; rfl
        unfold outcome
        rw [hop]
        simp [ideal, hp]

/-- Work left: twice the operations of the main program plus the messages not yet handled. -/
def load (y : Sys n S A O K I) : ℕ := 2 * y.ops.length + ∑ i, (y.ws i).inbox.length

theorem load_update (ws : Fin n → Worker S A O K I) (i : Fin n) (w : Worker S A O K I) :
    ∑ j, (Function.update ws i w j).inbox.length + (ws i).inbox.length = ∑ j, (ws j).inbox.length + w.inbox.length := by
  have h1 := Fintype.sum_eq_add_sum_compl i (fun j => (Function.update ws i w j).inbox.length)
  have h2 := Fintype.sum_eq_add_sum_compl i (fun j => (ws j).inbox.length)
  have h3 : ∑ j ∈ {i}ᶜ, (Function.update ws i w j).inbox.length = ∑ j ∈ {i}ᶜ, (ws j).inbox.length := by
    refine Finset.sum_congr rfl fun j hj => ?_
    rw [Function.update_of_ne (by simpa using hj)]
  rw [h1, h2, h3, Function.update_self]
  omega

theorem load_step {g : Gym S A O K I} {y z : Sys n S A O K I} (h : Step g y z) : load z < load y := by
  cases h with
  | send i m ops h =>
    have := load_update y.ws i { y.ws i with inbox := (y.ws i).inbox ++ [m] }
    unfold load
    simp only [h, List.length_cons, List.length_append, List.length_nil] at this ⊢
    omega
  | recv i r out ops h hr =>
    have := load_update y.ws i { y.ws i with outbox := out }
    unfold load
    simp only [h, List.length_cons] at this ⊢
    omega
  | work i m rest h =>
    have := load_update y.ws i { s := (handle g (y.ws i).s m).1, inbox := rest, outbox := (y.ws i).outbox ++ [(handle g (y.ws i).s m).2] }
    unfold load
    simp only [h, List.length_cons] at this ⊢
    omega

/-! The outcome of the main program. -/

theorem ideal_sends (g : Gym S A O K I) (m : Fin n → Msg A) (rest : List (Op n A)) : ∀ (L : List (Fin n)), L.Nodup → ∀ (σ : Fin n → S) (p : Fin n → List (Reply O K I)),
    ideal g σ p (L.map (fun i => .send i (m i)) ++ rest) =
      ideal g (fun i => if i ∈ L then (handle g (σ i) (m i)).1 else σ i) (fun i => if i ∈ L then p i ++ [(handle g (σ i) (m i)).2] else p i) rest := by
  intro L
  induction L with
  | nil => intro _ σ p; simp
  | cons a L ih =>
    intro hn σ p
    rw [List.nodup_cons] at hn
    rw [List.map_cons, List.cons_append, ideal, ih hn.2]
    congr 1
    · funext i
      by_cases hi : i = a
      · subst hi; simp [hn.1]
      · simp [hi]
    · funext i
      by_cases hi : i = a
      · subst hi; simp [hn.1]
      · simp [hi]

theorem ideal_recvs (g : Gym S A O K I) (σ : Fin n → S) (r : Fin n → Reply O K I) (rest : List (Op n A)) : ∀ (L : List (Fin n)), L.Nodup → ∀ (p : Fin n → List (Reply O K I)),
    (∀ i ∈ L, p i = [r i]) → ideal g σ p (L.map .recv ++ rest) = (ideal g σ (fun i => if i ∈ L then [] else p i) rest).map (L.map (fun i => (i, r i)) ++ ·) := by
  intro L
  induction L with
  | nil => intro _ p _; simp
  | cons a L ih =>
    intro hn p hp
    rw [List.nodup_cons] at hn
    rw [List.map_cons, List.cons_append, ideal, hp a (by simp)]
    simp only
    rw [ih hn.2 _ ?_, Option.map_map]
    · congr 1
      congr 1
      funext i
      by_cases hi : i = a
      · subst hi; simp [hn.1]
      · simp [hi]
    · intro i hi
      rw [Function.update_of_ne (show i ≠ a from fun h => hn.1 (h ▸ hi))]
      exact hp i (by simp [hi])

theorem ideal_stuck (g : Gym S A O K I) (σ : Fin n → S) (rest : List (Op n A)) (j : Fin n) : ∀ (L : List (Fin n)), j ∈ L → ∀ (p : Fin n → List (Reply O K I)), p j = [] →
    ideal g σ p (L.map .recv ++ rest) = none := by
  intro L
  induction L with
  | nil => intro h; cases h
  | cons a L ih =>
    intro h p hp
    rw [List.map_cons, List.cons_append, ideal]
    split
    · rfl
    · rename_i r out hpa
      rcases List.mem_cons.1 h with h | h
      · subst h; rw [hp] at hpa; cases hpa
      · rw [ih h]
        · rfl
        · by_cases hj : j = a
          · subst hj; rw [hp] at hpa; cases hpa
          · rw [Function.update_of_ne hj]; exact hp

theorem ideal_some_sends (g : Gym S A O K I) (rest : List (Op n A)) : ∀ (P : List (Fin n × A)) (σ : Fin n → S) (p : Fin n → List (Reply O K I)),
    ∃ σ' p', ideal g σ p (P.map (fun q => .send q.1 (.step q.2)) ++ rest) = ideal g σ' p' rest ∧ ∀ i, i ∉ P.map Prod.fst → p' i = p i := by
  intro P
  induction P with
  | nil => intro σ p; exact ⟨σ, p, rfl, fun _ _ => rfl⟩
  | cons q P ih =>
    intro σ p
    obtain ⟨σ', p', h1, h2⟩ := ih (Function.update σ q.1 (handle g (σ q.1) (.step q.2)).1) (Function.update p q.1 (p q.1 ++ [(handle g (σ q.1) (.step q.2)).2]))
    refine ⟨σ', p', ?_, ?_⟩
    · rw [List.map_cons, List.cons_append, ideal, h1]
    · intro i hi
      rw [List.map_cons, List.mem_cons, not_or] at hi
      rw [h2 i hi.2, Function.update_of_ne hi.1]

theorem stepAsync_eq {acts : List A} (ha : n ≤ acts.length) : (stepAsync acts : List (Op n A)) = (List.finRange n).map fun i => .send i (.step (acts[i.1]'(by omega))) := by
  unfold stepAsync
  refine List.ext_getElem (by simp; omega) ?_
  intro i h1 h2
  simp

/-- The answers of all processes to a command. -/
theorem ideal_cmd (g : Gym S A O K I) (σ : Fin n → S) (m : Fin n → Msg A) (rest : List (Op n A)) :
    ideal g σ (fun _ => []) ((List.finRange n).map (fun i => .send i (m i)) ++ (recvAll ++ rest)) =
      (ideal g (fun i => (handle g (σ i) (m i)).1) (fun _ => []) rest).map ((List.finRange n).map (fun i => (i, (handle g (σ i) (m i)).2)) ++ ·) := by
  rw [ideal_sends g m _ _ (List.nodup_finRange n)]
  unfold recvAll
  rw [ideal_recvs g _ (fun i => (handle g (σ i) (m i)).2) rest _ (List.nodup_finRange n) _ (by simp)]
  simp [List.mem_finRange]

/-- An answer of the vector, as the messages it is made of. -/
def messages (n : ℕ) : Resp O K I → List (Fin n × Reply O K I)
  | .obs l => List.zip (List.finRange n) (l.map .obs)
  | .rows l => List.zip (List.finRange n) (l.map .row)

theorem zip_ofFn {α : Type} (f : Fin n → α) : List.zip (List.finRange n) (List.ofFn f) = (List.finRange n).map fun i => (i, f i) := by
  refine List.ext_getElem (by simp) ?_
  intro i h1 h2
  simp

theorem handle_step (g : Gym S A O K I) (s : S) (a : A) : handle g s (.step a) = (nextS g s a, .row (nextRow g s a)) := by
  unfold handle nextS nextRow
  simp only
  generalize g.step s a = t
  obtain ⟨s1, o, r, b, i⟩ := t
  cases b <;> rfl

theorem ideal_run (g : Gym S A O K I) : ∀ (cmds : List (Cmd A)) (σ : Fin n → S) (d : Dummy S A O K I), Wf d n → d.envs = List.ofFn σ → Enough n cmds →
    ∃ d' rs, run g id d cmds = .ok (d', rs) ∧ ideal g σ (fun _ => []) (cmds.flatMap compile) = some (rs.flatMap (messages n)) := by
  intro cmds
  induction cmds with
  | nil => intro σ d _ _ _; exact ⟨d, [], rfl, rfl⟩
  | cons c cs ih =>
    intro σ d h he hc
    obtain ⟨h1, h2⟩ := enough_cons hc
    cases c with
    | reset =>
      obtain ⟨d1, e1, w1, e2⟩ := exec_reset g id h he
      obtain ⟨d2, rs, r1, r2⟩ := ih _ d1 w1 e2 h2
      refine ⟨d2, .obs (List.ofFn fun i => (g.reset (σ i)).2) :: rs, ?_, ?_⟩
      · rw [run, e1]; simp only; rw [r1]
      · rw [List.flatMap_cons, compile, List.append_assoc, ideal_cmd]
        simp only [handle]
        rw [r2, Option.map_some, List.flatMap_cons, messages, List.map_ofFn, zip_ofFn]
        rfl
    | step acts =>
      have ha := h1 acts rfl
      obtain ⟨d1, e1, w1, e2⟩ := exec_step g id h he ha
      obtain ⟨d2, rs, r1, r2⟩ := ih _ d1 w1 e2 h2
      refine ⟨d2, .rows (List.ofFn fun i : Fin n => nextRow g (σ i) (acts[i.1]'(by omega))) :: rs, ?_, ?_⟩
      · rw [run, e1]; simp only; rw [r1]; rfl
      · rw [List.flatMap_cons, compile, List.append_assoc, stepAsync_eq ha, ideal_cmd]
        simp only [handle_step]
        rw [r2, Option.map_some, List.flatMap_cons, messages, List.map_ofFn, zip_ofFn]
        rfl

theorem ideal_short (g : Gym S A O K I) : ∀ (cmds : List (Cmd A)) (σ : Fin n → S), ¬ Enough n cmds → ideal (O := O) (K := K) (I := I) g σ (fun _ => []) (cmds.flatMap compile) = none := by
  intro cmds
  induction cmds with
  | nil => intro σ h; exact absurd (fun acts hm => by cases hm) h
  | cons c cs ih =>
    intro σ h
    rw [List.flatMap_cons]
    have tail : (∀ acts, c = .step acts → n ≤ acts.length) → ¬ Enough n cs := by
      intro h1 h2
      refine h fun acts hm => ?_
      rcases List.mem_cons.1 hm with hm | hm
      · exact h1 acts hm.symm
      · exact h2 acts hm
    cases c with
    | reset =>
      rw [compile, List.append_assoc, ideal_cmd, ih _ (tail fun acts hc => by cases hc)]
      rfl
    | step acts =>
      rw [compile, List.append_assoc]
      by_cases ha : n ≤ acts.length
      · rw [stepAsync_eq ha, ideal_cmd, ih _ (tail fun acts hc => by cases hc; exact ha)]
        rfl
      · unfold stepAsync
        obtain ⟨σ', p', h1, h2⟩ := ideal_some_sends (O := O) (K := K) (I := I) g (recvAll ++ cs.flatMap compile) (List.zip (List.finRange n) acts) σ (fun _ => [])
        rw [h1]
        unfold recvAll
        refine ideal_stuck g σ' _ ⟨acts.length, by omega⟩ _ (List.mem_finRange _) p' (h2 _ ?_)
        intro hm
        obtain ⟨q, hq, he⟩ := List.mem_map.1 hm
        obtain ⟨k, hk, hkq⟩ := List.mem_iff_getElem.1 hq
        rw [← hkq] at he
        simp only [List.getElem_zip, List.getElem_finRange] at he
        have := congrArg Fin.val he
        simp at this
        simp at hk
        omega

/-- **C91.** `SubprocVecEnv` with an action for every environment: whatever the interleaving of the processes, the system only stops when all calls have been
answered, and the answers, in the order of the environments, are those of a `DummyVecEnv` over the same environments that does not round. -/
theorem C91_processes (g : Gym S A O K I) (o0 : O) (k0 : K) (i0 : I) (envs : Fin (n + 1) → S) {cmds : List (Cmd A)} (hc : Enough (n + 1) cmds) :
    ∃ d d' rs, create o0 k0 i0 (List.ofFn envs) = .ok d ∧ run g id d cmds = .ok (d', rs) ∧
      ∀ y, Relation.ReflTransGen (Step g) (boot envs cmds) y → ((∀ z, ¬ Step g y z) ↔ y.ops = [] ∧ ∀ i, (y.ws i).inbox = []) ∧ (y.ops = [] → y.log = rs.flatMap (messages (n + 1))) := by
  have hne : List.ofFn envs ≠ [] := by simp
  have hcr : ∃ d : Dummy S A O K I, create o0 k0 i0 (List.ofFn envs) = .ok d := by
    cases h : List.ofFn envs with
    | nil => exact absurd h hne
    | cons a as => exact ⟨_, rfl⟩
  obtain ⟨d, hd⟩ := hcr
  obtain ⟨hw, he, _⟩ := wf_create hd
  rw [List.length_ofFn] at hw
  obtain ⟨d', rs, r1, r2⟩ := ideal_run g cmds envs d hw he hc
  refine ⟨d, d', rs, hd, r1, ?_⟩
  intro y hy
  have ho : outcome g y = some (rs.flatMap (messages (n + 1))) := by
    rw [outcome_steps hy]
    unfold outcome
    have e1 : fin g (boot (O := O) (K := K) (I := I) envs cmds) = envs := rfl
    have e2 : pend g (boot (O := O) (K := K) (I := I) envs cmds) = fun _ => [] := rfl
    rw [e1, e2]
    show Option.map _ (ideal g envs (fun _ => []) (cmds.flatMap compile)) = _
    rw [r2]
    rfl
  refine ⟨⟨fun hs => ⟨progress (by rw [ho]; simp) hs, ?_⟩, ?_⟩, ?_⟩
  · intro i
    cases hin : (y.ws i).inbox with
    | nil => rfl
    | cons m rest => exact absurd (Step.work y i m rest hin) (hs _)
  · rintro ⟨h1, h2⟩ z hz
    cases hz with
    | send i m ops h => rw [h1] at h; cases h
    | recv i r out ops h hr => rw [h1] at h; cases h
    | work i m rest h => rw [h2 i] at h; cases h
  · intro hops
    unfold outcome at ho
    rw [hops] at ho
    simpa [ideal] using ho

/-- **C91.** No interleaving goes on for ever. -/
theorem C91_terminates (g : Gym S A O K I) (y : ℕ → Sys n S A O K I) : ¬ ∀ k, Step g (y k) (y (k + 1)) := by
  intro h
  have : ∀ k, load (y k) + k ≤ load (y 0) := by
    intro k
    induction k with
    | zero => rfl
    | succ k ih => have := load_step (h k); omega
  have := this (load (y 0) + 1)
  omega

/-- **C91, defect.** With fewer actions than environments in any call `SubprocVecEnv` does not raise: it waits for ever for an answer nobody will send. -/
theorem C91_hangs (g : Gym S A O K I) (envs : Fin n → S) {cmds : List (Cmd A)} (hc : ¬ Enough n cmds) (y : Sys n S A O K I)
    (hy : Relation.ReflTransGen (Step g) (boot envs cmds) y) : y.ops ≠ [] := by
  intro hops
  have ho : outcome g y = none := by
    rw [outcome_steps hy]
    unfold outcome
    have e1 : fin g (boot (O := O) (K := K) (I := I) envs cmds) = envs := rfl
    have e2 : pend g (boot (O := O) (K := K) (I := I) envs cmds) = fun _ => [] := rfl
    rw [e1, e2]
    show Option.map _ (ideal g envs (fun _ => []) (cmds.flatMap compile)) = _
    rw [ideal_short g cmds envs hc]
    rfl
  unfold outcome at ho
  rw [hops] at ho
  simp [ideal] at ho

/-- **C91.** `seed(s)` gives every environment its own seed, counting up from `s`; `seed(None)`, which the documentation allows, is a type error (defect). -/
theorem C91_seeds (n : ℕ) (s : ℤ) : (∃ l, seeds n (some s) = .ok l ∧ l.length = n ∧ l.Nodup ∧ ∀ (i : ℕ) (hi : i < n), l[i]? = some (s + i)) ∧ seeds (n + 1) none = .error .typeError := by
  refine ⟨⟨_, rfl, by simp, ?_, ?_⟩, rfl⟩
  · exact List.Nodup.map (f := fun idx : ℕ => s + (idx : ℤ)) (fun a b h => by simpa using h) List.nodup_range
  · intro i hi
    simp [hi]

end

/-! ### A case -/

/-- An environment that counts its steps and whose episode ends when the sum of its actions reaches 3. -/
def exG : Gym (ℕ × ℕ) ℕ ℕ ℤ Unit where
  step := fun s a => ((s.1 + 1, s.2 + a), s.2 + a, a, decide (3 ≤ s.2 + a), ())
  reset := fun s => ((s.1, 0), 0)

example : (match create 0 0 () [(0, 0), (5, 2)] with
    | .ok d => (match run exG id d [.reset, .step [1, 3], .step [2, 0]] with
      | .ok (_, rs) => decide (rs = [.obs [0, 0], .rows [⟨1, 1, false, (), none⟩, ⟨0, 3, true, (), some 3⟩], .rows [⟨0, 2, true, (), some 3⟩, ⟨0, 0, false, (), none⟩]])
      | _ => false)
    | _ => false) = true := by decide +kernel

example : Enough 2 ([.reset, .step [1, 3], .step [2, 0]] : List (Cmd ℕ)) ∧ ¬ Enough 2 ([.reset, .step [1]] : List (Cmd ℕ)) := by
  refine ⟨?_, ?_⟩
  · intro acts h
    simp at h
    rcases h with rfl | rfl <;> simp
  · intro h
    have := h [1] (by simp)
    simp at this

end Neorl.VecEnv

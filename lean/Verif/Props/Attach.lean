import Verif.Attach

/-!
# C118: the environment of a model

Properties of `Verif.Attach`.
-/

set_option linter.unusedSectionVars false
set_option linter.unusedVariables false
set_option linter.unusedSimpArgs false

namespace Neorl.Attach

variable {S A N : Type} [DecidableEq S] [DecidableEq A]

/-- The environment underneath. -/
def Att.base : Att S A N → EnvD S A N
  | .plain e => e
  | .dummy e => e
  | .unvec e => e

/-- How many environments an environment stands for. -/
def Count (e : EnvD S A N) : ℕ := if e.vec then e.num else 1

/-- A model is coherent: its environment has its spaces, `n_envs` is the number of environments, a model that needs a vectorised environment has one,
any other model has a single environment; the normalisation object is that of the environment; rewards are kept for each environment;
a runner belongs to the present environment. -/
structure Coherent (m : Model S A N) : Prop where
  spaces : ∀ a, m.env = some a → m.obs = some a.base.obs ∧ m.act = some a.base.act
  count : ∀ a, m.env = some a → m.nEnvs = some (Count a.base)
  needed : ∀ a, m.env = some a → m.requires = true → a.isVec = true ∧ a.num = Count a.base
  single : ∀ a, m.env = some a → m.requires = false → Count a.base = 1 ∧ (a.isVec = true → a.num = 1)
  vectorize : ∀ a, m.env = some a → m.requires = false → m.vectorize = a.base.vec
  never : m.requires = true → m.vectorize = false
  norm : m.norm = m.env.bind fun a => if a.base.vec then a.base.norm else none
  rewards : ∀ r, m.epReward = some r → ∃ a, m.env = some a ∧ r.length = Count a.base
  runner : ∀ r, m.runner = some r → m.env = some r.1 ∧ r.2 = r.1.num

theorem coherent_blank (q c : Bool) (n : ℕ) : Coherent (blank q c n : Model S A N) := by
  constructor <;> simp [blank]

/-- **C118 (construct).** A model that could be constructed is coherent, and attached to the environment given. -/
theorem C118_construct (q c : Bool) (n : ℕ) (e : Option (EnvD S A N)) (m : Model S A N) (h : construct q c n e = .ok m) :
    Coherent m ∧ m.requires = q ∧ m.env.map Att.base = e := by
  cases e with
  | none =>
    simp only [construct, Except.ok.injEq] at h
    subst h
    exact ⟨coherent_blank q c n, rfl, rfl⟩
  | some e =>
    cases q <;> cases hv : e.vec <;> simp only [construct, hv, if_true, if_false, Bool.false_eq_true] at h
    · simp only [Except.ok.injEq] at h
      subst h
      refine ⟨?_, rfl, rfl⟩
      constructor <;> simp [blank, Att.base, Count, hv, Att.isVec, Att.norm]
    · split at h
      · rename_i hn
        simp only [Except.ok.injEq] at h
        subst h
        refine ⟨?_, rfl, rfl⟩
        constructor <;> simp [blank, Att.base, Count, hv, Att.isVec, Att.norm, Att.num, hn]
      · cases h
    · simp only [Except.ok.injEq] at h
      subst h
      refine ⟨?_, rfl, rfl⟩
      constructor <;> simp [blank, Att.base, Count, hv, Att.isVec, Att.norm, Att.num]
    · simp only [Except.ok.injEq] at h
      subst h
      refine ⟨?_, rfl, rfl⟩
      constructor <;> simp [blank, Att.base, Count, hv, Att.isVec, Att.norm, Att.num]

/-- **C118 (name).** A model constructed with the name of an environment is coherent, whether it needs a vectorised environment or not, and has one environment. -/
theorem C118_name (make : List Char → Py (EnvD S A N)) (q c : Bool) (n : ℕ) (name : List Char) (e : EnvD S A N) (h : make name = .ok e) :
    ∃ m, constructName make q c n name = .ok m ∧ Coherent m ∧ m.nEnvs = some 1 ∧ m.obs = some e.obs ∧ m.act = some e.act := by
  obtain ⟨m, hm⟩ : ∃ m, constructName make q c n name = .ok m := by
    simp only [constructName, h, construct]
    cases q <;> exact ⟨_, rfl⟩
  refine ⟨m, hm, ?_⟩
  simp only [constructName, h] at hm
  obtain ⟨h1, _, h3⟩ := C118_construct q c n _ m hm
  obtain ⟨a, ha, hb⟩ := Option.map_eq_some_iff.1 h3
  have := h1.spaces a ha
  have hc := h1.count a ha
  rw [hb] at this hc
  exact ⟨h1, by simpa [Count] using hc, this.1, this.2⟩

/-- When an environment fits a model: same spaces; vectorised if the model needs that, with the old number of environments if the policy is recurrent;
otherwise a single environment. -/
def Fits (m : Model S A N) (e : EnvD S A N) : Prop :=
  m.obs = some e.obs ∧ m.act = some e.act ∧
    (if m.requires then e.vec = true ∧ (m.recurrent = true → m.nEnvs = some e.num) else Count e = 1)

theorem setEnv_cases (m : Model S A N) (e : EnvD S A N) :
    (Fits m e ∧ ∃ a, setEnv m (some e) = (install { m with nEnvs := some (Count e), vectorize := if m.requires then m.vectorize else e.vec } a, none) ∧
      a = if m.requires then .plain e else if e.vec then .unvec e else .plain e) ∨
    (¬ Fits m e ∧ ∃ x, setEnv m (some e) = (m, some x)) := by
  by_cases h1 : m.obs = some e.obs
  swap
  · exact .inr ⟨fun h => h1 h.1, .assertion, by simp [setEnv, h1]⟩
  by_cases h2 : m.act = some e.act
  swap
  · exact .inr ⟨fun h => h2 h.2.1, .assertion, by simp [setEnv, h1, h2]⟩
  cases hr : m.requires with
  | true =>
    cases hv : e.vec with
    | false => exact .inr ⟨fun h => by have := h.2.2; rw [hr] at this; simp [hv] at this, .assertion, by simp [setEnv, h1, h2, hr, hv]⟩
    | true =>
      by_cases h3 : m.recurrent = true ∧ m.nEnvs ≠ some e.num
      · exact .inr ⟨fun h => by
          have := h.2.2
          rw [hr] at this
          simp only [if_true] at this
          exact h3.2 (this.2 h3.1), .assertion, by simp [setEnv, h1, h2, hr, hv, h3.1, h3.2]⟩
      · refine .inl ⟨⟨h1, h2, ?_⟩, _, ?_, rfl⟩
        · rw [hr]
          simp only [if_true, hv, true_and]
          intro hc
          by_contra h
          exact h3 ⟨hc, h⟩
        · have : (m.recurrent && decide (m.nEnvs ≠ some e.num)) = false := by
            cases hc : m.recurrent with
            | false => rfl
            | true =>
              have : m.nEnvs = some e.num := by
                by_contra h
                exact h3 ⟨hc, h⟩
              simp [this]
          simp only [setEnv, h1, h2, hr, hv, this, Count, ne_eq, not_true_eq_false, if_false, if_true, Bool.not_true, Bool.false_eq_true]
  | false =>
    cases hv : e.vec with
    | false =>
      refine .inl ⟨⟨h1, h2, by rw [hr]; simp [Count, hv]⟩, _, ?_, rfl⟩
      simp [setEnv, h1, h2, hr, hv, Count]
    | true =>
      by_cases h3 : e.num = 1
      · refine .inl ⟨⟨h1, h2, by rw [hr]; simp [Count, hv, h3]⟩, _, ?_, rfl⟩
        simp [setEnv, h1, h2, hr, hv, h3, Count]
      · exact .inr ⟨fun h => by have := h.2.2; rw [hr] at this; simp [Count, hv, h3] at this, .valueError, by simp [setEnv, h1, h2, hr, hv, h3]⟩

/-- **C118 (accept).** `set_env` accepts exactly the environments that fit. -/
theorem C118_accept (m : Model S A N) (e : EnvD S A N) : (setEnv m (some e)).2 = none ↔ Fits m e := by
  rcases setEnv_cases m e with ⟨h, a, h1, _⟩ | ⟨h, x, h1⟩ <;> simp [h1, h]

/-- **C118 (refused).** A refused environment leaves the model as it was. -/
theorem C118_refused (m : Model S A N) (e : Option (EnvD S A N)) (h : (setEnv m e).2 ≠ none) : (setEnv m e).1 = m := by
  cases e with
  | none =>
    simp only [setEnv] at h ⊢
    split <;> rfl
  | some e =>
    rcases setEnv_cases m e with ⟨_, a, h1, _⟩ | ⟨_, x, h1⟩
    · rw [h1] at h; exact absurd rfl h
    · rw [h1]

theorem setEnv_coherent (m : Model S A N) (hm : Coherent m) (hr : m.runner = none) (e : Option (EnvD S A N)) : Coherent (setEnv m e).1 := by
  cases e with
  | none =>
    simp only [setEnv]
    split <;> exact hm
  | some e =>
    rcases setEnv_cases m e with ⟨h, a, h1, ha⟩ | ⟨_, x, h1⟩
    swap
    · rw [h1]; exact hm
    rw [h1]
    obtain ⟨f1, f2, f3⟩ := h
    cases hq : m.requires <;> cases hv : e.vec <;> simp only [hq, hv, if_true, if_false, Bool.false_eq_true] at ha f3 <;> subst ha
    · constructor <;> simp [install, Att.base, Count, hv, Att.isVec, Att.norm, Att.num, f1, f2, hq, hr]
    · have : e.num = 1 := by simpa [Count, hv] using f3
      constructor <;> simp [install, Att.base, Count, hv, Att.isVec, Att.norm, Att.num, f1, f2, hq, hr, this]
    · simp at f3
    · have := hm.never hq
      constructor <;> simp [install, Att.base, Count, hv, Att.isVec, Att.norm, Att.num, f1, f2, hq, hr, this]

theorem setEnvAC_coherent (m : Model S A N) (hm : Coherent m) (e : Option (EnvD S A N)) : Coherent (setEnvAC m e).1 := by
  refine setEnv_coherent { m with runner := none } ?_ rfl e
  obtain ⟨a1, a2, a3, a4, a5, a6, a7, a8, a9⟩ := hm
  exact ⟨a1, a2, a3, a4, a5, a6, a7, a8, by simp⟩

theorem setEnvACER_coherent (m : Model S A N) (hm : Coherent m) (e : Option (EnvD S A N)) : Coherent (setEnvACER m e).1 := by
  cases e with
  | none => exact setEnvAC_coherent m hm none
  | some e =>
    simp only [setEnvACER]
    split
    · exact hm
    · split
      · exact hm
      · exact setEnvAC_coherent m hm (some e)

theorem setupLearn_coherent (m m' : Model S A N) (hm : Coherent m) (h : setupLearn m = .ok m') :
    Coherent m' ∧ m'.env = m.env ∧ m'.nEnvs = m.nEnvs ∧ m'.nBatch = m.nBatch ∧ m'.nSteps = m.nSteps ∧ m'.runner = m.runner ∧ ∃ r, m'.epReward = some r := by
  simp only [setupLearn] at h
  split at h
  · cases h
  · cases h
  rename_i a n he hn
  simp only [Except.ok.injEq] at h
  cases hr : m.epReward with
  | some r =>
    rw [hr] at h
    simp only at h
    subst h
    exact ⟨hm, rfl, rfl, rfl, rfl, rfl, r, hr⟩
  | none =>
    rw [hr] at h
    simp only at h
    subst h
    refine ⟨?_, rfl, rfl, rfl, rfl, rfl, _, rfl⟩
    have hc := hm.count a he
    obtain ⟨a1, a2, a3, a4, a5, a6, a7, a8, a9⟩ := hm
    refine ⟨a1, a2, a3, a4, a5, a6, a7, ?_, a9⟩
    intro r hr
    simp only [Option.some.injEq] at hr
    subst hr
    refine ⟨a, he, ?_⟩
    rw [hn] at hc
    simpa using hc

theorem getRunner_coherent (m : Model S A N) (r : Model S A N × (Att S A N × ℕ)) (hm : Coherent m) (h : getRunner m = .ok r) :
    Coherent r.1 ∧ r.1.env = m.env ∧ m.env = some r.2.1 ∧ r.2.2 = r.2.1.num ∧ r.1.epReward = m.epReward := by
  simp only [getRunner] at h
  split at h
  · rename_i r0 hr
    simp only [Except.ok.injEq] at h
    subst h
    exact ⟨hm, rfl, (hm.runner r0 hr).1, (hm.runner r0 hr).2, rfl⟩
  · cases h
  · rename_i a hr ha
    simp only [Except.ok.injEq] at h
    subst h
    refine ⟨?_, rfl, ha, rfl, rfl⟩
    obtain ⟨a1, a2, a3, a4, a5, a6, a7, a8, a9⟩ := hm
    refine ⟨a1, a2, a3, a4, a5, a6, a7, a8, ?_⟩
    intro r hr
    simp only [Option.some.injEq] at hr
    subst hr
    exact ⟨ha, rfl⟩

/-- **C118 (session).** However often environments are attached (successfully or not) and learning is started, the model stays coherent:
in particular the runner always belongs to the present environment and rewards are kept for each of its environments.
This holds for the models with a runner (A2C, PPO2, ACKTR) and for ACER. -/
theorem C118_session (m : Model S A N) (hm : Coherent m) (l : List (Act S A N)) : Coherent (acts setEnvAC m l) ∧ Coherent (acts setEnvACER m l) := by
  have key : ∀ sets : Model S A N → Option (EnvD S A N) → Model S A N × Option PyErr, (∀ m e, Coherent m → Coherent (sets m e).1) →
      ∀ (l : List (Act S A N)) (m : Model S A N), Coherent m → Coherent (acts sets m l) := by
    intro sets hs l
    induction l with
    | nil => intro m hm; exact hm
    | cons a l ih =>
      intro m hm
      refine ih (act sets m a) ?_
      cases a with
      | set e => exact hs m e hm
      | learn =>
        simp only [act]
        split
        · exact hm
        · rename_i m1 h1
          have c1 := (setupLearn_coherent m m1 hm h1).1
          split
          · exact c1
          · rename_i r hr
            exact (getRunner_coherent m1 r c1 hr).1
  exact ⟨key setEnvAC (fun m e h => setEnvAC_coherent m h e) l m hm, key setEnvACER (fun m e h => setEnvACER_coherent m h e) l m hm⟩

/-- **C118 (fixed).** With a recurrent policy the number of environments never changes once there is one; with ACER never. -/
theorem C118_fixed (m : Model S A N) (hq : m.requires = true) (n : ℕ) (hn : m.nEnvs = some n) (e : Option (EnvD S A N)) :
    (m.recurrent = true → (setEnvAC m e).1.nEnvs = some n) ∧ (setEnvACER m e).1.nEnvs = some n := by
  have key : ∀ m : Model S A N, m.requires = true → m.nEnvs = some n → ∀ e : Option (EnvD S A N),
      (m.recurrent = true ∨ (∀ d, e = some d → d.vec = true → d.num = n)) → (setEnv m e).1.nEnvs = some n := by
    intro m hq hn e hor
    cases e with
    | none => simp only [setEnv]; split <;> exact hn
    | some e =>
      rcases setEnv_cases m e with ⟨h, a, h1, _⟩ | ⟨_, x, h1⟩
      · rw [h1]
        have h3 := h.2.2
        rw [hq] at h3
        simp only [if_true] at h3
        simp only [install, Count, h3.1, if_true, Option.some.injEq]
        rcases hor with hc | hd
        · have := h3.2 hc
          rw [hn] at this
          exact (Option.some.inj this).symm
        · exact hd e rfl h3.1
      · rw [h1]; exact hn
  refine ⟨fun hc => key { m with runner := none } hq hn e (.inl hc), ?_⟩
  cases e with
  | none => exact key { m with runner := none } hq hn none (.inr (by simp))
  | some e =>
    simp only [setEnvACER]
    split
    · exact hn
    · split
      · exact hn
      · rename_i h1 h2
        refine key { m with runner := none } hq hn (some e) (.inr ?_)
        intro d hd _
        cases hd
        simp only [ne_eq, not_not] at h2
        rw [hn] at h2
        exact (Option.some.inj h2).symm

/-- **C118 (without, defect).** A model constructed without environment accepts none: what the message announces (“until it has a valid environment”) never comes. -/
theorem C118_without (q c : Bool) (n : ℕ) (e : EnvD S A N) :
    setEnv (blank q c n : Model S A N) (some e) = (blank q c n, some .assertion) := by
  simp [setEnv, blank]

/-- **C118 (wrap, defect).** A model that needs a vectorised environment can be constructed with a plain one (which is then wrapped),
but the very same environment is refused by `set_env`; ACER even fails with an `AttributeError`. -/
theorem C118_wrap (c : Bool) (n : ℕ) (e : EnvD S A N) (hv : e.vec = false) :
    ∃ m : Model S A N, construct true c n (some e) = .ok m ∧ setEnvAC m (some e) = (m, some .assertion) ∧ setEnvACER m (some e) = (m, some .attributeError) := by
  obtain ⟨m, hm⟩ : ∃ m : Model S A N, construct true c n (some e) = .ok m := ⟨_, by simp only [construct, hv, if_true, if_false, Bool.false_eq_true]; rfl⟩
  refine ⟨m, hm, ?_, ?_⟩
  · simp only [construct, hv, if_true, if_false, Bool.false_eq_true, Except.ok.injEq] at hm
    subst hm
    simp [setEnvAC, setEnv, blank, hv]
  · simp [setEnvACER, hv]

/-- **C118 (lost, defect).** A refused environment still throws the runner away: the next `learn` starts new episodes in the old environment. -/
theorem C118_lost (m : Model S A N) (a : Att S A N) (ha : m.env = some a) : (setEnvAC m none).2 = some .valueError ∧ (setEnvAC m none).1.runner = none := by
  simp [setEnvAC, setEnv, ha]

/-! ### How many steps are taken -/

/-- The runner of a coherent model for which learning is set up. -/
theorem collected_eq (m : Model S A N) (hm : Coherent m) (a : Att S A N) (ha : m.env = some a) (hq : m.requires = true) (b : ℕ) (hb : m.nBatch = some b) (hb0 : b ≠ 0)
    (total : ℕ) : collected m total = .ok (total / b * (Count a.base * m.nSteps)) := by
  have hc := hm.count a ha
  obtain ⟨m1, h1⟩ : ∃ m1, setupLearn m = .ok m1 := by
    simp only [setupLearn, ha, hc]
    exact ⟨_, rfl⟩
  obtain ⟨c1, e1, e2, e3, e4, e5, _⟩ := setupLearn_coherent m m1 hm h1
  obtain ⟨r, hr⟩ : ∃ r, getRunner m1 = .ok r := by
    simp only [getRunner]
    split
    · exact ⟨_, rfl⟩
    · rename_i h; rw [e1, ha] at h; cases h
    · exact ⟨_, rfl⟩
  obtain ⟨_, _, g3, g4, _⟩ := getRunner_coherent m1 r c1 hr
  rw [e1, ha] at g3
  obtain rfl := Option.some.inj g3
  have hn : r.2.2 = Count r.2.1.base := g4.trans (hm.needed _ ha hq).2
  simp only [collected, bind, Except.bind, h1, hr, e3, hb, e4, hn]

theorem setBatch_eq (m : Model S A N) (n : ℕ) (hn : m.nEnvs = some n) : setBatch m = .ok { m with nBatch := some (n * m.nSteps) } := by
  unfold setBatch
  split
  · rename_i h; rw [hn] at h; cases h
  · rename_i k h
    rw [hn] at h
    cases h
    rfl

/-- **C118 (budget).** If the network was set up for the present environments (`setup_model` after the last change), learning takes no more steps than asked for,
and falls short by less than one rollout. -/
theorem C118_budget (m m1 : Model S A N) (hm : Coherent m) (a : Att S A N) (ha : m.env = some a) (hq : m.requires = true) (hs : 0 < m.nSteps) (hc : 0 < Count a.base)
    (h : setBatch m = .ok m1) (total : ℕ) : ∃ k, collected m1 total = .ok k ∧ k ≤ total ∧ total < k + Count a.base * m.nSteps := by
  have hn := hm.count a ha
  rw [setBatch_eq m _ hn] at h
  simp only [Except.ok.injEq] at h
  subst h
  have hm1 : Coherent { m with nBatch := some (Count a.base * m.nSteps) } := by
    obtain ⟨a1, a2, a3, a4, a5, a6, a7, a8, a9⟩ := hm
    exact ⟨a1, a2, a3, a4, a5, a6, a7, a8, a9⟩
  have hp : 0 < Count a.base * m.nSteps := Nat.mul_pos hc hs
  refine ⟨_, collected_eq { m with nBatch := some (Count a.base * m.nSteps) } hm1 a ha hq _ rfl hp.ne' total, ?_, ?_⟩
  · exact Nat.div_mul_le_self _ _
  · have := Nat.lt_div_mul_add hp (a := total)
    exact this

/-- **C118 (acktr).** ACKTR keeps the budget whatever environments were attached before. -/
theorem C118_acktr (m : Model S A N) (hm : Coherent m) (a : Att S A N) (ha : m.env = some a) (hq : m.requires = true) (hs : 0 < m.nSteps) (hc : 0 < Count a.base)
    (total : ℕ) : ∃ k, collectedACKTR m total = .ok k ∧ k ≤ total ∧ total < k + Count a.base * m.nSteps := by
  have hn := hm.count a ha
  obtain ⟨m1, h1⟩ : ∃ m1, setupLearn m = .ok m1 := by
    simp only [setupLearn, ha, hn]
    exact ⟨_, rfl⟩
  obtain ⟨c1, e1, e2, e3, e4, e5, _⟩ := setupLearn_coherent m m1 hm h1
  have hq1 : m1.requires = true := by
    simp only [setupLearn, ha, hn, Except.ok.injEq] at h1
    rw [← h1]
    split <;> exact hq
  obtain ⟨m2, h2⟩ : ∃ m2, setBatch m1 = .ok m2 := by
    exact ⟨_, setBatch_eq m1 _ (e2.trans hn)⟩
  obtain ⟨k, hk, k1, k2⟩ := C118_budget m1 m2 c1 a (e1.trans ha) hq1 (e4 ▸ hs) hc h2 total
  rw [e4] at k2
  refine ⟨k, ?_, k1, k2⟩
  simp only [collectedACKTR, bind, Except.bind, h1, h2]
  exact hk

/-- **C118 (stale, defect).** A2C and PPO2 keep the old `n_batch` when an environment of another size is attached (which is accepted if the policy is not recurrent):
learning then takes steps in the ratio of the sizes of what was asked for. -/
theorem C118_stale (m m1 : Model S A N) (hm : Coherent m) (a : Att S A N) (ha : m.env = some a) (hq : m.requires = true) (hc : m.recurrent = false)
    (h : setBatch m = .ok m1) (e : EnvD S A N) (ho : e.obs = a.base.obs) (hac : e.act = a.base.act) (hv : e.vec = true)
    (hs : Count a.base * m.nSteps ≠ 0) (total : ℕ) :
    ∃ m2, setEnvAC m1 (some e) = (m2, none) ∧ collected m2 total = .ok (total / (Count a.base * m.nSteps) * (e.num * m.nSteps)) := by
  have hn := hm.count a ha
  have hsp := hm.spaces a ha
  rw [setBatch_eq m _ hn] at h
  simp only [Except.ok.injEq] at h
  subst h
  have hm1 : Coherent { m with nBatch := some (Count a.base * m.nSteps) } := by
    obtain ⟨a1, a2, a3, a4, a5, a6, a7, a8, a9⟩ := hm
    exact ⟨a1, a2, a3, a4, a5, a6, a7, a8, a9⟩
  have hco := setEnvAC_coherent _ hm1 (some e)
  have heq : setEnvAC { m with nBatch := some (Count a.base * m.nSteps) } (some e) =
      (install { m with nBatch := some (Count a.base * m.nSteps), runner := none, nEnvs := some e.num } (.plain e), none) := by
    simp [setEnvAC, setEnv, hsp.1, hsp.2, ho, hac, hq, hc, hv]
  rw [heq] at hco
  refine ⟨_, heq, ?_⟩
  have := collected_eq _ hco (.plain e) rfl hq _ rfl hs total
  rw [this]
  simp [Att.base, Count, hv, install]

theorem mapM_index {X : Type} (rollout : List X) : ∀ l : List ℕ,
    ((∀ i ∈ l, i < rollout.length) → ∃ ys, (l.mapM fun i => match rollout[i]? with | some x => (.ok x : Py X) | none => .error .indexError) = .ok ys ∧
      List.Forall₂ (fun i y => rollout[i]? = some y) l ys) ∧
    ((∃ i ∈ l, rollout.length ≤ i) → (l.mapM fun i => match rollout[i]? with | some x => (.ok x : Py X) | none => .error .indexError) = .error .indexError)
  | [] => ⟨fun _ => ⟨[], rfl, .nil⟩, by simp⟩
  | i :: l => by
    obtain ⟨ih1, ih2⟩ := mapM_index rollout l
    constructor
    · intro h
      obtain ⟨ys, h1, h2⟩ := ih1 fun j hj => h j (by simp [hj])
      have hi := h i (by simp)
      refine ⟨rollout[i] :: ys, ?_, .cons (by simp [hi]) h2⟩
      rw [List.mapM_cons, List.getElem?_eq_getElem hi, h1]
      rfl
    · intro h
      rw [List.mapM_cons]
      by_cases hi : i < rollout.length
      · rw [List.getElem?_eq_getElem hi, ih2 ?_]
        · rfl
        · obtain ⟨j, hj, hl⟩ := h
          rcases List.mem_cons.1 hj with rfl | hj
          · omega
          · exact ⟨j, hj, hl⟩
      · rw [List.getElem?_eq_none (by omega)]
        rfl

theorem filterMap_range {X : Type} (rollout : List X) (b : ℕ) : (List.range b).filterMap (fun i => rollout[i]?) = rollout.take b := by
  induction b with
  | zero => simp
  | succ b ih => rw [List.range_succ, List.filterMap_append, ih, List.take_add_one, List.filterMap_cons, List.filterMap_nil]; cases rollout[b]? <;> rfl

/-- **C118 (dropped, defect).** After changing to an environment of another size, PPO2 either fails (fewer environments) or trains on the first `n_batch` samples
only, those of the first environments (more environments). -/
theorem C118_dropped {X : Type} (m : Model S A N) (rollout : List X) (b : ℕ) (hb : m.nBatch = some b) (shuf : List ℕ → List ℕ) (hs : ∀ l, (shuf l).Perm l) :
    (rollout.length < b → trained m rollout shuf = .error .indexError) ∧
    (b ≤ rollout.length → ∃ ys, trained m rollout shuf = .ok ys ∧ ys.Perm (rollout.take b)) := by
  simp only [trained, hb]
  constructor
  · intro h
    exact (mapM_index rollout (shuf (List.range b))).2 ⟨rollout.length, (hs _).mem_iff.2 (List.mem_range.2 h), le_rfl⟩
  · intro h
    obtain ⟨ys, h1, h2⟩ := (mapM_index rollout (shuf (List.range b))).1 fun i hi => lt_of_lt_of_le (List.mem_range.1 ((hs _).mem_iff.1 hi)) h
    refine ⟨ys, h1, ?_⟩
    have e1 : ∀ (l : List ℕ) (ys : List X), List.Forall₂ (fun i y => rollout[i]? = some y) l ys → ys = l.filterMap fun i => rollout[i]? := by
      intro l ys h
      induction h with
      | nil => rfl
      | cons h _ ih => rw [List.filterMap_cons_some h, ← ih]
    rw [e1 _ _ h2, ← filterMap_range]
    exact (hs _).filterMap _

/-- **C118 (samples).** If `n_batch` is the size of the rollout, PPO2 trains in every epoch on every sample of it exactly once. -/
theorem C118_samples {X : Type} (m : Model S A N) (rollout : List X) (hb : m.nBatch = some rollout.length) (shuf : List ℕ → List ℕ) (hs : ∀ l, (shuf l).Perm l) :
    ∃ ys, trained m rollout shuf = .ok ys ∧ ys.Perm rollout := by
  have := (C118_dropped m rollout _ hb shuf hs).2 le_rfl
  rwa [List.take_length] at this

/-! ### Verbosity -/

/-- **C118 (verbosity).** A silent region leaves the levels of both loggers as they were, whatever the code in it does, however regions are nested;
a region of verbosity 1 restores the TensorFlow variable. -/
theorem C118_verbosity (v : ℤ) (body : List Code) (s : Levels) :
    (v ≤ 0 → (Code.region v body |>.run s).log = s.log ∧ (Code.region v body |>.run s).gym = s.gym) ∧
    (v ≤ 1 → ∀ t, s.tf = some t → (Code.region v body |>.run s).tf = some t) := by
  constructor
  · intro h
    simp [Code.run, leave, h]
  · intro h t ht
    simp only [Code.run, leave, h, if_true, ht, Option.getD_some]
    split <;> rfl

/-- **C118 (silent).** Code at the start of a region of verbosity 0 finds both loggers disabled and TensorFlow's variable at 3, whatever they were before; in
a region of verbosity 1 only the variable is changed, in any other nothing. -/
theorem C118_silent (v : ℤ) (f g : Levels → Levels) (r : List Code) (s : Levels)
    (h : ∀ s' : Levels, (v ≤ 0 → s'.log = 50 ∧ s'.gym = 50) → (v ≤ 1 → s'.tf = some "3".toList) → (1 ≤ v → s'.log = s.log ∧ s'.gym = s.gym) → (2 ≤ v → s' = s) → f s' = g s') :
    (Code.region v (.change f :: r)).run s = (Code.region v (.change g :: r)).run s := by
  simp only [Code.run, runAll]
  rw [h]
  · intro hv; simp [enter, hv]
  · intro hv
    simp only [enter, hv, if_true]
    split <;> rfl
  · intro hv
    have : ¬ v ≤ 0 := by omega
    simp only [enter, this, if_false]
    split <;> exact ⟨rfl, rfl⟩
  · intro hv
    simp [enter, show ¬ v ≤ 0 by omega, show ¬ v ≤ 1 by omega]

/-- Code that itself only consists of regions. -/
inductive Quiet : Code → Prop
  | region (v : ℤ) (body : List Code) (h : ∀ c ∈ body, Quiet c) : Quiet (.region v body)

/-- **C118 (nested).** Code made of regions alone has no effect on the levels, whatever the verbosities, if the TensorFlow variable is set. -/
theorem C118_nested (c : Code) (h : Quiet c) (s : Levels) (t : List Char) (ht : s.tf = some t) : c.run s = s := by
  have key : ∀ (c : Code), Quiet c → ∀ s : Levels, s.tf ≠ none → c.run s = s := by
    intro c h
    induction h with
    | region v body _ ih =>
      intro s hs
      have hall : ∀ l : List Code, (∀ c ∈ l, c ∈ body) → ∀ s : Levels, s.tf ≠ none → runAll l s = s := by
        intro l
        induction l with
        | nil => intro _ s _; rfl
        | cons c l ihl =>
          intro hl s hs
          rw [runAll, ih c (hl c (by simp)) s hs]
          exact ihl (fun c hc => hl c (by simp [hc])) s hs
      have he : (enter v s).tf ≠ none := by
        simp only [enter]
        split <;> split <;> simp [hs]
      rw [Code.run, hall body (fun _ h => h) _ he]
      obtain ⟨tf, lg, gy⟩ := s
      cases tf with
      | none => exact absurd rfl hs
      | some t => simp only [leave, enter]; split <;> split <;> rfl
  exact key c h s (by rw [ht]; simp)

/-- **C118 (unset, defect).** If the TensorFlow variable was not set, it is set to `0` afterwards. -/
theorem C118_unset (v : ℤ) (hv : v ≤ 1) (body : List Code) (s : Levels) (h : s.tf = none) : (Code.region v body |>.run s).tf = some "0".toList := by
  simp only [Code.run, leave, hv, if_true, h]
  split <;> rfl

/-! ### Examples -/

/-- A vectorised environment of two, and one of three. -/
def two : EnvD ℕ ℕ ℕ := { obs := 4, act := 2, vec := true, num := 2, norm := some 7 }
def three : EnvD ℕ ℕ ℕ := { two with num := 3, norm := none }

/-- A model for two environments, asked for 1000 steps in rollouts of 5: with three environments attached it takes 1500. -/
example : (do
    let m ← construct true false 5 (some two)
    let m ← setBatch m
    let a ← collected m 1000
    let b ← collected (setEnvAC m (some three)).1 1000
    let c ← collectedACKTR (setEnvAC m (some three)).1 1000
    return (a, b, c) : Py (ℕ × ℕ × ℕ)) = .ok (1000, 1500, 990) := by decide +kernel

/-- The conditions of `C118_accept` are met by the second environment but not if the policy is recurrent. -/
example : ((construct true false 5 (some two)).toOption.map fun m => (setEnv m (some three)).2) = some none ∧
    ((construct true true 5 (some two)).toOption.map fun m => (setEnv m (some three)).2) = some (some .assertion) := by decide +kernel

/-- Nested regions. -/
example : Quiet (.region 0 [.region 2 [], .region 1 [.region 0 []]]) := by
  refine .region _ _ ?_
  intro c hc
  simp only [List.mem_cons, List.not_mem_nil, or_false] at hc
  rcases hc with rfl | rfl
  · exact .region _ _ (by simp)
  · refine .region _ _ ?_
    intro c hc
    simp only [List.mem_singleton] at hc
    subst hc
    exact .region _ _ (by simp)

end Neorl.Attach

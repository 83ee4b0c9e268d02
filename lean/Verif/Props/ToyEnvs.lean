import Verif.ToyEnvs
import Mathlib.Algebra.BigOperators.Group.List.Lemmas
import Mathlib.Data.List.Count
import Mathlib.Tactic.IntervalCases

/-!
# C111: the bit flipping and identity environments
-/

set_option linter.unusedSectionVars false
set_option linter.unusedVariables false

namespace Neorl.ToyEnvs

section Spec

/-- A state of bits. -/
def Binary (s : List ℤ) : Prop := ∀ v ∈ s, v = 0 ∨ v = 1

/-- The number of bits still to flip. -/
def zeros (s : List ℤ) : ℕ := s.count 0

/-- A usable environment: `n` bits, the goal all ones. -/
structure Ready (e : Env) : Prop where
  binary : Binary e.state
  length : e.state.length = e.nBits
  goal : e.goal = List.replicate e.nBits 1

end Spec

/-- The code of a list of bits, by its first bit. -/
def num : List ℤ → ℤ
  | [] => 0
  | b :: s => b + 2 * num s

theorem code_eq (s : List ℤ) : ((List.range s.length).map fun i => s.getD i 0 * 2 ^ i).sum = num s := by
  induction s with
  | nil => rfl
  | cons b s ih =>
    rw [List.length_cons, List.range_succ_eq_map, List.map_cons, List.sum_cons, List.map_map]
    simp only [List.getD_cons_zero, pow_zero, mul_one, num, ← ih]
    congr 1
    have key : ∀ l : List ℕ, (l.map ((fun i => (b :: s).getD i 0 * 2 ^ i) ∘ Nat.succ)).sum = 2 * (l.map fun i => s.getD i 0 * 2 ^ i).sum := by
      intro l
      induction l with
      | nil => rfl
      | cons i l ihl =>
        rw [List.map_cons, List.sum_cons, List.map_cons, List.sum_cons, ihl]
        simp only [Function.comp, Nat.succ_eq_add_one, List.getD_cons_succ, pow_succ]
        ring
    exact key _

theorem num_inj : ∀ {s t : List ℤ}, Binary s → Binary t → s.length = t.length → num s = num t → s = t
  | [], [], _, _, _, _ => rfl
  | a :: s, b :: t, hs, ht, hl, h => by
    have ha := hs a (by simp)
    have hb := ht b (by simp)
    simp only [num] at h
    have hab : a = b := by rcases ha with rfl | rfl <;> rcases hb with rfl | rfl <;> omega
    subst hab
    have e : s = t := num_inj (fun v hv => hs v (by simp [hv])) (fun v hv => ht v (by simp [hv])) (by simpa using hl) (by omega)
    rw [e]

theorem num_bounds : ∀ {s : List ℤ}, Binary s → 0 ≤ num s ∧ num s ≤ 2 ^ s.length - 1
  | [], _ => by simp [num]
  | b :: s, h => by
    have hb := h b (by simp)
    obtain ⟨h1, h2⟩ := num_bounds (s := s) fun v hv => h v (by simp [hv])
    simp only [num, List.length_cons, pow_succ]
    constructor <;> rcases hb with rfl | rfl <;> omega

theorem num_ones (n : ℕ) : num (List.replicate n 1) = 2 ^ n - 1 := by
  induction n with
  | zero => simp [num]
  | succ n ih => rw [List.replicate_succ, num, ih, pow_succ]; ring

theorem binary_ones (n : ℕ) : Binary (List.replicate n (1 : ℤ)) := fun v hv => Or.inr (List.eq_of_mem_replicate hv)

theorem ones_iff {s : List ℤ} (h : Binary s) : s = List.replicate s.length 1 ↔ zeros s = 0 := by
  unfold zeros
  rw [List.count_eq_zero, List.eq_replicate_iff]
  constructor
  · rintro ⟨-, h1⟩ h0
    exact absurd (h1 0 h0) (by decide)
  · intro h0
    exact ⟨rfl, fun v hv => (h v hv).resolve_left fun hv0 => h0 (hv0 ▸ hv)⟩

theorem convert_inj {d : Bool} {s t : List ℤ} (hs : Binary s) (ht : Binary t) (hl : s.length = t.length) : convert d s = convert d t ↔ s = t := by
  unfold convert
  cases d with
  | false => simp
  | true =>
    simp only [if_true, Obs.code.injEq, code_eq]
    exact ⟨num_inj hs ht hl, fun h => by rw [h]⟩

section Flip

variable {K : Type} [LinearOrder K] [Zero K]

theorem flip_bit {s s' : List ℤ} {i : ℕ} (h : flip s (.bit i : Action K) = .ok s') : i < s.length ∧ s' = s.modify i fun v => 1 - v := by
  simp only [flip] at h
  split_ifs at h with hi
  simp only [Except.ok.injEq] at h
  exact ⟨hi, h.symm⟩

theorem flip_vec {s s' : List ℤ} {a : List K} (h : flip s (.vec a) = .ok s') : a.length = s.length ∧ s' = List.zipWith (fun v x => if 0 < x then 1 - v else v) s a := by
  simp only [flip] at h
  split_ifs at h with hi
  simp only [Except.ok.injEq] at h
  exact ⟨hi, h.symm⟩

/-- Which bits an action turns. -/
def Turns (a : Action K) (j : ℕ) : Prop :=
  match a with
  | .bit i => i = j
  | .vec x => ∃ v, x[j]? = some v ∧ 0 < v

theorem flip_spec {s s' : List ℤ} {a : Action K} (h : flip s a = .ok s') : s'.length = s.length ∧ ∀ j, j < s.length → (Turns a j → s'[j]? = s[j]?.map fun v => 1 - v) ∧ (¬ Turns a j → s'[j]? = s[j]?) := by
  cases a with
  | bit i =>
    obtain ⟨hi, rfl⟩ := flip_bit h
    refine ⟨by simp, fun j hj => ⟨fun ht => ?_, fun ht => ?_⟩⟩
    · simp only [Turns] at ht
      subst ht
      rw [List.getElem?_modify_eq]
      rfl
    · simp only [Turns] at ht
      simp [ht]
  | vec x =>
    obtain ⟨hl, rfl⟩ := flip_vec h
    refine ⟨by simp [hl], fun j hj => ?_⟩
    have hx : x[j]? = some (x[j]'(by omega)) := List.getElem?_eq_getElem (by omega)
    have hs : s[j]? = some s[j] := List.getElem?_eq_getElem hj
    rw [List.getElem?_zipWith, hs, hx]
    simp only [Turns, hx, Option.some.injEq, exists_eq_left', Option.map_some]
    constructor <;> intro ht <;> simp [ht]

theorem flip_binary {s s' : List ℤ} {a : Action K} (hs : Binary s) (h : flip s a = .ok s') : Binary s' := by
  obtain ⟨hl, hj⟩ := flip_spec h
  intro v hv
  obtain ⟨j, hjl, rfl⟩ := List.getElem_of_mem hv
  have hb := hs (s[j]'(by omega)) (List.getElem_mem _)
  have e := hj j (by omega)
  rw [List.getElem?_eq_getElem hjl, List.getElem?_eq_getElem (by omega : j < s.length)] at e
  simp only [Option.map_some, Option.some.injEq] at e
  by_cases ht : Turns a j
  · rw [e.1 ht]
    rcases hb with hb | hb <;> rw [hb] <;> simp
  · rw [e.2 ht]
    exact hb

theorem step_spec {e e' : Env} {a : Action K} {o : Out} (he : Ready e) (h : step e a = .ok (e', o)) : flip e.state a = .ok e'.state ∧ Ready e' ∧ e'.cur = e.cur + 1 ∧ e'.maxSteps = e.maxSteps ∧ e'.nBits = e.nBits ∧
    e'.discreteObs = e.discreteObs ∧ o.obs = convert e.discreteObs e'.state ∧ (o.success = true ↔ zeros e'.state = 0) ∧ o.reward = (if zeros e'.state = 0 then 0 else -1) ∧
    (o.done = true ↔ zeros e'.state = 0 ∨ e.maxSteps ≤ e.cur + 1) := by
  unfold step at h
  simp only [bind, Except.bind] at h
  cases hf : flip e.state a with
  | error x => rw [hf] at h; cases h
  | ok s =>
    rw [hf] at h
    simp only [Except.ok.injEq, Prod.mk.injEq] at h
    obtain ⟨rfl, rfl⟩ := h
    have hb := flip_binary he.binary hf
    have hl := (flip_spec hf).1
    have key : convert e.discreteObs s = convert e.discreteObs e.goal ↔ zeros s = 0 := by
      rw [he.goal, convert_inj hb (binary_ones _) (by rw [hl, he.length, List.length_replicate]), ← ones_iff hb, hl, he.length]
    refine ⟨rfl, ⟨hb, hl.trans he.length, he.goal⟩, rfl, rfl, rfl, rfl, rfl, ?_, ?_, ?_⟩
    · simp only [reward, key]
      by_cases h0 : zeros s = 0 <;> simp [h0]
    · simp only [reward, key]
    · simp only [reward, key]
      by_cases h0 : zeros s = 0 <;> simp [h0]

end Flip

/-- **C111.** One step: the chosen bit (for the continuous variant, the bits with positive components) is flipped and nothing else; reward 0 and success exactly at all ones, reward -1 otherwise, in both kinds of
observation; the episode ends at the goal or with the last allowed step. -/
theorem C111_step {K : Type} [LinearOrder K] [Zero K] {e e' : Env} {a : Action K} {o : Out} (he : Ready e) (h : step e a = .ok (e', o)) :
    (∀ j, j < e.nBits → (Turns a j → e'.state[j]? = e.state[j]?.map fun v => 1 - v) ∧ (¬ Turns a j → e'.state[j]? = e.state[j]?)) ∧ Ready e' ∧
    (o.reward = 0 ↔ e'.state = List.replicate e.nBits 1) ∧ (o.reward = 0 ∨ o.reward = -1) ∧ (o.success = true ↔ o.reward = 0) ∧ (o.done = true ↔ o.reward = 0 ∨ e.maxSteps ≤ e.cur + 1) ∧ e'.cur = e.cur + 1 := by
  obtain ⟨h1, h2, h3, h4, h5, h6, h7, h8, h9, h10⟩ := step_spec he h
  have hr : o.reward = 0 ↔ zeros e'.state = 0 := by
    rw [h9]
    by_cases h0 : zeros e'.state = 0 <;> simp [h0]
  refine ⟨fun j hj => (flip_spec h1).2 j (by rw [he.length]; exact hj), h2, ?_, ?_, by rw [h8, hr], by rw [h10, hr], h3⟩
  · rw [hr, ← ones_iff h2.binary, h2.length, h5]
  · rw [h9]
    by_cases h0 : zeros e'.state = 0 <;> simp [h0]

/-- **C111.** The number shown in the discrete observation variant tells the states apart, lies between 0 and `2^n - 1`, and is `2^n - 1` exactly at the goal. -/
theorem C111_code {s t : List ℤ} (hs : Binary s) (ht : Binary t) (hl : s.length = t.length) : (convert true s = convert true t ↔ s = t) ∧
    ∃ c, convert true s = .code c ∧ 0 ≤ c ∧ c ≤ 2 ^ s.length - 1 ∧ (c = 2 ^ s.length - 1 ↔ s = List.replicate s.length 1) := by
  refine ⟨convert_inj hs ht hl, num s, by rw [convert, if_pos rfl, code_eq], (num_bounds hs).1, (num_bounds hs).2, ?_⟩
  constructor
  · intro h
    exact num_inj hs (binary_ones _) (by simp) (by rw [num_ones]; exact h)
  · intro h
    conv_lhs => rw [h]
    rw [num_ones]

/-- **C111, defect.** The declared observation space `Discrete(2^n - 1)` leaves out the goal: every observation belongs to it except that of the goal, and the desired goal never does. -/
theorem C111_space {s : List ℤ} (hs : Binary s) : ∃ c, convert true s = .code c ∧ (inDiscrete (declared s.length) c ↔ s ≠ List.replicate s.length 1) := by
  obtain ⟨-, c, h1, h2, h3, h4⟩ := C111_code hs hs rfl
  refine ⟨c, h1, ?_⟩
  unfold inDiscrete declared
  rw [Ne, ← h4]
  omega

section Solve

variable {K : Type} [LinearOrder K] [Zero K]

theorem zeros_modify : ∀ {s : List ℤ} {i : ℕ}, Binary s → i < s.length → zeros (s.modify i fun v => 1 - v) + 1 = zeros s ∧ s[i]? = some 0 ∨ zeros (s.modify i fun v => 1 - v) = zeros s + 1 ∧ s[i]? = some 1
  | b :: s, 0, h, _ => by
    rcases h b (by simp) with rfl | rfl
    · left; simp [zeros]
    · right; simp [zeros]
  | b :: s, i + 1, h, hi => by
    have := zeros_modify (s := s) (i := i) (fun v hv => h v (by simp [hv])) (by simpa using hi)
    simp only [List.modify_succ_cons, zeros, List.count_cons, List.getElem?_cons_succ] at this ⊢
    rcases this with ⟨h1, h2⟩ | ⟨h1, h2⟩
    · left; exact ⟨by omega, h2⟩
    · right; exact ⟨by omega, h2⟩

/-- The outputs of an episode of bit flips: it cannot succeed before the zeros are flipped. -/
theorem episode_lower : ∀ {as : List ℕ} {e : Env} {os : List Out}, Ready e → episode e (as.map fun i => (.bit i : Action K)) = .ok os → ∀ k o, os[k]? = some o → o.success = true → zeros e.state ≤ k + 1
  | [], e, os, _, h, k, o, hk, _ => by simp [episode] at h; subst h; simp at hk
  | a :: as, e, os, he, h, k, o, hk, ho => by
    simp only [List.map_cons, episode, bind, Except.bind] at h
    cases hs : step e (.bit a : Action K) with
    | error x => rw [hs] at h; cases h
    | ok r =>
      obtain ⟨e', o'⟩ := r
      rw [hs] at h
      simp only at h
      obtain ⟨h1, h2, -, -, -, -, -, h8, -, -⟩ := step_spec he hs
      obtain ⟨hi, hm⟩ := flip_bit h1
      have hz := zeros_modify he.binary hi
      rw [← hm] at hz
      have hz' : zeros e.state ≤ zeros e'.state + 1 := by rcases hz with hz | hz <;> omega
      split_ifs at h with hd
      · simp only [Except.ok.injEq] at h
        subst h
        cases k with
        | zero => simp at hk; subst hk; rw [h8.1 ho] at hz'; omega
        | succ k => simp at hk
      · cases hr : episode e' (as.map fun i => (.bit i : Action K)) with
        | error x => rw [hr] at h; cases h
        | ok r =>
          rw [hr] at h
          simp only [Except.ok.injEq] at h
          subst h
          cases k with
          | zero => simp at hk; subst hk; rw [h8.1 ho] at hz'; omega
          | succ k =>
            have := episode_lower h2 hr k o (by simpa using hk) ho
            omega

theorem step_ok {e : Env} {i : ℕ} (hi : i < e.state.length) : ∃ r, step e (.bit i : Action K) = .ok r := by
  unfold step flip
  simp only [if_pos hi, bind, Except.bind]
  exact ⟨_, rfl⟩

/-- With enough steps left, the zeros can be flipped one by one. -/
theorem episode_reach : ∀ (z : ℕ) {e : Env}, Ready e → zeros e.state = z + 1 → e.cur + z + 1 ≤ e.maxSteps → ∃ (as : List ℕ) (os : List Out), as.length = z + 1 ∧ episode e (as.map fun i => (.bit i : Action K)) = .ok os ∧
    os.length = z + 1 ∧ ∃ o, os.getLast? = some o ∧ o.success = true := by
  intro z
  induction z with
  | zero =>
    intro e he hz hm
    obtain ⟨i, hi, h0⟩ : ∃ i, ∃ hi : i < e.state.length, e.state[i] = 0 := by
      have : 0 ∈ e.state := List.count_pos_iff.1 (by unfold zeros at hz; omega)
      exact List.getElem_of_mem this
    obtain ⟨⟨e', o⟩, hs⟩ := step_ok (K := K) hi
    obtain ⟨h1, h2, h3, h4, -, -, -, h8, -, h10⟩ := step_spec he hs
    obtain ⟨-, hmod⟩ := flip_bit h1
    have hc := zeros_modify he.binary hi
    rw [← hmod, List.getElem?_eq_getElem hi, h0] at hc
    have hz' : zeros e'.state = 0 := by
      rcases hc with hc | hc
      · omega
      · simp at hc
    refine ⟨[i], [o], rfl, ?_, rfl, o, rfl, h8.2 hz'⟩
    simp only [List.map_cons, List.map_nil, episode, bind, Except.bind, hs]
    rw [if_pos (h10.2 (Or.inl hz'))]
  | succ z ih =>
    intro e he hz hm
    obtain ⟨i, hi, h0⟩ : ∃ i, ∃ hi : i < e.state.length, e.state[i] = 0 := by
      have : 0 ∈ e.state := List.count_pos_iff.1 (by unfold zeros at hz; omega)
      exact List.getElem_of_mem this
    obtain ⟨⟨e', o⟩, hs⟩ := step_ok (K := K) hi
    obtain ⟨h1, h2, h3, h4, -, -, -, h8, -, h10⟩ := step_spec he hs
    obtain ⟨-, hmod⟩ := flip_bit h1
    have hc := zeros_modify he.binary hi
    rw [← hmod, List.getElem?_eq_getElem hi, h0] at hc
    have hz' : zeros e'.state = z + 1 := by
      rcases hc with hc | hc
      · omega
      · simp at hc
    obtain ⟨as, os, l1, l2, l3, o', l4, l5⟩ := ih h2 hz' (by omega)
    have hnd : ¬ o.done = true := by rw [h10]; omega
    refine ⟨i :: as, o :: os, by simp [l1], ?_, by simp [l3], o', ?_, l5⟩
    · simp only [List.map_cons, episode, bind, Except.bind, hs]
      rw [if_neg hnd, l2]
    · cases os with
      | nil => simp at l4
      | cons b bs => rw [List.getLast?_cons_cons]; exact l4

end Solve

/-- **C111.** How long an episode of bit flips takes: no episode succeeds in fewer steps than there are zeros, and if the allowed steps suffice, some episode of exactly that length does. -/
theorem C111_optimal {K : Type} [LinearOrder K] [Zero K] {e : Env} (he : Ready e) (h0 : 0 < zeros e.state) (hcur : e.cur = 0) :
    (∀ (as : List ℕ) (os : List Out), episode e (as.map fun i => (.bit i : Action K)) = .ok os → ∀ k o, os[k]? = some o → o.success = true → zeros e.state ≤ k + 1) ∧
    (zeros e.state ≤ e.maxSteps → ∃ (as : List ℕ) (os : List Out), episode e (as.map fun i => (.bit i : Action K)) = .ok os ∧ os.length = zeros e.state ∧ ∃ o, os.getLast? = some o ∧ o.success = true) := by
  refine ⟨fun as os h => episode_lower he h, fun hm => ?_⟩
  obtain ⟨as, os, -, l2, l3, l4⟩ := episode_reach (K := K) (zeros e.state - 1) he (by omega) (by omega)
  exact ⟨as, os, l2, by omega, l4⟩

/-- **C111.** With the default number of steps every start is solvable if there are at least two bits; **defect:** a start at the goal is not noticed, so with a single bit such an episode cannot succeed. -/
theorem C111_start {K : Type} [LinearOrder K] [Zero K] (n : ℕ) (d : Bool) {s : List ℤ} (hs : Binary s) (hl : s.length = n) :
    (2 ≤ n → ∃ (as : List ℕ) (os : List Out), episode (make n none d s) (as.map fun i => (.bit i : Action K)) = .ok os ∧ os.length ≤ n ∧ ∃ o, os.getLast? = some o ∧ o.success = true) ∧
    (n = 1 → s = [1] → ∀ (as : List ℕ) (os : List Out), episode (make n none d s) (as.map fun i => (.bit i : Action K)) = .ok os → ∀ o ∈ os, o.success = false) := by
  have he : Ready (make n none d s) := ⟨hs, hl, rfl⟩
  constructor
  · intro hn
    rcases Nat.eq_zero_or_pos (zeros s) with hz | hz
    · obtain ⟨⟨e', o⟩, h⟩ := step_ok (K := K) (e := make n none d s) (i := 0) (by show 0 < s.length; omega)
      obtain ⟨h1, h2, h3, h4, h5, -, -, h8, -, h10⟩ := step_spec he h
      obtain ⟨hi, hmod⟩ := flip_bit h1
      have hc := zeros_modify (s := s) hs hi
      have hz' : zeros e'.state = 1 := by
        rw [hmod]
        show zeros (s.modify 0 _) = 1
        rcases hc with hc | hc <;> omega
      have hcur : e'.cur = 1 := h3
      have hmax : e'.maxSteps = n := h4
      obtain ⟨as, os, l1, l2, l3, o', l4, l5⟩ := episode_reach (K := K) 0 h2 hz' (by omega)
      have hnd : ¬ o.done = true := by
        rw [h10]
        have : (make n none d s).maxSteps = n := rfl
        have : (make n none d s).cur = 0 := rfl
        omega
      refine ⟨0 :: as, o :: os, ?_, by simp [l3]; omega, o', ?_, l5⟩
      · simp only [List.map_cons, episode, bind, Except.bind, h]
        rw [if_neg hnd, l2]
      · cases os with
        | nil => simp at l4
        | cons b bs => rw [List.getLast?_cons_cons]; exact l4
    · have hle : zeros s ≤ n := by unfold zeros; rw [← hl]; exact List.count_le_length
      obtain ⟨as, os, l2, l3, l4⟩ := (C111_optimal (K := K) he hz rfl).2 hle
      exact ⟨as, os, l2, by rw [l3]; exact hle, l4⟩
  · rintro rfl rfl as os h o ho
    cases as with
    | nil => simp [episode] at h; subst h; simp at ho
    | cons a as =>
      simp only [List.map_cons, episode, bind, Except.bind] at h
      cases hst : step (make 1 none d [1]) (.bit a : Action K) with
      | error x => rw [hst] at h; cases h
      | ok r =>
        obtain ⟨e', o'⟩ := r
        rw [hst] at h
        simp only at h
        obtain ⟨h1, h2, h3, h4, h5, -, -, h8, -, h10⟩ := step_spec he hst
        rw [if_pos (h10.2 (Or.inr (by show 1 ≤ 0 + 1; omega)))] at h
        simp only [Except.ok.injEq] at h
        subst h
        simp only [List.mem_singleton] at ho
        subst ho
        obtain ⟨hi, hmod⟩ := flip_bit h1
        have ha : a = 0 := by
          have : a < 1 := hi
          omega
        subst ha
        have hst' : e'.state = [0] := hmod
        rw [Bool.eq_false_iff]
        intro hc
        have := h8.1 hc
        rw [hst'] at this
        simp [zeros] at this

section Ident

variable {S A : Type}

theorem ident_episode (hit : S → A → Bool) (π : S → A) : ∀ (draws : List S) (e : Ident S), e.cur < e.epLength → e.epLength ≤ e.cur + draws.length →
    Ident.episode hit π e draws = ((((e.state :: draws).take (e.epLength - e.cur)).map fun s => if hit s (π s) then 1 else 0), true)
  | [], e, h1, h2 => by simp at h2; omega
  | s :: ss, e, h1, h2 => by
    simp only [List.length_cons] at h2
    have hst : Ident.episode hit π e (s :: ss) = if decide (e.cur + 1 ≥ e.epLength) = true then ([if hit e.state (π e.state) then 1 else 0], true) else
        ((if hit e.state (π e.state) then 1 else 0) :: (Ident.episode hit π { e with state := s, cur := e.cur + 1 } ss).1, (Ident.episode hit π { e with state := s, cur := e.cur + 1 } ss).2) := rfl
    rw [hst]
    by_cases hd : e.cur + 1 ≥ e.epLength
    · rw [if_pos (by simpa using hd)]
      rw [show e.epLength - e.cur = 1 by omega]
      simp
    · rw [if_neg (by simpa using hd)]
      rw [ident_episode hit π ss _ (by simp only; omega) (by simp only; omega)]
      simp only
      rw [show e.epLength - e.cur = (e.epLength - (e.cur + 1)) + 1 by omega, List.take_succ_cons, List.map_cons]

end Ident

/-- **C111.** An episode of the identity environment lasts `ep_length` steps and pays one for every answer that matches the state shown; so a policy that repeats what it sees earns `ep_length`, the most possible. -/
theorem C111_identity {S : Type} [DecidableEq S] (π : S → S) (len : ℕ) (hlen : 0 < len) (s : S) (draws : List S) (hd : len ≤ draws.length) :
    ∃ rs, Ident.episode (fun a b => decide (a = b)) π (Ident.make len s) draws = (rs, true) ∧ rs.length = len ∧ rs.sum ≤ len ∧ (rs.sum = len ↔ ∀ v ∈ (s :: draws).take len, π v = v) := by
  have h := ident_episode (fun a b : S => decide (a = b)) π draws (Ident.make len s) (by simpa [Ident.make, Ident.reset] using hlen) (by simpa [Ident.make, Ident.reset] using hd)
  refine ⟨_, h, ?_, ?_⟩
  · simp only [Ident.make, Ident.reset, Nat.sub_zero, List.length_map, List.length_take, List.length_cons]
    omega
  · simp only [Ident.make, Ident.reset, Nat.sub_zero]
    have hl : ((s :: draws).take len).length = len := by simp; omega
    have key : ∀ l : List S, (l.map fun s => if decide (s = π s) = true then 1 else 0).sum ≤ l.length ∧ ((l.map fun s => if decide (s = π s) = true then 1 else 0).sum = l.length ↔ ∀ v ∈ l, π v = v) := by
      intro l
      induction l with
      | nil => simp
      | cons a l ih =>
        obtain ⟨i1, i2⟩ := ih
        simp only [List.map_cons, List.sum_cons, List.length_cons, List.forall_mem_cons]
        by_cases ha : a = π a
        · have hd : decide (a = π a) = true := by simpa using ha
          rw [if_pos hd]
          refine ⟨by omega, ?_⟩
          rw [← i2]
          constructor
          · intro h; exact ⟨ha.symm, by omega⟩
          · intro h; omega
        · have hd : ¬ decide (a = π a) = true := by simpa using ha
          rw [if_neg hd]
          refine ⟨by omega, ?_⟩
          constructor
          · intro h; omega
          · intro h; exact absurd h.1.symm ha
    have := key ((s :: draws).take len)
    rw [hl] at this
    exact this

/-- **C111.** The box variant pays exactly for answers within `eps` of the state; resets are counted from 0 after construction. -/
theorem C111_box {K : Type} [Field K] [LinearOrder K] [IsStrictOrderedRing K] (eps s a : K) : (boxHit eps s a = true ↔ |a - s| ≤ eps) ∧
    ∀ (len : ℕ) (x : K) (samples : List K), (samples.foldl Ident.reset (Ident.make len x)).resets = samples.length := by
  constructor
  · unfold boxHit
    rw [decide_eq_true_eq, abs_le]
    constructor <;> rintro ⟨h1, h2⟩ <;> constructor <;> linarith
  · intro len x samples
    have : ∀ (l : List K) (e : Ident K), (l.foldl Ident.reset e).resets = e.resets + l.length := by
      intro l
      induction l with
      | nil => intro e; simp
      | cons b l ih => intro e; rw [List.foldl_cons, ih]; simp [Ident.reset]; ring
    rw [this]
    simp [Ident.make, Ident.reset]

/-- **C111.** A reset forgets the episode before it: whatever steps were made, the bit-flipping environment is as new, and the identity environment goes on as a new one does. -/
theorem C111_reset :
    (∀ {K : Type} [LinearOrder K] [Zero K] (n : ℕ) (m : Option ℕ) (dis : Bool) (s0 s : List ℤ) (as : List (Action K)) (e : Env),
      as.foldlM (fun e a => (step e a).map Prod.fst) (make n m dis s0) = .ok e → e.reset s = make n m dis s) ∧
    ∀ {S A : Type} (hit : S → A → Bool) (π : S → A) (len : ℕ) (s0 s : S) (as : List (A × S)) (draws : List S),
      Ident.episode hit π (Ident.reset (as.foldl (fun e a => (e.step hit a.1 a.2).1) (Ident.make len s0)) s) draws = Ident.episode hit π (Ident.make len s) draws := by
  constructor
  · intro K _ _ n m dis s0 s as e h
    have key : ∀ (as : List (Action K)) (e0 e : Env), as.foldlM (fun e a => (step e a).map Prod.fst) e0 = .ok e →
        e.nBits = e0.nBits ∧ e.maxSteps = e0.maxSteps ∧ e.discreteObs = e0.discreteObs ∧ e.goal = e0.goal := by
      intro as
      induction as with
      | nil => intro e0 e h; cases h; exact ⟨rfl, rfl, rfl, rfl⟩
      | cons a as ih =>
        intro e0 e h
        rw [List.foldlM_cons] at h
        cases hs : step e0 a with
        | error er => rw [hs] at h; cases h
        | ok r =>
          rw [hs] at h
          obtain ⟨h1, h2, h3, h4⟩ := ih r.1 e h
          simp only [step, bind, Except.bind] at hs
          cases hf : flip e0.state a with
          | error er => rw [hf] at hs; cases hs
          | ok s =>
            rw [hf] at hs
            cases hs
            exact ⟨h1, h2, h3, h4⟩
    obtain ⟨h1, h2, h3, h4⟩ := key as _ e h
    unfold Env.reset
    obtain ⟨a, b, c, d, g, f⟩ := e
    simp only at h1 h2 h3 h4
    subst h1 h2 h3 h4
    rfl
  · intro S A hit π len s0 s as draws
    have key : ∀ (as : List (A × S)) (e : Ident S), (as.foldl (fun e a => (e.step hit a.1 a.2).1) e).epLength = e.epLength := by
      intro as
      induction as with
      | nil => intro e; rfl
      | cons a as ih => intro e; rw [List.foldl_cons, ih]; rfl
    have same : ∀ (draws : List S) (e e' : Ident S), e.epLength = e'.epLength → e.cur = e'.cur → e.state = e'.state → Ident.episode hit π e draws = Ident.episode hit π e' draws := by
      intro draws
      induction draws with
      | nil => intros; rfl
      | cons x xs ih =>
        intro e e' h1 h2 h3
        obtain ⟨l, c, r, st⟩ := e
        obtain ⟨l', c', r', st'⟩ := e'
        simp only at h1 h2 h3
        subst h1 h2 h3
        simp only [Ident.episode, Ident.step]
        rw [ih ⟨l, c + 1, r, x⟩ ⟨l, c + 1, r', x⟩ rfl rfl rfl]
        rfl
    exact same _ _ _ (key as _) rfl rfl

section Examples

/-- Three bits, one zero: one flip reaches the goal; the goal's number is 7, outside the declared `Discrete(7)`. -/
example : episode (make 3 none true [1, 0, 1]) [(.bit 1 : Action ℚ)] = .ok [⟨.code 7, 0, true, true⟩] ∧ Ready (make 3 none true [1, 0, 1]) ∧ 0 < zeros [1, 0, 1] ∧ ¬ inDiscrete (declared 3) 7 :=
  ⟨by decide +kernel, ⟨by simp [make, Binary], rfl, rfl⟩, by decide, by simp [inDiscrete, declared]⟩

/-- Continuous actions flip the positive components; a wrong bit costs two steps. -/
example : episode (make 3 none false [1, 0, 1]) [(.vec [1, -1, 0] : Action ℚ), .vec [1 / 2, 1, 0]] = .ok [⟨.bits [0, 0, 1], -1, false, false⟩, ⟨.bits [1, 1, 1], 0, true, true⟩] := by decide +kernel

/-- A policy that repeats what it sees. -/
example : Ident.episode (fun a b : ℕ => decide (a = b)) id (Ident.make 3 5) [1, 2, 3] = ([1, 1, 1], true) := by decide

end Examples

end Neorl.ToyEnvs

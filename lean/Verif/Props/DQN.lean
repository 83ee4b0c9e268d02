import Verif.DQN
import Mathlib.Algebra.BigOperators.Group.List.Basic
import Mathlib.Tactic.Linarith
import Mathlib.Tactic.Ring

/-!
# C98: the training loop of DQN
-/

set_option linter.unusedSectionVars false
set_option linter.unusedVariables false

namespace Neorl.DQN

variable {Θ E O A : Type}

/-! ### Specification -/

/-- The interaction: every entry holds the observation the agent stood at, the action its current parameters chose for it, and what the environment answered; after the end of an episode it goes on from a
reset; the parameters change by the batches trained on, and the target parameters are copies of the online ones (after the training of the same step). -/
inductive Plays (env : Env E O A) (act : Θ → ℕ → O → ℚ → A) (upd : Θ → Θ → List (Tr O A) → Θ) : ℕ → E × O × Θ × Θ → List (Entry O A) → E × O × Θ × Θ → Prop
  | nil (k x) : Plays env act upd k x [] x
  | cons (k e o θ tgt) (en : Entry O A) (rest e1 e2 o2 θ' y) : en.tr.obs = o → en.tr.act = act θ k o en.eps → env.step e en.tr.act = (e1, en.tr.next, en.tr.rew, en.tr.done) →
      (en.tr.done = true ∧ env.vec = false → (e2, o2) = env.reset e1) → (en.tr.done = false ∨ env.vec = true → (e2, o2) = (e1, en.tr.next)) →
      (∀ b, en.trained = some b → θ' = upd θ tgt b) → (en.trained = none → θ' = θ) →
      Plays env act upd (k + 1) (e2, o2, θ', if en.synced then θ' else tgt) rest y → Plays env act upd k (e, o, θ, tgt) (en :: rest) y

/-- Sum of the rewards. -/
def ret (l : List (Tr O A)) : ℚ := (l.map (·.rew)).sum

/-- One finished episode: the last transition ends it, no other does. -/
def Episode (g : List (Tr O A)) : Prop := ∃ h x, g = h ++ [x] ∧ x.done = true ∧ ∀ y ∈ h, y.done = false

/-- What the entry `en` after `n` transitions of this call has to be, `pre` being all transitions up to and including its own. -/
structure EntryOk (c : Cfg Θ E O A) (T : ℚ) (t n : ℕ) (pre : List (Tr O A)) (en : Entry O A) : Prop where
  eps : en.eps = c.eps0 + min ((t : ℚ) / T) 1 * (c.eps1 - c.eps0)
  trained : (∃ b, en.trained = some b) ↔ c.batch ≤ n + 1 ∧ c.batch ≤ c.size ∧ c.starts < t + 1 ∧ c.trainFreq ∣ t + 1
  sample : ∀ b, en.trained = some b → b.length = c.batch ∧ ∀ x ∈ b, x ∈ pre.drop (pre.length - c.size)
  synced : en.synced = true ↔ c.batch ≤ n + 1 ∧ c.batch ≤ c.size ∧ c.starts < t + 1 ∧ c.targetFreq ∣ t + 1

/-! ### Lemmas -/

theorem encode_ok {α : Type} (b : Replay.Buf α) : ∀ l : List ℕ, (∀ i ∈ l, i < b.storage.length) → ∃ xs, Replay.encodeSample b l = .ok xs ∧ xs.length = l.length ∧ ∀ x ∈ xs, x ∈ b.storage
  | [], _ => ⟨[], rfl, rfl, by simp⟩
  | i :: l, h => by
    obtain ⟨xs, h1, h2, h3⟩ := encode_ok b l (fun j hj => h j (List.mem_cons_of_mem _ hj))
    have hi := h i (by simp)
    refine ⟨b.storage[i] :: xs, by simp [Replay.encodeSample, List.getElem?_eq_getElem hi, h1], by simp [h2], ?_⟩
    intro x hx
    rcases List.mem_cons.1 hx with rfl | hx
    · exact List.getElem_mem hi
    · exact h3 x hx

theorem due_ok (c : Cfg Θ E O A) (len t f : ℕ) (hf : 0 < f) : due c len t f = .ok (decide (c.batch ≤ len ∧ c.starts < t ∧ f ∣ t)) := by
  unfold due modZero
  rw [if_neg (Nat.ne_of_gt hf)]
  by_cases h1 : c.batch ≤ len <;> by_cases h2 : c.starts < t <;> simp [h1, h2]
  rw [beq_eq_decide, decide_eq_decide]
  exact (Nat.dvd_iff_mod_eq_zero).symm

theorem train_ok (c : Cfg Θ E O A) (s : St Θ E O A) (hb : s.buf.storage ≠ []) (h1 : 0 < c.trainFreq) (h2 : 0 < c.targetFreq)
    (hd : ∀ k len, 0 < len → (c.draws k len).length = c.batch ∧ ∀ i ∈ c.draws k len, i < len) :
    ∃ bt b2 θ', train c s = .ok ({ s with θ := θ', tgt := if b2 then θ' else s.tgt }, bt, b2) ∧
      ((∃ b, bt = some b) ↔ c.batch ≤ s.buf.storage.length ∧ c.starts < s.nts ∧ c.trainFreq ∣ s.nts) ∧
      (b2 = true ↔ c.batch ≤ s.buf.storage.length ∧ c.starts < s.nts ∧ c.targetFreq ∣ s.nts) ∧
      (∀ b, bt = some b → b.length = c.batch ∧ (∀ x ∈ b, x ∈ s.buf.storage) ∧ θ' = c.upd s.θ s.tgt b) ∧ (bt = none → θ' = s.θ) := by
  have hlen : 0 < s.buf.storage.length := List.length_pos_iff.2 hb
  obtain ⟨d1, d2⟩ := hd s.k _ hlen
  obtain ⟨xs, e1, e2, e3⟩ := encode_ok s.buf (c.draws s.k s.buf.storage.length) d2
  unfold train
  rw [due_ok c _ _ _ h1, due_ok c _ _ _ h2]
  by_cases hc : c.batch ≤ s.buf.storage.length ∧ c.starts < s.nts ∧ c.trainFreq ∣ s.nts
  · refine ⟨some xs, decide (c.batch ≤ s.buf.storage.length ∧ c.starts < s.nts ∧ c.targetFreq ∣ s.nts), c.upd s.θ s.tgt xs, ?_, by simpa using hc, by rw [decide_eq_true_iff], ?_, by simp⟩
    · simp only [decide_eq_true hc, if_true, Replay.sample, hb, false_and, if_false, e1, Except.map]
    · rintro b hb'
      obtain rfl := Option.some.inj hb'
      exact ⟨by rw [e2, d1], e3, rfl⟩
  · refine ⟨none, decide (c.batch ≤ s.buf.storage.length ∧ c.starts < s.nts ∧ c.targetFreq ∣ s.nts), s.θ, ?_, by simpa using hc, by rw [decide_eq_true_iff], by simp, fun _ => rfl⟩
    simp [decide_eq_false hc]

theorem explore_ok (c : Cfg Θ E O A) (total t : ℕ) (hT : ⌊c.fraction * total⌋ ≠ 0) :
    exploration c total t = .ok (c.eps0 + min ((t : ℚ) / ((⌊c.fraction * total⌋ : ℤ) : ℚ)) 1 * (c.eps1 - c.eps0)) := by
  unfold exploration Schedule.linearValue
  rw [if_neg (by exact_mod_cast hT)]

theorem loop_ok (c : Cfg Θ E O A) (total : ℕ) (hT : ⌊c.fraction * total⌋ ≠ 0) (hs : 0 < c.size) (h1 : 0 < c.trainFreq) (h2 : 0 < c.targetFreq)
    (hd : ∀ k len, 0 < len → (c.draws k len).length = c.batch ∧ ∀ i ∈ c.draws k len, i < len) :
    ∀ (m n : ℕ) (s : St Θ E O A) (pre op : List (Tr O A)), m ≤ n → (∀ i, i < m → c.stop (s.k + i) = false) → (m < n → c.stop (s.k + m) = true) → Replay.Inv c.size s.buf pre →
      (∀ y ∈ op, y.done = false) → s.cur = ret op →
      ∃ s' l y, loop c total n s = .ok (s', l, decide (m < n)) ∧ l.length = m ∧ Plays c.env c.act c.upd s.k (s.e, s.obs, s.θ, s.tgt) l y ∧
        (m = n → (s'.e, s'.obs, s'.θ, s'.tgt) = y ∧ s'.nts = s.nts + n) ∧
        (m < n → (s'.obs, s'.θ, s'.tgt) = (y.2.1, y.2.2.1, y.2.2.2) ∧ s'.nts = s.nts + m + 1 ∧
          ∃ eps, s'.e = (c.env.step y.1 (c.act y.2.2.1 (s.k + m) y.2.1 eps)).1) ∧
        Replay.Inv c.size s'.buf (pre ++ l.map (·.tr)) ∧
        (∀ i en, l[i]? = some en → EntryOk c ((⌊c.fraction * total⌋ : ℤ) : ℚ) (s.nts + i) (pre.length + i) (pre ++ (l.take (i + 1)).map (·.tr)) en) ∧
        ∃ (segs : List (List (Tr O A))) (last : List (Tr O A)), op ++ l.map (·.tr) = segs.flatten ++ last ∧ s'.closed = s.closed ++ segs.map ret ∧ s'.cur = ret last ∧ (∀ g ∈ segs, Episode g) ∧ ∀ y ∈ last, y.done = false
  | 0, 0, s, pre, op, _, _, _, hi, ho, hc => by
    refine ⟨s, [], _, rfl, rfl, .nil _ _, fun _ => ⟨rfl, rfl⟩, fun h => absurd h (lt_irrefl _), by simpa using hi, by simp, [], op, by simp, by simp, hc, by simp, ho⟩
  | 0, n + 1, s, pre, op, _, _, hst, hi, ho, hc => by
    have h0 : c.stop s.k = true := hst (by omega)
    set eps := c.eps0 + min ((s.nts : ℚ) / ((⌊c.fraction * total⌋ : ℤ) : ℚ)) 1 * (c.eps1 - c.eps0) with heps
    refine ⟨{ s with e := (c.env.step s.e (c.act s.θ s.k s.obs eps)).1, nts := s.nts + 1, k := s.k + 1 }, [], (s.e, s.obs, s.θ, s.tgt), ?_, rfl, .nil _ _, fun h => absurd h (by omega), fun _ => ⟨?_, ?_, eps, ?_⟩, ?_, by simp, [], op, by simp, ?_, ?_, by simp, ho⟩
    · rw [loop, explore_ok c total _ hT]; simp only [h0, if_true]; rw [decide_eq_true (by omega : 0 < n + 1)]
    · rfl
    · rfl
    · rfl
    · simpa using hi
    · simp
    · exact hc
  | m + 1, 0, _, _, _, h, _, _, _, _, _ => by omega
  | m + 1, n + 1, s, pre, op, hm, hns, hst, hi, ho, hc => by
    have h0 : c.stop s.k = false := by simpa using hns 0 (by omega)
    rw [loop, explore_ok c total _ hT]
    simp only [h0, Bool.false_eq_true, if_false]
    set eps := c.eps0 + min ((s.nts : ℚ) / ((⌊c.fraction * total⌋ : ℤ) : ℚ)) 1 * (c.eps1 - c.eps0) with heps
    set a := c.act s.θ s.k s.obs eps with ha
    obtain ⟨e1, o1, r, d, hq⟩ : ∃ e1 o1 r d, c.env.step s.e a = (e1, o1, r, d) := ⟨_, _, _, _, rfl⟩
    rw [hq]
    simp only
    obtain ⟨b, hadd, hinv⟩ := Replay.add_inv hs hi (⟨s.obs, a, r, o1, d⟩ : Tr O A)
    rw [hadd]
    simp only
    set s1 : St Θ E O A := finish c r d { s with e := e1, obs := o1, nts := s.nts + 1, k := s.k + 1, buf := b } with hs1
    have f1 : s1.buf = b ∧ s1.nts = s.nts + 1 ∧ s1.k = s.k + 1 ∧ s1.θ = s.θ ∧ s1.tgt = s.tgt := by
      rw [hs1]; unfold finish; split_ifs <;> exact ⟨rfl, rfl, rfl, rfl, rfl⟩
    have hlen : b.storage.length = min (pre.length + 1) c.size := by simpa using hinv.len
    obtain ⟨bt, b2, θ', t1, t2, t3, t4, t5⟩ := train_ok c s1 (by
      rw [f1.1]; intro h; rw [h] at hlen; simp at hlen; omega) h1 h2 hd
    rw [t1]
    simp only
    set s2 : St Θ E O A := { s1 with θ := θ', tgt := if b2 then θ' else s1.tgt } with hs2
    have g1 : s2.buf = b ∧ s2.nts = s.nts + 1 ∧ s2.k = s.k + 1 ∧ s2.e = s1.e ∧ s2.obs = s1.obs ∧ s2.closed = s1.closed ∧ s2.cur = s1.cur := ⟨f1.1, f1.2.1, f1.2.2.1, rfl, rfl, rfl, rfl⟩
    set x : Tr O A := ⟨s.obs, a, r, o1, d⟩ with hx
    obtain ⟨s', l, y, r1, r2, r3, r4, r5, r6, r7, segs, last, r8, r9, r10, r11, r12⟩ := loop_ok c total hT hs h1 h2 hd m n s2 (pre ++ [x]) (if d then [] else op ++ [x]) (by omega)
      (fun i hi' => by rw [g1.2.2.1]; have := hns (i + 1) (by omega); simpa [Nat.add_assoc, Nat.add_comm 1 i] using this)
      (fun h => by rw [g1.2.2.1]; have := hst (by omega); simpa [Nat.add_assoc, Nat.add_comm 1 m] using this)
      (by rw [g1.1]; exact hinv)
      (by
        cases hd' : d
        · intro y hy
          simp only [Bool.false_eq_true, if_false, List.mem_append, List.mem_singleton] at hy
          rcases hy with hy | rfl
          · exact ho y hy
          · exact hd'
        · simp)
      (by
        rw [g1.2.2.2.2.2.2, hs1]; unfold finish
        cases hd' : d
        · simp [ret, hc, hx]
        · simp [ret])
    have hdec : decide (m < n) = decide (m + 1 < n + 1) := by simp
    refine ⟨s', ⟨x, eps, bt, b2⟩ :: l, y, by rw [r1, hdec], by simp [r2], ?_, fun h => ?_, fun h => ?_, ?_, ?_, ?_⟩
    · refine .cons s.k s.e s.obs s.θ s.tgt ⟨x, eps, bt, b2⟩ l e1 s1.e s1.obs θ' y rfl rfl hq ?_ ?_ (fun b hb => by rw [(t4 b hb).2.2, f1.2.2.2.1, f1.2.2.2.2]) (fun hb => by rw [t5 hb, f1.2.2.2.1]) ?_
      · rintro ⟨hd1, hv⟩
        have hd2 : d = true := hd1
        rw [hs1]; simp [finish, hd2, hv]
      · intro h
        rw [hs1]
        rcases h with h | h
        · have hd2 : d = false := h
          simp [finish, hd2, hx]
        · cases hd2 : d
          · simp [finish, hx]
          · simp [finish, h, hx]
      · rw [g1.2.2.1] at r3
        have : s2.tgt = if b2 then θ' else s.tgt := by rw [hs2]; simp [f1.2.2.2.2]
        rw [show ((s1.e, s1.obs, θ', if b2 = true then θ' else s.tgt) : E × O × Θ × Θ) = (s2.e, s2.obs, s2.θ, s2.tgt) by rw [this]]
        exact r3
    · obtain ⟨q1, q2⟩ := r4 (by omega)
      exact ⟨q1, by rw [q2, g1.2.1]; omega⟩
    · obtain ⟨q1, q2, ep, q3⟩ := r5 (by omega)
      exact ⟨q1, by rw [q2, g1.2.1]; omega, ep, by rw [q3, g1.2.2.1, Nat.add_assoc, Nat.add_comm 1 m]⟩
    · simpa using r6
    · intro i en hen
      cases i with
      | zero =>
        simp only [List.getElem?_cons_zero, Option.some.injEq] at hen
        subst hen
        refine ⟨rfl, ?_, ?_, ?_⟩
        · rw [show (∃ b', (⟨x, eps, bt, b2⟩ : Entry O A).trained = some b') ↔ ∃ b', bt = some b' from Iff.rfl, t2, f1.1, f1.2.1, hlen, le_min_iff]
          simp [and_assoc]
        · intro b' hb'
          obtain ⟨u1, u2, _⟩ := t4 b' hb'
          refine ⟨u1, fun z hz => ?_⟩
          have := u2 z hz
          rw [f1.1] at this
          rw [← List.mem_rotate (n := b.next), hinv.order, Replay.lastN] at this
          simpa using this
        · rw [show ((⟨x, eps, bt, b2⟩ : Entry O A).synced = true) ↔ b2 = true from Iff.rfl, t3, f1.1, f1.2.1, hlen, le_min_iff]
          simp [and_assoc]
      | succ i =>
        have := r7 i en (by simpa using hen)
        rw [g1.2.1] at this
        have e1 : s.nts + 1 + i = s.nts + (i + 1) := by omega
        have e2 : (pre ++ [x]).length + i = pre.length + (i + 1) := by simp; omega
        rw [e1, e2] at this
        simpa using this
    · cases hd' : d
      · simp only [hd', Bool.false_eq_true, if_false] at r8
        refine ⟨segs, last, by simpa using r8, ?_, r10, r11, r12⟩
        rw [r9, g1.2.2.2.2.2.1, hs1]; simp [finish, hd']
      · simp only [hd', if_true, List.nil_append] at r8
        refine ⟨(op ++ [x]) :: segs, last, by simp [r8], ?_, r10, ?_, r12⟩
        · rw [r9, g1.2.2.2.2.2.1, hs1]; simp [finish, hd', ret, hc, hx]
        · intro g hg
          rcases List.mem_cons.1 hg with rfl | hg
          · exact ⟨op, x, rfl, hd', ho⟩
          · exact r11 g hg

/-! ### Theorems -/

/-- What one `learn` of DQN is to do in `m` steps stored, of `total`: see the fields. -/
structure Learned (c : Cfg Θ E O A) (total m t0 : ℕ) (e0 : E) (o0 : O) (θ tgt : Θ) (s : St Θ E O A) (l : List (Entry O A)) (y : E × O × Θ × Θ) : Prop where
  /-- `m` transitions were stored -/
  count : l.length = m
  /-- they are one interaction with the environment -/
  plays : Plays c.env c.act c.upd 0 (e0, o0, θ, tgt) l y
  /-- the buffer holds the latest of them, oldest first from the writing position on -/
  buffer : s.buf.storage.rotate s.buf.next = (l.map (·.tr)).drop ((l.map (·.tr)).length - c.size)
  /-- exploration, training and target updates of every step; `t0` is `num_timesteps` at the start -/
  entries : ∀ i en, l[i]? = some en → EntryOk c ((⌊c.fraction * total⌋ : ℤ) : ℚ) (t0 + i) i ((l.take (i + 1)).map (·.tr)) en
  /-- `episode_rewards` are the returns of the finished episodes, in order, and then that of the unfinished one -/
  episodes : ∃ (segs : List (List (Tr O A))) (last : List (Tr O A)), l.map (·.tr) = segs.flatten ++ last ∧ s.closed = segs.map ret ∧ s.cur = ret last ∧ (∀ g ∈ segs, Episode g) ∧ ∀ y ∈ last, y.done = false

/-- C98: DQN's `learn` when the callback does not stop it: exactly `total_timesteps` steps; exploration falls linearly with `num_timesteps`; a step trains exactly when `num_timesteps` is beyond
`learning_starts`, a multiple of `train_freq`, and `batch_size` transitions are stored, on `batch_size` of the latest `buffer_size` transitions; and so for the target network. -/
theorem C98_learn (c : Cfg Θ E O A) (total : ℕ) (reset : Bool) (e : E) (nts : ℕ) (θ tgt : Θ) (hT : 1 ≤ c.fraction * total) (hs : 0 < c.size) (h1 : 0 < c.trainFreq) (h2 : 0 < c.targetFreq)
    (hd : ∀ k len, 0 < len → (c.draws k len).length = c.batch ∧ ∀ i ∈ c.draws k len, i < len) (hstop : ∀ i, i < total → c.stop i = false) :
    ∃ s l y, learn c total reset e nts θ tgt = .ok (s, l, false) ∧ Learned c total total (if reset then 0 else nts) (c.env.reset e).1 (c.env.reset e).2 θ tgt s l y ∧
      (s.e, s.obs, s.θ, s.tgt) = y ∧ s.nts = (if reset then 0 else nts) + total := by
  have hT' : ⌊c.fraction * total⌋ ≠ 0 := by
    have : 1 ≤ ⌊c.fraction * total⌋ := Int.le_floor.2 (by exact_mod_cast hT)
    omega
  obtain ⟨s', l, y, r1, r2, r3, r4, r5, r6, r7, segs, last, r8, r9, r10, r11, r12⟩ := loop_ok c total hT' hs h1 h2 hd total total
    ⟨(c.env.reset e).1, (c.env.reset e).2, if reset then 0 else nts, 0, Replay.new c.size, θ, tgt, [], 0⟩ [] [] le_rfl (fun i hi => by simpa using hstop i hi) (fun h => absurd h (lt_irrefl _))
    (Replay.inv_new hs) (by simp) (by simp [ret])
  refine ⟨s', l, y, by simpa [learn] using r1, ⟨r2, r3, ?_, ?_, segs, last, by simpa using r8, by simpa using r9, r10, r11, r12⟩, (r4 rfl).1, (r4 rfl).2⟩
  · have := r6.order
    simpa [Replay.lastN] using this
  · intro i en hen
    simpa using r7 i en hen

/-- C98: when the callback stops it at step `m` (from 0), `m` transitions have been stored and the last step, though taken and counted, is neither stored nor learned from. -/
theorem C98_stopped (c : Cfg Θ E O A) (total m : ℕ) (reset : Bool) (e : E) (nts : ℕ) (θ tgt : Θ) (hT : 1 ≤ c.fraction * total) (hs : 0 < c.size) (h1 : 0 < c.trainFreq) (h2 : 0 < c.targetFreq)
    (hd : ∀ k len, 0 < len → (c.draws k len).length = c.batch ∧ ∀ i ∈ c.draws k len, i < len) (hm : m < total) (hstop : ∀ i, i < m → c.stop i = false) (hst : c.stop m = true) :
    ∃ s l y eps, learn c total reset e nts θ tgt = .ok (s, l, true) ∧ Learned c total m (if reset then 0 else nts) (c.env.reset e).1 (c.env.reset e).2 θ tgt s l y ∧
      (s.obs, s.θ, s.tgt) = (y.2.1, y.2.2.1, y.2.2.2) ∧ s.e = (c.env.step y.1 (c.act y.2.2.1 m y.2.1 eps)).1 ∧ s.nts = (if reset then 0 else nts) + m + 1 := by
  have hT' : ⌊c.fraction * total⌋ ≠ 0 := by
    have : 1 ≤ ⌊c.fraction * total⌋ := Int.le_floor.2 (by exact_mod_cast hT)
    omega
  obtain ⟨s', l, y, r1, r2, r3, r4, r5, r6, r7, segs, last, r8, r9, r10, r11, r12⟩ := loop_ok c total hT' hs h1 h2 hd m total
    ⟨(c.env.reset e).1, (c.env.reset e).2, if reset then 0 else nts, 0, Replay.new c.size, θ, tgt, [], 0⟩ [] [] hm.le (fun i hi => by simpa using hstop i hi) (fun _ => by simpa using hst)
    (Replay.inv_new hs) (by simp) (by simp [ret])
  obtain ⟨q1, q2, ep, q3⟩ := r5 hm
  refine ⟨s', l, y, ep, by simpa [learn, hm] using r1, ⟨r2, r3, ?_, ?_, segs, last, by simpa using r8, by simpa using r9, r10, r11, r12⟩, q1, by simpa using q3, q2⟩
  · have := r6.order
    simpa [Replay.lastN] using this
  · intro i en hen
    simpa using r7 i en hen

/-- C98 (defect): `int(exploration_fraction * total_timesteps) = 0`, as in short trainings, is a division by zero at the first step. -/
theorem C98_short (c : Cfg Θ E O A) (total : ℕ) (reset : Bool) (e : E) (nts : ℕ) (θ tgt : Θ) (h0 : 0 < total) (hf : 0 ≤ c.fraction) (hT : c.fraction * total < 1) :
    learn c total reset e nts θ tgt = .error .zeroDivision := by
  have hfl : ⌊c.fraction * total⌋ = 0 := Int.floor_eq_zero_iff.2 ⟨by positivity, hT⟩
  have hx : ∀ t, exploration c total t = .error .zeroDivision := fun t => by simp [exploration, Schedule.linearValue, hfl]
  obtain ⟨n, hn⟩ := Nat.exists_eq_succ_of_ne_zero (Nat.ne_of_gt h0)
  unfold learn
  rw [show loop c total total = loop c total (n + 1) by rw [← Nat.succ_eq_add_one, ← hn], loop, hx]

/-- C98 (defect): a batch larger than the replay buffer means that no step of any training learns anything, without a word: the parameters stay what they were. -/
theorem C98_never (c : Cfg Θ E O A) (total : ℕ) (reset : Bool) (e : E) (nts : ℕ) (θ tgt : Θ) (hT : 1 ≤ c.fraction * total) (hs : 0 < c.size) (h1 : 0 < c.trainFreq) (h2 : 0 < c.targetFreq)
    (hd : ∀ k len, 0 < len → (c.draws k len).length = c.batch ∧ ∀ i ∈ c.draws k len, i < len) (hstop : ∀ i, i < total → c.stop i = false) (hb : c.size < c.batch) :
    ∃ s l, learn c total reset e nts θ tgt = .ok (s, l, false) ∧ l.length = total ∧ s.θ = θ ∧ s.tgt = tgt := by
  obtain ⟨s, l, y, r1, r2, r3, r4⟩ := C98_learn c total reset e nts θ tgt hT hs h1 h2 hd hstop
  refine ⟨s, l, r1, r2.count, ?_⟩
  have hn : ∀ en ∈ l, en.trained = none ∧ en.synced = false := by
    intro en hen
    obtain ⟨i, hi⟩ := List.getElem?_of_mem hen
    have := r2.entries i en hi
    refine ⟨?_, ?_⟩
    · rcases ht : en.trained with _ | b
      · rfl
      · have := this.trained.1 ⟨b, ht⟩; omega
    · rcases ht : en.synced with _ | _
      · rfl
      · have := this.synced.1 ht; omega
  have key : ∀ (l : List (Entry O A)) (k : ℕ) (p y : E × O × Θ × Θ), Plays c.env c.act c.upd k p l y → (∀ en ∈ l, en.trained = none ∧ en.synced = false) → y.2.2 = p.2.2 := by
    intro l k p y h
    induction h with
    | nil => intro _; rfl
    | cons k e o θ tgt en rest e1 e2 o2 θ' y a1 a2 a3 a4 a5 a6 a7 a8 ih =>
      intro hh
      rw [ih (fun z hz => hh z (List.mem_cons_of_mem _ hz)), (hh en (by simp)).2, a7 (hh en (by simp)).1]
      simp
  have := key _ _ _ _ r2.plays hn
  rw [← r3] at this
  simpa using this

/-- C98: a second `learn` that goes on counting (`reset_num_timesteps=False`) starts with an empty buffer; once `num_timesteps` is past the exploration phase of the new call, it never explores more than
the final rate. -/
theorem C98_again (c : Cfg Θ E O A) (total : ℕ) (e : E) (nts : ℕ) (θ tgt : Θ) (hT : 1 ≤ c.fraction * total) (hs : 0 < c.size) (h1 : 0 < c.trainFreq) (h2 : 0 < c.targetFreq)
    (hd : ∀ k len, 0 < len → (c.draws k len).length = c.batch ∧ ∀ i ∈ c.draws k len, i < len) (hstop : ∀ i, i < total → c.stop i = false) (hn : c.fraction * total ≤ nts) :
    ∃ s l, learn c total false e nts θ tgt = .ok (s, l, false) ∧ s.buf.storage.length = min total c.size ∧ ∀ en ∈ l, en.eps = c.eps1 := by
  obtain ⟨s, l, y, r1, r2, r3, r4⟩ := C98_learn c total false e nts θ tgt hT hs h1 h2 hd hstop
  refine ⟨s, l, r1, ?_, ?_⟩
  · have := congrArg List.length r2.buffer
    rw [List.length_rotate, List.length_drop, List.length_map, r2.count] at this
    rw [this]; omega
  · intro en hen
    obtain ⟨i, hi⟩ := List.getElem?_of_mem hen
    rw [(r2.entries i en hi).eps, min_eq_right]
    · ring
    · have hfl : 1 ≤ ⌊c.fraction * total⌋ := Int.le_floor.2 (by exact_mod_cast hT)
      have hpos : (0 : ℚ) < ((⌊c.fraction * total⌋ : ℤ) : ℚ) := by exact_mod_cast (by omega : (0 : ℤ) < ⌊c.fraction * total⌋)
      rw [le_div_iff₀ hpos, one_mul]
      have h1 := Int.floor_le (c.fraction * total)
      simp only [Bool.false_eq_true, if_false]
      push_cast
      have : (0 : ℚ) ≤ (i : ℚ) := by positivity
      linarith

/-- C98 (defect): `train_freq = 0` is not refused; the training fails only at the first step beyond `learning_starts` with enough transitions stored (here the first step of a training with `learning_starts = 0` and batches of at most one), and
succeeds if it ends before. -/
theorem C98_freq_zero (c : Cfg Θ E O A) (hz : c.trainFreq = 0) (s : St Θ E O A) :
    (c.batch ≤ s.buf.storage.length → c.starts < s.nts → train c s = .error .zeroDivision) ∧
    (s.buf.storage.length < c.batch ∨ s.nts ≤ c.starts → train c s = .ok (s, none, false)) := by
  refine ⟨fun h1 h2 => by simp [train, due, modZero, hz, h1, h2], fun h => ?_⟩
  have : (decide (c.batch ≤ s.buf.storage.length) && decide (c.starts < s.nts)) = false := by
    rcases h with h | h
    · simp [Nat.not_le.2 h]
    · simp [Nat.not_lt.2 h]
  simp [train, due, this]

/-! ### Examples -/

/-- Episodes of three steps; the reward is the action. -/
def exEnv (vec : Bool) : Env ℕ ℕ ℕ := ⟨fun e a => if vec && (e % 3 == 2) then (e + 1, 100, a, true) else (e + 1, e + 1, a, e % 3 == 2), fun e => (e, 100), vec⟩

def exCfg : Cfg ℕ ℕ ℕ ℕ := ⟨exEnv false, fun θ k o eps => θ + 1, fun θ tgt b => θ + b.length, fun k len => [0, len - 1], fun k => k == 50, 3, 2, 2, 2, 4, 1 / 2, 1, 0⟩

/-- What the example run shows of itself. -/
def exShow : Py (St ℕ ℕ ℕ ℕ × List (Entry ℕ ℕ) × Bool) → List ℚ × List ℚ × List (ℕ × Bool × Bool)
  | .ok (s, l, f) => ([(s.nts : ℚ), s.θ, s.tgt, s.cur] ++ s.closed, l.map (·.eps), l.map fun en => (en.tr.obs, en.trained.isSome, en.synced))
  | .error _ => ([], [], [])

example : exShow (learn exCfg 4 true 0 0 0 0) =
    ([4, 2, 2, 1, 3], [1, 1 / 2, 0, 0], [(100, false, false), (1, false, false), (2, false, false), (100, true, true)]) := by decide +kernel

example : 1 ≤ exCfg.fraction * (4 : ℕ) ∧ 0 < exCfg.size ∧ 0 < exCfg.trainFreq ∧ 0 < exCfg.targetFreq ∧ ∀ i, i < 4 → exCfg.stop i = false := by decide +kernel

example : ∀ k len, 0 < len → (exCfg.draws k len).length = exCfg.batch ∧ ∀ i ∈ exCfg.draws k len, i < len := by
  intro k len h
  refine ⟨rfl, fun i hi => ?_⟩
  have : i = 0 ∨ i = len - 1 := by simpa [exCfg] using hi
  omega

/-- Half of one step rounds down to none. -/
example : (learn exCfg 1 true 0 0 0 0).isOk = false := by decide +kernel

end Neorl.DQN

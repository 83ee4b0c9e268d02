import Verif.Monitor
import Mathlib.Algebra.BigOperators.Group.List.Basic
import Mathlib.Algebra.Order.Ring.Rat

/-!
# C99: Monitor and evaluate_policy
-/

set_option linter.unusedSectionVars false
set_option linter.unusedVariables false
set_option linter.unusedSimpArgs false
set_option linter.unnecessarySimpa false

namespace Neorl.Monitor

variable {K V E O A S : Type}

/-! ### Specification -/

/-- What a call is to an observer: a reset, or a step with its reward and whether it ended the episode. -/
def Call.ev : Call K V → Option (K × Bool)
  | .reset _ => none
  | .step r d _ => some (r, d)

/-- One episode: the rewards of the steps that did not end it, and that of the step that did (none if it was given up by a reset). -/
abbrev Epi (K : Type) := List K × Option K

/-- The calls of an episode. -/
def Epi.calls (b : Epi K) : List (Option (K × Bool)) := none :: (b.1.map fun r => some (r, false)) ++ b.2.toList.map fun r => some (r, true)

/-- All its rewards. -/
def Epi.rews (b : Epi K) : List K := b.1 ++ b.2.toList

/-- The call gives all the keywords asked for. -/
def Given (c : Cfg K) : Call K V → Prop
  | .reset kw => ∀ k ∈ c.resetKeys, kw k ≠ none
  | .step _ _ info => ∀ k ∈ c.infoKeys, info k ≠ none

/-- A step is welcome while an episode is running, a reset if none is running or early resets are allowed. -/
def Welcome (c : Cfg K) (cur : Option (List K)) : Call K V → Prop
  | .reset _ => c.early = true ∨ cur = none
  | .step _ _ _ => cur ≠ none

/-- The calls that returned. -/
def accepted (xs : List (Call K V)) (bs : List Bool) : List (Call K V) := (xs.zip bs).filterMap fun p => if p.2 then some p.1 else none

/-! ### Lemmas -/

theorem resetLoop_ok (kw : String → Option V) : ∀ (ks : List String) (d : List (String × V)), (∀ k ∈ ks, kw k ≠ none) → (resetLoop kw ks d).2 = .ok ()
  | [], _, _ => rfl
  | k :: ks, d, h => by
    rw [resetLoop]
    rcases hk : kw k with _ | v
    · exact absurd hk (h k (by simp))
    · exact resetLoop_ok kw ks _ (fun j hj => h j (List.mem_cons_of_mem _ hj))

theorem infoLoop_ok (info : String → Option V) : ∀ ks : List String, (∀ k ∈ ks, info k ≠ none) → ∃ l, infoLoop info ks = .ok l
  | [], _ => ⟨[], rfl⟩
  | k :: ks, h => by
    obtain ⟨l, hl⟩ := infoLoop_ok info ks (fun j hj => h j (List.mem_cons_of_mem _ hj))
    rcases hk : info k with _ | v
    · exact absurd hk (h k (by simp))
    · exact ⟨(k, v) :: l, by rw [infoLoop, hk]; simp [hl]⟩

section
variable [AddCommMonoid K]

/-- What the monitor knows after the episodes `bs` and the running one `cur`. -/
structure Knows (c : Cfg K) (m : Mon K V) (bs : List (Epi K)) (cur : Option (List K)) : Prop where
  rews : m.epRews = (bs.filter (·.2.isSome)).map fun b => b.rews.sum
  lens : m.epLens = (bs.filter (·.2.isSome)).map fun b => b.rews.length
  rows : (m.rows.map fun l => (l.r, l.l)) = (bs.filter (·.2.isSome)).map fun b => (c.rnd b.rews.sum, b.rews.length)
  total : m.total = (bs.map fun b => b.rews.length).sum + (cur.toList.map List.length).sum
  needs : m.needsReset = cur.isNone
  running : ∀ l, cur = some l → m.rewards = some l
  strict : c.early = false → ∀ b ∈ bs, b.2.isSome = true

theorem call_knows (c : Cfg K) {m : Mon K V} {bs : List (Epi K)} {cur : Option (List K)} (h : Knows c m bs cur) (x : Call K V) (hx : Given c x) :
    ∃ bs' cur', Knows c (call c m x).1 bs' cur' ∧
      bs'.flatMap Epi.calls ++ cur'.toList.flatMap (fun l => Epi.calls (l, none)) =
        (bs.flatMap Epi.calls ++ cur.toList.flatMap fun l => Epi.calls (l, none)) ++ (if (call c m x).2 then [x.ev] else []) ∧
      ((call c m x).2 = true ↔ Welcome c cur x) := by
  cases x with
  | reset kw =>
    have hok := resetLoop_ok kw c.resetKeys m.resetInfo hx
    simp only [call]
    cases cur with
    | none =>
      have hn : m.needsReset = true := h.needs
      refine ⟨bs, some [], ?_, ?_, ?_⟩
      · simp only [reset, hn, Bool.not_true, Bool.and_false, Bool.false_eq_true, if_false]
        exact ⟨h.rews, h.lens, h.rows, by simpa using h.total, rfl, by intro l hl; simpa using hl, h.strict⟩
      · simp [reset, hn, hok, Epi.calls, Call.ev, Except.isOk, Except.toBool, Welcome]
      · simp [reset, hn, hok, Except.isOk, Except.toBool, Welcome]
    | some l =>
      have hn : m.needsReset = false := h.needs
      cases he : c.early with
      | false =>
        refine ⟨bs, some l, ?_, ?_, ?_⟩
        · simp only [reset, hn, he, Bool.not_false, Bool.and_true, if_true]
          exact h
        · simp [reset, hn, he, Except.isOk, Except.toBool, Welcome]
        · simp [reset, hn, he, Except.isOk, Except.toBool, Welcome]
      | true =>
        refine ⟨bs ++ [(l, none)], some [], ?_, ?_, ?_⟩
        · simp only [reset, hn, he, Bool.not_true, Bool.false_and, Bool.false_eq_true, if_false]
          refine ⟨by simpa using h.rews, by simpa using h.lens, by simpa using h.rows, ?_, rfl, by intro l hl; simpa using hl, fun h' => by rw [he] at h'; exact absurd h' (by simp)⟩
          simpa [Epi.rews] using h.total
        · simp [reset, hn, he, hok, Epi.calls, Call.ev, Except.isOk, Except.toBool, Welcome]
        · simp [reset, hn, he, hok, Except.isOk, Except.toBool, Welcome]
  | step r d info =>
    cases cur with
    | none =>
      have hn : m.needsReset = true := h.needs
      refine ⟨bs, none, ?_, ?_, ?_⟩ <;> simp [call, check, hn, Welcome]
      exact h
    | some l =>
      have hn : m.needsReset = false := h.needs
      have hr := h.running l rfl
      cases d with
      | false =>
        refine ⟨bs, some (l ++ [r]), ?_, ?_, ?_⟩
        · simp only [call, check, hn, record, hr, Bool.false_eq_true, if_false]
          refine ⟨h.rews, h.lens, h.rows, ?_, ?_, ?_, h.strict⟩
          · simp only [h.total]; simp; omega
          · simpa using hn
          · intro k hk; simpa using hk
        · simp [call, check, hn, record, hr, Epi.calls, Call.ev, Except.isOk, Except.toBool, Welcome]
        · simp [call, check, hn, record, hr, Except.isOk, Except.toBool, Welcome]
      | true =>
        obtain ⟨il, hil⟩ := infoLoop_ok info c.infoKeys hx
        refine ⟨bs ++ [(l, some r)], none, ?_, ?_, ?_⟩
        · simp only [call, check, hn, record, hr, hil, Bool.false_eq_true, if_false, if_true]
          refine ⟨?_, ?_, ?_, ?_, rfl, by simp, ?_⟩
          · simp [h.rews, List.filter_append, Epi.rews]
          · simp [h.lens, List.filter_append, Epi.rews]
          · simp [h.rows, List.filter_append, Epi.rews]
          · simp only [h.total]; simp [Epi.rews]; omega
          · intro he b hb
            rcases List.mem_append.1 hb with hb | hb
            · exact h.strict he b hb
            · rw [List.mem_singleton.1 hb]; rfl
        · simp [call, check, hn, record, hr, hil, Epi.calls, Call.ev, Except.isOk, Except.toBool, Welcome]
        · simp [call, check, hn, record, hr, hil, Except.isOk, Except.toBool, Welcome]

theorem run_knows (c : Cfg K) : ∀ (xs : List (Call K V)) (m : Mon K V) (bs : List (Epi K)) (cur : Option (List K)), Knows c m bs cur → (∀ x ∈ xs, Given c x) →
    ∃ bs' cur', Knows c (run c m xs).1 bs' cur' ∧
      bs'.flatMap Epi.calls ++ cur'.toList.flatMap (fun l => Epi.calls (l, none)) =
        (bs.flatMap Epi.calls ++ cur.toList.flatMap fun l => Epi.calls (l, none)) ++ (accepted xs (run c m xs).2).map Call.ev
  | [], m, bs, cur, h, _ => ⟨bs, cur, h, by simp [accepted, run]⟩
  | x :: xs, m, bs, cur, h, hx => by
    obtain ⟨b1, c1, g1, g2, _⟩ := call_knows c h x (hx x (by simp))
    obtain ⟨b2, c2, f1, f2⟩ := run_knows c xs _ b1 c1 g1 (fun y hy => hx y (List.mem_cons_of_mem _ hy))
    refine ⟨b2, c2, f1, ?_⟩
    rw [f2, g2, run]
    cases hb : (call c m x).2 <;> simp [accepted]

/-- C99: `Monitor`, for every sequence of calls (those that raise included): the accepted calls are a sequence of episodes, each begun by a reset; the recorded rewards and lengths are exactly those of the
episodes that ended (not of those given up by an early reset), in order, and so are the rows written, with the rewards rounded; every accepted step is counted; and a further step is accepted exactly
while an episode is running, a further reset exactly if early resets are allowed or none is running. -/
theorem C99_monitor (c : Cfg K) (xs : List (Call K V)) (hx : ∀ x ∈ xs, Given c x) :
    ∃ (bs : List (Epi K)) (cur : Option (List K)),
      (accepted xs (run c new xs).2).map Call.ev = bs.flatMap Epi.calls ++ cur.toList.flatMap (fun l => Epi.calls (l, none)) ∧
      (run c new xs).1.epRews = (bs.filter (·.2.isSome)).map (fun b => b.rews.sum) ∧
      (run c new xs).1.epLens = (bs.filter (·.2.isSome)).map (fun b => b.rews.length) ∧
      ((run c new xs).1.rows.map fun l => (l.r, l.l)) = (bs.filter (·.2.isSome)).map (fun b => (c.rnd b.rews.sum, b.rews.length)) ∧
      (run c new xs).1.total = ((accepted xs (run c new xs).2).filter (·.ev.isSome)).length ∧
      (c.early = false → ∀ b ∈ bs, b.2.isSome = true) ∧
      ∀ x, Given c x → ((call c (run c new xs).1 x).2 = true ↔ Welcome c cur x) := by
  obtain ⟨bs, cur, h, h1⟩ := run_knows c xs new [] none ⟨rfl, rfl, rfl, rfl, rfl, by simp, by simp⟩ hx
  refine ⟨bs, cur, by simpa using h1.symm, h.rews, h.lens, h.rows, ?_, h.strict, fun x hx' => ?_⟩
  · have h2 : ((accepted xs (run c new xs).2).filter (·.ev.isSome)).length = (((accepted xs (run c new xs).2).map Call.ev).filter Option.isSome).length := by
      rw [List.filter_map, List.length_map]; rfl
    rw [h.total, h2]
    simp only [List.flatMap_nil, Option.toList_none, List.nil_append] at h1
    rw [← h1, List.filter_append, List.length_append]
    have aux : ∀ b : Epi K, ((Epi.calls b).filter Option.isSome).length = b.rews.length := by
      intro b
      obtain ⟨l, o⟩ := b
      have e1 : ((l.map fun r => some (r, false)).filter Option.isSome) = l.map fun r => some (r, false) := List.filter_eq_self.2 (by simp)
      cases o <;> simp [Epi.calls, Epi.rews, e1]
    congr 1
    · clear h1 h
      induction bs with
      | nil => rfl
      | cons b bs ih => rw [List.flatMap_cons, List.filter_append, List.length_append, ← ih, aux]; simp
    · cases cur with
      | none => rfl
      | some l => simp [aux, Epi.rews]
  · obtain ⟨_, _, _, _, g⟩ := call_knows c h x hx'
    exact g

/-- C99: the row of a finished episode holds the values of all `info_keywords`; if one of them is missing in `info`, KeyError is raised, no row is written and the step is not counted. -/
theorem C99_info (c : Cfg K) (rew : K) (info : String → Option V) (m : Mon K V) {rs : List K} (hr : m.rewards = some rs) :
    (∀ line, (record c rew true info m).2 = .ok (some line) → line.info.map Prod.fst = c.infoKeys ∧ ∀ p ∈ line.info, info p.1 = some p.2) ∧
    ((∀ k ∈ c.infoKeys, (info k).isSome) → ∃ line, (record c rew true info m).2 = .ok (some line)) ∧
    ((∃ k ∈ c.infoKeys, info k = none) → (record c rew true info m).2 = .error .keyError ∧ (record c rew true info m).1.rows = m.rows ∧
      (record c rew true info m).1.total = m.total ∧ (record c rew true info m).1.needsReset = true) := by
  have key : ∀ ks : List String, (∀ l, infoLoop info ks = .ok l → l.map Prod.fst = ks ∧ ∀ p ∈ l, info p.1 = some p.2) ∧
      ((∀ k ∈ ks, (info k).isSome) → ∃ l, infoLoop info ks = .ok l) ∧ ((∃ k ∈ ks, info k = none) → infoLoop info ks = .error .keyError) := by
    intro ks
    induction ks with
    | nil =>
      refine ⟨fun l h => ?_, fun _ => ⟨[], rfl⟩, fun ⟨k, hk, _⟩ => by cases hk⟩
      simp only [infoLoop, Except.ok.injEq] at h
      subst h
      exact ⟨rfl, fun p hp => by cases hp⟩
    | cons k ks ih =>
      cases e : info k with
      | none =>
        refine ⟨fun l h => by simp [infoLoop, e] at h, fun h => ?_, fun _ => by simp [infoLoop, e]⟩
        have := h k List.mem_cons_self
        rw [e] at this
        cases this
      | some v =>
        refine ⟨fun l h => ?_, fun h => ?_, fun ⟨k', hk', hn⟩ => ?_⟩
        · cases e2 : infoLoop info ks with
          | error er => simp [infoLoop, e, e2] at h
          | ok l' =>
            simp only [infoLoop, e, e2, Except.ok.injEq] at h
            subst h
            obtain ⟨i1, i2⟩ := ih.1 l' e2
            refine ⟨by simp [i1], fun p hp => ?_⟩
            rcases List.mem_cons.1 hp with rfl | hp
            · exact e
            · exact i2 p hp
        · obtain ⟨l', e2⟩ := ih.2.1 fun k' hk' => h k' (List.mem_cons_of_mem _ hk')
          exact ⟨(k, v) :: l', by simp only [infoLoop, e, e2]⟩
        · rcases List.mem_cons.1 hk' with rfl | hk'
          · rw [e] at hn; cases hn
          · have e2 := ih.2.2 ⟨k', hk', hn⟩
            simp only [infoLoop, e, e2]
  obtain ⟨k1, k2, k3⟩ := key c.infoKeys
  refine ⟨fun line h => ?_, fun h => ?_, fun h => ?_⟩
  · unfold record at h
    rw [hr] at h
    cases e : infoLoop info c.infoKeys with
    | error er => simp [e] at h
    | ok l =>
      simp only [e, if_true, Except.ok.injEq, Option.some.injEq] at h
      subst h
      exact k1 l e
  · obtain ⟨l, e⟩ := k2 h
    refine ⟨⟨c.rnd (rs ++ [rew]).sum, (rs ++ [rew]).length, l, m.resetInfo⟩, ?_⟩
    unfold record
    rw [hr]
    simp only [e, if_true]
  · have e := k3 h
    unfold record
    rw [hr]
    simp only [e, if_true, and_self]

/-- C99: the values of `reset_keywords` in the rows of an episode are those given to its reset. -/
theorem C99_keywords (c : Cfg K) (kw : String → Option V) (m : Mon K V) (h : (reset c kw m).2 = .ok ()) (k : String) (hk : k ∈ c.resetKeys) :
    (reset c kw m).1.resetInfo.lookup k = kw k := by
  have hput : ∀ (d : List (String × V)) (a : String) (v : V) (b : String), (put d a v).lookup b = if b = a then some v else d.lookup b := by
    intro d a v b
    unfold put
    split_ifs with h1 h2 h2
    · subst h2
      induction d with
      | nil => simp at h1
      | cons p d ih =>
        obtain ⟨q, w⟩ := p
        by_cases hq : q = b
        · subst hq; simp [List.lookup]
        · have hm : b ∈ d.map Prod.fst := by
            rcases (List.mem_cons.1 h1) with h | h
            · exact absurd h.symm hq
            · exact h
          simp only [List.map_cons, if_neg hq, List.lookup_cons]
          rw [show (b == q) = false by simpa using fun e => hq e.symm]
          exact ih hm
    · clear h1
      induction d with
      | nil => rfl
      | cons p d ih =>
        obtain ⟨q, w⟩ := p
        by_cases hq : q = a
        · subst hq
          simp only [List.map_cons, if_pos, List.lookup_cons]
          rw [show (b == q) = false by simpa using h2]
          exact ih
        · simp only [List.map_cons, if_neg hq, List.lookup_cons]
          rw [ih]
    · subst h2
      rw [List.lookup_append, List.lookup_eq_none_iff.2 (by
        intro p hp
        simp only [bne_iff_ne, ne_eq]
        rintro rfl
        exact h1 (List.mem_map.2 ⟨p, hp, rfl⟩))]
      simp [List.lookup]
    · rw [List.lookup_append]
      have : (b == a) = false := by simpa using h2
      simp [List.lookup, this]
  have key : ∀ (ks : List String) (d : List (String × V)), (resetLoop kw ks d).2 = .ok () → ∀ j, (j ∈ ks ∨ d.lookup j = kw j) → (resetLoop kw ks d).1.lookup j = kw j := by
    intro ks
    induction ks with
    | nil => intro d _ j hj; simpa [resetLoop] using hj
    | cons a ks ih =>
      intro d hd j hj
      rw [resetLoop] at hd ⊢
      rcases hv : kw a with _ | v
      · rw [hv] at hd; simp at hd
      · rw [hv] at hd
        simp only at hd ⊢
        refine ih _ hd j ?_
        rw [hput]
        by_cases hja : j = a
        · right; rw [if_pos hja, hja, hv]
        · rw [if_neg hja]
          rcases hj with hj | hj
          · rcases List.mem_cons.1 hj with e | e
            · exact absurd e hja
            · exact Or.inl e
          · exact Or.inr hj
  unfold reset at h ⊢
  split_ifs with h1
  · rw [if_pos h1] at h; simp at h
  · rw [if_neg h1] at h
    exact key _ _ h k (Or.inl hk)

/-- C99 (defect): a reset refused because a keyword is missing counts as a reset all the same: the environment has not been reset, but steps are accepted and the rewards of the running episode are
forgotten. -/
theorem C99_reset_missing (c : Cfg K) (kw : String → Option V) (m : Mon K V) (he : c.early = true ∨ m.needsReset = true) {k : String} (hk : k ∈ c.resetKeys) (h : kw k = none) :
    (reset c kw m).2 = .error .valueError ∧ check (reset c kw m).1 = .ok () ∧ (reset c kw m).1.rewards = some [] := by
  have hc : (!c.early && !m.needsReset) = false := by rcases he with h | h <;> simp [h]
  have key : ∀ (ks : List String) (d : List (String × V)), k ∈ ks → (resetLoop kw ks d).2 = .error .valueError := by
    intro ks
    induction ks with
    | nil => intro d h; simp at h
    | cons a ks ih =>
      intro d ha
      rw [resetLoop]
      rcases hv : kw a with _ | v
      · rfl
      · rcases List.mem_cons.1 ha with rfl | ha
        · rw [h] at hv; simp at hv
        · exact ih _ ha
  simp [reset, hc, check, key _ _ hk]

/-! ### evaluate_policy -/

/-- One episode of the deterministic policy from the given observation: its rewards and where it ends. -/
inductive Traj (env : Machine E O A K) (predict : O → Option S → A × S) : E → O → Option S → List K → E → Prop
  | last (e o st e1 o1 r) : env.step e (predict o st).1 = .ok (e1, o1, r, true) → Traj env predict e o st [r] e1
  | more (e o st e1 o1 r rs e2) : env.step e (predict o st).1 = .ok (e1, o1, r, false) → Traj env predict e1 o1 (some (predict o st).2) rs e2 → Traj env predict e o st (r :: rs) e2

/-- Episodes one after the other, each from a reset and without hidden state. -/
inductive Chain (env : Machine E O A K) (predict : O → Option S → A × S) : E → List (List K) → E → Prop
  | nil (e) : Chain env predict e [] e
  | cons (e e1 o1 rs e2 rest e3) : env.reset e = .ok (e1, o1) → Traj env predict e1 o1 none rs e2 → Chain env predict e2 rest e3 → Chain env predict e (rs :: rest) e3

theorem episode_iff (env : Machine E O A K) (predict : O → Option S → A × S) : ∀ (fuel : ℕ) (e : E) (o : O) (st : Option S) (acc : K) (len : ℕ) (e' : E) (x : K) (l : ℕ),
    episode env predict fuel e o st acc len = .ok (some (e', x, l)) ↔ ∃ rs, Traj env predict e o st rs e' ∧ rs.length ≤ fuel ∧ x = acc + rs.sum ∧ l = len + rs.length
  | 0, e, o, st, acc, len, e', x, l => by
    simp only [episode, Except.ok.injEq, reduceCtorEq, false_iff]
    rintro ⟨rs, h, h1, _⟩
    cases h <;> simp at h1
  | fuel + 1, e, o, st, acc, len, e', x, l => by
    rw [episode]
    rcases hs : env.step e (predict o st).1 with err | ⟨e1, o1, r, d⟩
    · simp only [reduceCtorEq, false_iff]
      rintro ⟨rs, h, _⟩
      cases h with
      | last _ _ _ e1 o1 r h => rw [hs] at h; simp at h
      | more _ _ _ e1 o1 r rs _ h _ => rw [hs] at h; simp at h
    · cases d with
      | true =>
        simp only [if_true, Except.ok.injEq, Option.some.injEq, Prod.mk.injEq]
        constructor
        · rintro ⟨rfl, rfl, rfl⟩
          exact ⟨[r], .last _ _ _ _ _ _ hs, by simp, by simp, by simp⟩
        · rintro ⟨rs, h, h1, h2, h3⟩
          cases h with
          | last _ _ _ e1' o1' r' h =>
            rw [hs] at h
            simp only [Except.ok.injEq, Prod.mk.injEq, and_true] at h
            obtain ⟨rfl, rfl, rfl⟩ := h
            exact ⟨rfl, by simpa using h2.symm, by simpa using h3.symm⟩
          | more _ _ _ e1' o1' r' rs _ h _ => rw [hs] at h; simp at h
      | false =>
        simp only [Bool.false_eq_true, if_false]
        rw [episode_iff env predict fuel]
        constructor
        · rintro ⟨rs, h, h1, h2, h3⟩
          exact ⟨r :: rs, .more _ _ _ _ _ _ _ _ hs h, by simpa using h1, by rw [h2]; simp [add_assoc], by rw [h3]; simp; omega⟩
        · rintro ⟨rs, h, h1, h2, h3⟩
          cases h with
          | last _ _ _ e1' o1' r' h => rw [hs] at h; simp at h
          | more _ _ _ e1' o1' r' rs _ h ht =>
            rw [hs] at h
            simp only [Except.ok.injEq, Prod.mk.injEq, and_true] at h
            obtain ⟨rfl, rfl, rfl⟩ := h
            exact ⟨rs, ht, by simpa using h1, by rw [h2]; simp [add_assoc], by rw [h3]; simp; omega⟩

/-- C99: `evaluate_policy` plays `n_eval_episodes` episodes, each from a reset and with a fresh hidden state, and reports the sum of the rewards and the number of steps of each; conversely, whenever
such episodes exist, it finds them (if it is let run long enough). -/
theorem C99_evaluate (env : Machine E O A K) (predict : O → Option S → A × S) (fuel : ℕ) : ∀ (n : ℕ) (e e' : E) (out : List (K × ℕ)),
    episodes env predict fuel n e = .ok (some (e', out)) ↔
      ∃ trs, Chain env predict e trs e' ∧ trs.length = n ∧ (∀ rs ∈ trs, rs.length ≤ fuel) ∧ out = trs.map fun rs => (rs.sum, rs.length)
  | 0, e, e', out => by
    simp only [episodes, Except.ok.injEq, Option.some.injEq, Prod.mk.injEq]
    constructor
    · rintro ⟨rfl, rfl⟩; exact ⟨[], .nil _, rfl, by simp, rfl⟩
    · rintro ⟨trs, h, h1, _, h2⟩
      have : trs = [] := List.length_eq_zero_iff.1 h1
      subst this
      cases h
      exact ⟨rfl, by simpa using h2.symm⟩
  | n + 1, e, e', out => by
    rw [episodes]
    rcases hr : env.reset e with err | ⟨e1, o1⟩
    · simp only [reduceCtorEq, false_iff]
      rintro ⟨trs, h, h1, _⟩
      cases h with
      | nil => simp at h1
      | cons _ e1 o1 rs e2 rest _ h _ _ => rw [hr] at h; simp at h
    · simp only
      have noTraj : ∀ (P : Prop), (¬ ∃ e2 x l, episode env predict fuel e1 o1 none 0 0 = .ok (some (e2, x, l))) →
          ¬ ∃ trs, Chain env predict e trs e' ∧ trs.length = n + 1 ∧ (∀ rs ∈ trs, rs.length ≤ fuel) ∧ out = trs.map fun rs => (rs.sum, rs.length) := by
        rintro P hno ⟨trs, h, h1, h2, h3⟩
        cases h with
        | nil => simp at h1
        | cons _ e1' o1' rs e2 rest _ h ht hc =>
          rw [hr] at h
          simp only [Except.ok.injEq, Prod.mk.injEq] at h
          obtain ⟨rfl, rfl⟩ := h
          exact hno ⟨e2, rs.sum, rs.length, (episode_iff env predict fuel _ _ _ _ _ _ _ _).2 ⟨rs, ht, h2 rs (by simp), by simp, by simp⟩⟩
      rcases he : episode env predict fuel e1 o1 none 0 0 with err | _ | ⟨e2, x, l⟩
      · simp only [reduceCtorEq, false_iff]
        exact noTraj True (by rw [he]; simp)
      · simp only [Except.ok.injEq, reduceCtorEq, false_iff]
        exact noTraj True (by rw [he]; simp)
      · simp only
        obtain ⟨rs, t1, t2, t3, t4⟩ := (episode_iff env predict fuel _ _ _ _ _ _ _ _).1 he
        have back : ∀ trs, Chain env predict e trs e' → trs.length = n + 1 → (∀ rs ∈ trs, rs.length ≤ fuel) → ∃ rest, trs = rs :: rest ∧ Chain env predict e2 rest e' := by
          intro trs h h1 h2
          cases h with
          | nil => simp at h1
          | cons _ e1' o1' rs' e2' rest _ h ht hc =>
            rw [hr] at h
            simp only [Except.ok.injEq, Prod.mk.injEq] at h
            obtain ⟨rfl, rfl⟩ := h
            have huniq : ∀ (e : E) (o : O) (st : Option S) (a : List K) (u : E), Traj env predict e o st a u → ∀ b v, Traj env predict e o st b v → a = b ∧ u = v := by
              intro e o st a u h
              induction h with
              | last e o st e1 o1 r h =>
                intro b v hb
                cases hb with
                | last _ _ _ e1' o1' r' h' => rw [h] at h'; simp at h'; exact ⟨by rw [h'.2.2], h'.1⟩
                | more _ _ _ e1' o1' r' rs _ h' _ => rw [h] at h'; simp at h'
              | more e o st e1 o1 r rs e2 h _ ih =>
                intro b v hb
                cases hb with
                | last _ _ _ e1' o1' r' h' => rw [h] at h'; simp at h'
                | more _ _ _ e1' o1' r' rs' _ h' ht' =>
                  rw [h] at h'
                  simp only [Except.ok.injEq, Prod.mk.injEq, and_true] at h'
                  obtain ⟨rfl, rfl, rfl⟩ := h'
                  obtain ⟨i1, i2⟩ := ih _ _ ht'
                  exact ⟨by rw [i1], i2⟩
            obtain ⟨rfl, rfl⟩ := huniq _ _ _ _ _ t1 _ _ ht
            exact ⟨rest, rfl, hc⟩
        rcases hrec : episodes env predict fuel n e2 with err | _ | ⟨e3, outs⟩
        · simp only [reduceCtorEq, false_iff]
          rintro ⟨trs, h, h1, h2, h3⟩
          obtain ⟨rest, rfl, hc⟩ := back trs h h1 h2
          have := (C99_evaluate env predict fuel n e2 e' _).2 ⟨rest, hc, by simpa using h1, fun q hq => h2 q (List.mem_cons_of_mem _ hq), rfl⟩
          rw [hrec] at this; simp at this
        · simp only [Except.ok.injEq, reduceCtorEq, false_iff]
          rintro ⟨trs, h, h1, h2, h3⟩
          obtain ⟨rest, rfl, hc⟩ := back trs h h1 h2
          have := (C99_evaluate env predict fuel n e2 e' _).2 ⟨rest, hc, by simpa using h1, fun q hq => h2 q (List.mem_cons_of_mem _ hq), rfl⟩
          rw [hrec] at this; simp at this
        · simp only [Except.ok.injEq, Option.some.injEq, Prod.mk.injEq]
          constructor
          · rintro ⟨rfl, rfl⟩
            obtain ⟨trs, q1, q2, q3, q4⟩ := (C99_evaluate env predict fuel n e2 e3 outs).1 hrec
            refine ⟨rs :: trs, .cons _ _ _ _ _ _ _ hr t1 q1, by simp [q2], ?_, by simp [q4, t3, t4]⟩
            intro q hq
            rcases List.mem_cons.1 hq with rfl | hq
            · exact t2
            · exact q3 q hq
          · rintro ⟨trs, h, h1, h2, h3⟩
            obtain ⟨rest, rfl, hc⟩ := back trs h h1 h2
            have := (C99_evaluate env predict fuel n e2 e' _).2 ⟨rest, hc, by simpa using h1, fun q hq => h2 q (List.mem_cons_of_mem _ hq), rfl⟩
            rw [hrec] at this
            simp only [Except.ok.injEq, Option.some.injEq, Prod.mk.injEq] at this
            exact ⟨this.1, by rw [h3, this.2]; simp [t3, t4]⟩

theorem monitored_traj (early : Bool) (env : Machine E O A K) (predict : O → Option S → A × S) {e : E} {o : O} {st : Option S} {rs : List K} {e' : E} (h : Traj env predict e o st rs e') :
    ∀ (m : Mon K Unit) (done : List K), m.needsReset = false → m.rewards = some done →
      ∃ m', Traj (monitored early env) predict (m, e) o st rs (m', e') ∧ m'.needsReset = true ∧ m'.epRews = m.epRews ++ [(done ++ rs).sum] ∧ m'.epLens = m.epLens ++ [(done ++ rs).length] := by
  induction h with
  | last e o st e1 o1 r h =>
    intro m done h1 h2
    exact ⟨_, .last _ _ _ _ o1 _ (by simp [monitored, check, h1, h, record, h2, infoLoop]; rfl), rfl, by simp, by simp⟩
  | more e o st e1 o1 r rs e2 h _ ih =>
    intro m done h1 h2
    obtain ⟨m', g1, g2, g3, g4⟩ := ih { m with rewards := some (done ++ [r]), total := m.total + 1 } (done ++ [r]) h1 rfl
    exact ⟨m', .more _ _ _ _ o1 _ _ _ (by simp [monitored, check, h1, h, record, h2]) g1, g2, by simpa using g3, by simpa using g4⟩

/-- C99: evaluating a monitored environment gives what evaluating the environment alone gives, and the monitor has recorded the same episodes. -/
theorem C99_monitored (early : Bool) (env : Machine E O A K) (predict : O → Option S → A × S) (fuel n : ℕ) (e e' : E) (out : List (K × ℕ)) (m : Mon K Unit)
    (hm : early = true ∨ m.needsReset = true) (h : episodes env predict fuel n e = .ok (some (e', out))) :
    ∃ m', episodes (monitored early env) predict fuel n (m, e) = .ok (some ((m', e'), out)) ∧ m'.epRews = m.epRews ++ out.map Prod.fst ∧ m'.epLens = m.epLens ++ out.map Prod.snd := by
  obtain ⟨trs, h1, h2, h3, h4⟩ := (C99_evaluate env predict fuel n e e' out).1 h
  have key : ∀ (e : E) (trs : List (List K)) (e' : E), Chain env predict e trs e' → ∀ m : Mon K Unit, (early = true ∨ m.needsReset = true) →
      ∃ m', Chain (monitored early env) predict (m, e) trs (m', e') ∧ m'.epRews = m.epRews ++ trs.map List.sum ∧ m'.epLens = m.epLens ++ trs.map List.length := by
    intro e trs e' hc
    induction hc with
    | nil e => intro m _; exact ⟨m, .nil _, by simp, by simp⟩
    | cons e e1 o1 rs e2 rest e3 hr ht _ ih =>
      intro m hm
      obtain ⟨m1, g1, g2, g3, g4⟩ := monitored_traj early env predict ht { m with rewards := some [], needsReset := false } [] rfl rfl
      obtain ⟨m2, f1, f2, f3⟩ := ih m1 (Or.inr g2)
      have hc : early = false → m.needsReset = true := by rcases hm with h | h <;> simp [h]
      refine ⟨m2, .cons _ _ o1 _ _ _ _ ?_ g1 f1, by rw [f2, g3]; simp, by rw [f3, g4]; simp⟩
      have hc' : (!early && !m.needsReset) = false := by cases he : early <;> simp_all
      simp only [monitored, reset, hc', resetLoop, hr, Bool.false_eq_true, if_false]
  obtain ⟨m', g1, g2, g3⟩ := key e trs e' h1 m hm
  refine ⟨m', (C99_evaluate _ predict fuel n _ _ _).2 ⟨trs, g1, h2, h3, h4⟩, by rw [g2, h4]; simp [Function.comp_def], by rw [g3, h4]; simp [Function.comp_def]⟩

/-- C99 (defect): a monitor that does not allow early resets, inside a vectorised environment of one: `evaluate_policy` raises at the second episode, because the vectorised environment has reset itself
at the end of the first and `evaluate_policy` resets it again. -/
theorem C99_vec_monitor (env : Machine E O A K) (predict : O → Option S → A × S) (fuel n : ℕ) (s : Mon K Unit × E) {x : (Mon K Unit × E) × List (K × ℕ)}
    (h : episodes (vec1 (monitored false env)) predict fuel 1 s = .ok (some x)) :
    episodes (vec1 (monitored false env)) predict fuel (n + 2) s = .error .runtimeError := by
  rw [episodes] at h
  rw [episodes]
  rcases hr : (vec1 (monitored false env)).reset s with err | ⟨e1, o1⟩
  · rw [hr] at h; simp at h
  · rw [hr] at h
    simp only at h ⊢
    rcases he : episode (vec1 (monitored false env)) predict fuel e1 o1 none 0 0 with err | _ | ⟨e2, y, l⟩
    · rw [he] at h; simp at h
    · rw [he] at h; simp at h
    · simp only
      obtain ⟨rs, t, _⟩ := (episode_iff _ predict fuel _ _ _ _ _ _ _ _).1 he
      have key : ∀ (s : Mon K Unit × E) (o : O) (st : Option S) (rs : List K) (s' : Mon K Unit × E), Traj (vec1 (monitored false env)) predict s o st rs s' → s'.1.needsReset = false := by
        intro s o st rs s' h
        induction h with
        | last e o st e1 o1 r h =>
          simp only [vec1] at h
          rcases hs : (monitored false env).step e (predict o st).1 with err | ⟨e2, o2, r2, d⟩
          · rw [hs] at h; simp at h
          · rw [hs] at h
            simp only at h
            cases d with
            | false => simp at h
            | true =>
              simp only [if_true] at h
              rcases hr2 : (monitored false env).reset e2 with err | ⟨e3, o3⟩
              · rw [hr2] at h; simp at h
              · rw [hr2] at h
                simp only [Except.ok.injEq, Prod.mk.injEq] at h
                rw [← h.1]
                simp only [monitored, reset] at hr2
                split_ifs at hr2 with hc
                · simp only [resetLoop] at hr2
                  rcases hi : env.reset e2.2 with err | ⟨e4, o4⟩
                  · rw [hi] at hr2; simp at hr2
                  · rw [hi] at hr2
                    simp only [Except.ok.injEq, Prod.mk.injEq] at hr2
                    rw [← hr2.1]
        | more e o st e1 o1 r rs e2 h _ ih => exact ih
      have hn := key _ _ _ _ _ t
      rw [episodes]
      have : (vec1 (monitored false env)).reset e2 = .error .runtimeError := by simp [vec1, monitored, reset, hn]
      rw [this]

end

/-- C99 (defect): the threshold has to be exceeded; a mean reward equal to it raises with the message that it is below. -/
theorem C99_threshold [Field K] [LinearOrder K] (t : K) (rs : List (K × ℕ)) :
    (verdict (some t) rs = .ok ((rs.map Prod.fst).sum / rs.length) ↔ t < (rs.map Prod.fst).sum / rs.length) ∧
    (verdict (some t) rs = .error .assertion ↔ ¬ t < (rs.map Prod.fst).sum / rs.length) ∧ verdict none rs = .ok ((rs.map Prod.fst).sum / rs.length) := by
  refine ⟨?_, ?_, rfl⟩ <;> by_cases h : t < (rs.map Prod.fst).sum / rs.length <;> simp [verdict, h]

/-! ### Examples -/

/-- Early resets allowed; one keyword. -/
def exC (early : Bool) : Cfg ℤ := ⟨early, ["level"], [], id⟩

def exKw : String → Option ℤ := fun k => if k = "level" then some 7 else none

/-- A step too early, an episode of two steps, a step too many, an episode given up. -/
def exCalls : List (Call ℤ ℤ) := [.step 9 false (fun _ => none), .reset exKw, .step 1 false (fun _ => none), .step 2 true (fun _ => none), .step 5 false (fun _ => none), .reset exKw,
  .step 4 false (fun _ => none), .reset exKw]

example : ∀ x ∈ exCalls, Given (exC true) x := by
  simp [exCalls, Given, exC, exKw]

example : (run (exC true) new exCalls).2 = [false, true, true, true, false, true, true, true] ∧ (run (exC true) new exCalls).1.epRews = [3] ∧ (run (exC true) new exCalls).1.epLens = [2] ∧
    (run (exC true) new exCalls).1.total = 3 ∧ (run (exC false) new exCalls).2 = [false, true, true, true, false, true, true, false] := by decide +kernel

/-- Episodes of three steps, the reward is the number of the step. -/
def exM : Machine ℕ ℕ ℕ ℤ := ⟨fun e => .ok (0, 0), fun e a => .ok (e + 1, e + 1, (e + 1 : ℤ), e == 2)⟩

def exP : ℕ → Option ℕ → ℕ × ℕ := fun o s => (o, 0)

example : (episodes exM exP 10 2 0) = .ok (some (3, [(6, 3), (6, 3)])) := by decide +kernel

example : ∃ x, episodes (vec1 (monitored false exM)) exP 10 1 (new, 0) = .ok (some x) := by
  simp [episodes, episode, vec1, monitored, reset, new, resetLoop, exM, exP, check, record, infoLoop]

example : verdict (some (6 : ℚ)) [(6, 3), (6, 3)] = .error .assertion := by decide +kernel

end Neorl.Monitor

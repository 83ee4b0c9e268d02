import Verif.KP
import Mathlib.Tactic.Linarith
import Mathlib.Data.Rat.Floor

/-!
# C58 (second half): the knapsack environment
-/

set_option linter.unusedSectionVars false
set_option linter.unusedVariables false

namespace Neorl.KP

variable {K : Type} [Field K] [LinearOrder K] [IsStrictOrderedRing K]

theorem Mid.seen_ok {P : Prob K} {e : Env K} {s : List ℕ} (h : Mid P e s) : (s ++ e.ids).Nodup ∧ ∀ i ∈ s ++ e.ids, i ∈ P.all := by
  constructor
  · exact h.ids.nodup_iff.2 (by unfold Prob.all; exact List.nodup_range' 1)
  · intro i hi; exact h.ids.mem_iff.1 hi

/-- A closed knapsack `s`: different objects, within the capacity, with an object outside that does not fit any more. -/
structure Closed (P : Prob K) (s : List ℕ) (o : ℕ) : Prop where
  nodup : s.Nodup
  sub : ∀ i ∈ s, i ∈ P.all
  fits : (s.map P.wt).sum ≤ P.cap
  out : o ∈ P.all ∧ o ∉ s
  full : P.cap < (s.map P.wt).sum + P.wt o

theorem closed_of_put {P : Prob K} {e : Env K} {s : List ℕ} (hi : Mid P e s) {o : ℕ} (ho : o ∈ e.ids) (hc : P.cap < (s.map P.wt).sum + P.wt o) : Closed P s o := by
  obtain ⟨h1, h2⟩ := hi.seen_ok
  refine ⟨h1.sublist (List.sublist_append_left _ _), fun i hi' => h2 i (by simp [hi']), hi.cap, ⟨h2 o (by simp [ho]), ?_⟩, hc⟩
  intro h
  exact List.disjoint_of_nodup_append h1 h ho

theorem fill_mid {P : Prob K} (hP : P.Clear) : ∀ {x : List (ℕ × ℕ)} {e e' : Env K} {s : List ℕ}, Mid P e s → (s ≠ [] ∨ x = []) → s.length + x.length = P.n → fill P e x = .ok e' →
    ∃ t o, e'.list = e.list ++ t ++ [o] ∧ SameStats e e' ∧ Shape P (s ++ t) e'.vs e'.ws ∧ Closed P (s ++ t) o
  | [], e, e', s, hi, h0, hl, h => by have := hi.room; simp at hl; omega
  | (a, r) :: x, e, e', s, hi, h0, hl, h => by
    have hne : s ≠ [] := by rcases h0 with h | h; exact h; simp at h
    have hc : e.counter ≠ 0 := by rw [hi.counter]; simpa using hne
    simp only [fill] at h
    rw [if_neg hc] at h
    split at h
    · cases h
    · rename_i e1 hv
      simp only [Except.ok.injEq] at h
      subst h
      obtain ⟨o, ho, _, hlst, hst, _, _, hb⟩ := put_spec hP hi hv
      obtain ⟨hsh, hcap⟩ := hb rfl
      exact ⟨[], o, by simp [hlst], hst, by simpa using hsh, by simpa using closed_of_put hi ho hcap⟩
    · rename_i e1 hv
      obtain ⟨o, ho, _, hlst, hst, _, hb, _⟩ := put_spec hP hi hv
      obtain ⟨t, o', h1, h2, h3, h4⟩ := fill_mid hP (hb rfl) (Or.inl (by simp)) (by simp at hl ⊢; omega) h
      exact ⟨o :: t, o', by rw [h1, hlst]; simp, ⟨h2.1.trans hst.1, h2.2.1.trans hst.2.1, h2.2.2.1.trans hst.2.2.1, h2.2.2.2.trans hst.2.2.2⟩, by simpa using h3, by simpa using h4⟩

theorem fill_spec {P : Prob K} (hP : P.Clear) (hcap : 0 ≤ P.cap) (hn : 0 < P.n) {x : List (ℕ × ℕ)} (hx : x.length = P.n) {e e' : Env K}
    (h : fill P { e with counter := 0 } x = .ok e') :
    ∃ t o, e'.list = e.list ++ t ++ [o] ∧ e'.sub = e.sub ∧ e'.best = e.best ∧ e'.episode = e.episode ∧ e'.done = false ∧ Shape P t e'.vs e'.ws ∧ Closed P t o := by
  cases x with
  | nil => simp at hx; omega
  | cons p x =>
    obtain ⟨a, r⟩ := p
    simp only [fill, if_true] at h
    have hm0 : Mid P (reset P { e with counter := 0 }) [] := mid_reset hcap hn _ rfl
    split at h
    · cases h
    · rename_i e1 hv
      simp only [Except.ok.injEq] at h
      subst h
      obtain ⟨o, ho, _, hlst, hst, _, _, hb⟩ := put_spec hP hm0 hv
      obtain ⟨hsh, hcp⟩ := hb rfl
      exact ⟨[], o, by simp [hlst, reset, wipe], hst.1, hst.2.1, hst.2.2.1, hst.2.2.2, hsh, closed_of_put hm0 ho hcp⟩
    · rename_i e1 hv
      obtain ⟨o, ho, _, hlst, hst, _, hb, _⟩ := put_spec hP hm0 hv
      obtain ⟨t, o', h1, h2, h3, h4⟩ := fill_mid hP (hb rfl) (Or.inl (by simp)) (by simp at hx ⊢; omega) h
      exact ⟨o :: t, o', by rw [h1, hlst]; simp [reset, wipe], h2.1.trans hst.1, h2.2.1.trans hst.2.1, h2.2.2.1.trans hst.2.2.1, h2.2.2.2.trans hst.2.2.2, by simpa using h3, by simpa using h4⟩

/-- Between two knapsacks. -/
structure Idle (L : ℕ) (e : Env K) : Prop where
  list : e.list = []
  sub : e.sub < L

theorem Closed.room {P : Prob K} {s : List ℕ} {o : ℕ} (h : Closed P s o) : s.length < P.n := by
  have h1 : (o :: s).Nodup := List.nodup_cons.2 ⟨h.out.2, h.nodup⟩
  have h2 : (o :: s) ⊆ P.all := by
    intro i hi
    simp only [List.mem_cons] at hi
    rcases hi with rfl | hi
    · exact h.out.1
    · exact h.sub i hi
  have := (List.subperm_of_subset h1 h2).length_le
  simp [Prob.all] at this
  omega

theorem close_spec {P : Prob K} (hP : P.Clear) {L : ℕ} {e e' : Env K} {s : List ℕ} {o : ℕ} (hl : e.list = s ++ [o]) (hsh : Shape P s e.vs e.ws) (hc : Closed P s o)
    (hsub : e.sub < L) : ∃ e' r, close P L e = .ok (e', r) ∧ r.x = s ∧ r.reward = (s.map P.val).sum ∧ e'.best = max e.best r.reward ∧ Idle L e' ∧
      e'.sub = (e.sub + 1) % L ∧ e'.episode = e.episode + (if e.sub + 1 = L then 1 else 0) ∧ r.done = (if e.sub + 1 = L then true else e.done) ∧
      e'.vs = List.replicate P.n blank ∧ e'.ws = List.replicate P.n blank ∧ e'.rs = List.replicate P.n blank ∧ e'.ids = P.all ∧ e'.counter = e.counter := by
  have hval := (hsh.total hP).2
  rw [if_pos hc.room] at hval
  unfold close record
  rw [hval]
  dsimp only
  set S := (s.map P.val).sum with hS
  set e2 : Env K := if S - e.best > 0 then { e with best := S } else e with he2
  have b2 : e2.best = max e.best S ∧ e2.sub = e.sub ∧ e2.list = s ++ [o] ∧ e2.done = e.done ∧ e2.episode = e.episode ∧ e2.counter = e.counter := by
    rw [he2]
    split_ifs with hc
    · exact ⟨by dsimp only; rw [max_eq_right (by linarith)], rfl, hl, rfl, rfl, rfl⟩
    · exact ⟨by rw [max_eq_left (by linarith)], rfl, hl, rfl, rfl, rfl⟩
  obtain ⟨c1, c2, c3, c4, c5, c6⟩ := b2
  unfold next
  dsimp only
  rw [c2, c3, if_pos (by omega), if_neg (by simp), List.dropLast_concat]
  refine ⟨_, _, rfl, ?_⟩
  unfold wipe
  dsimp only
  by_cases hL : e.sub + 1 = L
  · simp only [if_pos hL]
    exact ⟨by trivial, by trivial, c1, ⟨rfl, by dsimp only; omega⟩, by rw [hL]; simp, by rw [c5], by trivial, by trivial, by trivial, by trivial, by trivial, c6⟩
  · simp only [if_neg hL]
    exact ⟨by trivial, by trivial, c1, ⟨rfl, by dsimp only; omega⟩, by rw [Nat.mod_eq_of_lt (by omega)], by rw [c5]; rfl, by simp [c4], by trivial, by trivial, by trivial, by trivial, c6⟩

/-- **C58 (a whole knapsack).**  Whatever actions are given and whatever is drawn for invalid ones, a finished call with one action per object reports different
objects whose total weight is within the capacity, closed because a further chosen object no longer fits; the reward is their total value; the best value and the end
of the episode are tracked. -/
theorem C58_kp_step {P : Prob K} (hP : P.Clear) (hcap : 0 ≤ P.cap) (hn : 0 < P.n) {L : ℕ} {e e' : Env K} (he : Idle L e) {x : List (ℕ × ℕ)} (hx : x.length = P.n) {r : Out K}
    (h : stepAll P L e x = .ok (e', r)) :
    (∃ o, Closed P r.x o) ∧ r.reward = (r.x.map P.val).sum ∧ e'.best = max e.best r.reward ∧ Idle L e' ∧ (r.done = true ↔ e.sub + 1 = L) ∧ e'.sub = (e.sub + 1) % L ∧
    e'.episode = e.episode + (if e.sub + 1 = L then 1 else 0) := by
  unfold stepAll at h
  split at h
  · cases h
  rename_i e1 hf
  obtain ⟨t, o, h1, h2, h3, h4, h5, h6, h7⟩ := fill_spec hP hcap hn hx hf
  obtain ⟨e2, r2, g1, g2, g3, g4, g5, g6, g7, g8, -⟩ := close_spec hP (L := L) (e' := e1) (by rw [h1, he.list]; rfl) h6 h7 (by rw [h2]; exact he.sub)
  rw [g1] at h
  simp only [Except.ok.injEq, Prod.mk.injEq] at h
  obtain ⟨rfl, rfl⟩ := h
  refine ⟨⟨o, by rw [g2]; exact h7⟩, by rw [g3, g2], by rw [g4, h3], g5, ?_, by rw [g6, h2], by rw [g7, h4, h2]⟩
  rw [g8, h2, h5]
  simp

/-- **C58 (one object per call).**  From an open knapsack a call takes one unused object - the one chosen if the action is valid.  If it fits it is kept and the
reward is zero; otherwise the knapsack without it is reported with its total value. -/
theorem C58_kp_single {P : Prob K} (hP : P.Clear) (hcap : 0 ≤ P.cap) {L : ℕ} {e e' : Env K} {s : List ℕ} (hi : Mid P e s) (hl : e.list = s) (hs : e.sub < L) {a r : ℕ} {q : Out K}
    (h : stepOne P L e a r = .ok (e', q)) :
    ∃ o ∈ e.ids, (∀ j, a < e.ids.length → e.ids[a]? = some j → o = j) ∧
      (((s.map P.wt).sum + P.wt o ≤ P.cap ∧ Mid P e' (s ++ [o]) ∧ e'.list = s ++ [o] ∧ q.x = s ++ [o] ∧ q.reward = 0 ∧ e'.sub = e.sub ∧ e'.best = e.best) ∨
       (Closed P s o ∧ q.x = s ∧ q.reward = (s.map P.val).sum ∧ e'.best = max e.best q.reward ∧ Mid P e' [] ∧ e'.list = [] ∧ e'.sub = (e.sub + 1) % L)) := by
  unfold stepOne at h
  split at h
  · cases h
  · rename_i e1 hv
    obtain ⟨o, ho, hch, hlst, hst, hroom, _, hb⟩ := put_spec hP hi hv
    obtain ⟨hsh, hcp⟩ := hb rfl
    refine ⟨o, ho, hch, Or.inr ?_⟩
    have hcl := closed_of_put hi ho hcp
    obtain ⟨e2, r2, g1, g2, g3, g4, g5, g6, g7, g8, g9, g10, g11, g12, g13⟩ := close_spec hP (L := L) (e := { e1 with counter := 0 }) (e' := e1) (by dsimp only; rw [hlst, hl]) hsh hcl (by dsimp only; rw [hst.1]; exact hs)
    rw [g1] at h
    simp only [Except.ok.injEq, Prod.mk.injEq] at h
    obtain ⟨rfl, rfl⟩ := h
    dsimp only at g4 g6
    refine ⟨hcl, g2, g3, by rw [g4, hst.2.1], ⟨⟨by simpa using g9, by simpa using g10, by simp⟩, by rw [g12]; exact .refl _, g13, by simpa using hcap, by simp; omega⟩, g5.list, by rw [g6, hst.1]⟩
  · rename_i e1 hv
    obtain ⟨o, ho, hch, hlst, hst, hroom, hb, _⟩ := put_spec hP hi hv
    have hm := hb rfl
    simp only [Except.ok.injEq] at h
    unfold finish at h
    dsimp only at h
    rw [if_neg (by rw [hst.1]; omega)] at h
    simp only [Prod.mk.injEq] at h
    obtain ⟨rfl, rfl⟩ := h
    refine ⟨o, ho, hch, Or.inl ⟨?_, hm, by rw [hlst, hl], by dsimp only; rw [hlst, hl], rfl, hst.1, hst.2.1⟩⟩
    have := hm.cap
    simpa using this

theorem put_rs {P : Prob K} {e e1 : Env K} {a r : ℕ} (h : put P e a r = .ok (e1, false)) : ∃ o, e1.list = e.list ++ [o] ∧ e1.rs = e.rs.set e.counter (P.wt o / P.val o) := by
  unfold put at h
  split at h
  · cases h
  · rename_i i _
    dsimp only at h
    split_ifs at h
    split at h
    · cases h
    · split_ifs at h
      · simp at h
      · simp only [Except.ok.injEq, Prod.mk.injEq, and_true] at h
        subst h
        exact ⟨_, rfl, rfl⟩

/-- **C58 (what is observed).**  With one object per call the observation shows, for the objects in the open knapsack in the order chosen, value, weight and weight per value; the other rows are empty.  After a knapsack is
closed all rows are empty. -/
theorem C58_kp_columns {P : Prob K} (hP : P.Clear) (hcap : 0 ≤ P.cap) {L : ℕ} {e e' : Env K} {s : List ℕ} (hi : Mid P e s) (hl : e.list = s) (hs : e.sub < L) {a r : ℕ} {q : Out K}
    (hr : e.rs = s.map (fun i => P.wt i / P.val i) ++ List.replicate (P.n - s.length) blank) (h : stepOne P L e a r = .ok (e', q)) :
    Mid P e' e'.list ∧ q.obs = (e'.list.map P.val ++ List.replicate (P.n - e'.list.length) blank, e'.list.map P.wt ++ List.replicate (P.n - e'.list.length) blank,
      e'.list.map (fun i => P.wt i / P.val i) ++ List.replicate (P.n - e'.list.length) blank) ∧ q.obs = (e'.vs, e'.ws, e'.rs) ∧ q.done = e'.done := by
  have hsingle := C58_kp_single hP hcap hi hl hs h
  unfold stepOne at h
  split at h
  · cases h
  · rename_i e1 hv
    obtain ⟨o, ho, hch, hlst, hst, hroom, _, hb⟩ := put_spec hP hi hv
    obtain ⟨hsh, hcp⟩ := hb rfl
    have hcl := closed_of_put hi ho hcp
    obtain ⟨e2, r2, g1, g2, g3, g4, g5, g6, g7, g8, g9, g10, g11, g12, g13⟩ := close_spec hP (L := L) (e := { e1 with counter := 0 }) (e' := e1) (by dsimp only; rw [hlst, hl]) hsh hcl (by dsimp only; rw [hst.1]; exact hs)
    have hobs : r2.obs = (e2.vs, e2.ws, e2.rs) ∧ r2.done = e2.done := by
      unfold close at g1
      split at g1
      · cases g1
      · split at g1
        · cases g1
        · simp only [Except.ok.injEq, finish, Prod.mk.injEq] at g1
          obtain ⟨g1, g1'⟩ := g1
          subst g1 g1'
          exact ⟨rfl, rfl⟩
    rw [g1] at h
    simp only [Except.ok.injEq, Prod.mk.injEq] at h
    obtain ⟨rfl, rfl⟩ := h
    refine ⟨?_, ?_, hobs⟩
    · rw [g5.list]
      exact ⟨⟨by simpa using g9, by simpa using g10, by simp⟩, by rw [g12]; exact .refl _, g13, by simpa using hcap, by have := hi.room; simp; omega⟩
    · rw [hobs.1, g5.list, g9, g10, g11]
      simp
  · rename_i e1 hv
    obtain ⟨o, ho, hch, hlst, hst, hroom, hb, _⟩ := put_spec hP hi hv
    obtain ⟨o', ho', hrs⟩ := put_rs hv
    have : o' = o := by rw [hlst] at ho'; simpa using ho'.symm
    subst this
    have hm := hb rfl
    simp only [Except.ok.injEq] at h
    unfold finish at h
    dsimp only at h
    rw [if_neg (by rw [hst.1]; omega)] at h
    simp only [Prod.mk.injEq] at h
    obtain ⟨rfl, rfl⟩ := h
    have hel : e1.list = s ++ [o'] := by rw [hlst, hl]
    rw [hel]
    refine ⟨hm, ?_, rfl, rfl⟩
    obtain ⟨m1, m2, m3⟩ := hm.shape
    refine Prod.ext m1 (Prod.ext m2 ?_)
    show e1.rs = _
    rw [hrs, hr, hi.counter]
    obtain ⟨m, hm⟩ : ∃ m, P.n - s.length = m + 1 := ⟨P.n - s.length - 1, by have := hi.room; omega⟩
    have hm' : P.n - (s ++ [o']).length = m := by simp; omega
    rw [hm, hm', List.set_append_right _ _ (by simp)]; simp [List.replicate_succ]

/-- **C58.** An episode length of 0 never works: the first knapsack that is closed raises an error. -/
theorem C58_kp_no_length (P : Prob K) {e : Env K} (he : e.sub = 0) : ∀ q, close P 0 e ≠ .ok q := by
  intro q h
  unfold close at h
  split at h
  · cases h
  · rename_i s e1 hr
    have : e1.sub = 0 := by
      unfold record at hr
      split at hr
      · cases hr
      · simp only [Except.ok.injEq, Prod.mk.injEq] at hr
        rw [← hr.2]
        split_ifs <;> exact he
    rw [show next P 0 { e1 with sub := e1.sub + 1 } = .error .unboundLocal from by unfold next; rw [if_neg (by simp [this])]] at h
    cases h

/-- **C58 (light problems raise).**  If every choice of all but one object fits, then every call with one action per object raises: filling the last row makes the code
read an attribute that does not exist - even when all objects together are too heavy. -/
theorem C58_kp_light {P : Prob K} (hP : P.Clear) (hcap : 0 ≤ P.cap) (hn : 0 < P.n)
    (hlight : ∀ s : List ℕ, s.Nodup → (∀ i ∈ s, i ∈ P.all) → s.length < P.n → (s.map P.wt).sum ≤ P.cap) {L : ℕ} {e : Env K} {x : List (ℕ × ℕ)} (hx : x.length = P.n) {q : Env K × Out K} :
    stepAll P L e x ≠ .ok q := by
  intro h
  unfold stepAll at h
  split at h
  · cases h
  rename_i e1 hf
  cases x with
  | nil => simp at hx; omega
  | cons p x =>
    obtain ⟨a, r⟩ := p
    have aux : ∀ (x : List (ℕ × ℕ)) (e e' : Env K) (s : List ℕ), Mid P e s → s ≠ [] → s.length + x.length = P.n → fill P e x ≠ .ok e' := by
      intro x
      induction x with
      | nil => intro e e' s hi _ hl _; have := hi.room; simp at hl; omega
      | cons p x ih =>
        intro e e' s hi h0 hl h
        obtain ⟨a, r⟩ := p
        have hc : e.counter ≠ 0 := by rw [hi.counter]; simpa using h0
        simp only [fill] at h
        rw [if_neg hc] at h
        split at h
        · cases h
        · rename_i e1 hv
          obtain ⟨o, ho, _, hlst, hst, hroom, _, hb⟩ := put_spec hP hi hv
          have h1 := (hb rfl).2
          have h2 := hlight (s ++ [o]) (hi.seen_ok.1.sublist ((List.Sublist.refl s).append (List.singleton_sublist.2 ho))) (by
            intro j hj
            apply hi.seen_ok.2
            simp only [List.mem_append, List.mem_singleton] at hj ⊢
            rcases hj with hj | rfl
            · exact Or.inl hj
            · exact Or.inr ho) (by simpa using hroom)
          simp at h2
          linarith
        · rename_i e1 hv
          obtain ⟨o, ho, _, hlst, hst, _, hb, _⟩ := put_spec hP hi hv
          exact ih e1 e' _ (hb rfl) (by simp) (by simp at hl ⊢; omega) h
    simp only [fill, if_true] at hf
    have hm0 : Mid P (reset P { e with counter := 0 }) [] := mid_reset hcap hn _ rfl
    split at hf
    · cases hf
    · rename_i e1 hv
      obtain ⟨o, ho, _, hlst, hst, hroom, _, hb⟩ := put_spec hP hm0 hv
      have h1 := (hb rfl).2
      have h2 := hlight [o] (by simp) (by intro j hj; simp at hj; subst hj; exact ho) (by simpa using hroom)
      simp at h1 h2
      linarith
    · rename_i e1 hv
      obtain ⟨o, ho, _, hlst, hst, _, hb, _⟩ := put_spec hP hm0 hv
      exact aux x e1 _ _ (hb rfl) (by simp) (by simp at hx ⊢; omega) hf

/-- **C58 (totality).**  If no choice of all but one object fits, a call with one action per object never raises. -/
theorem C58_kp_total {P : Prob K} (hP : P.Clear) (hcap : 0 ≤ P.cap) (hn : 2 ≤ P.n)
    (hheavy : ∀ s : List ℕ, s.Nodup → (∀ i ∈ s, i ∈ P.all) → s.length + 1 = P.n → P.cap < (s.map P.wt).sum) {L : ℕ} {e : Env K} (he : Idle L e) {x : List (ℕ × ℕ)} (hx : x.length = P.n) :
    ∃ q, stepAll P L e x = .ok q := by
  have hput : ∀ (e : Env K) (s : List ℕ) (a r : ℕ), Mid P e s → ∃ q, put P e a r = .ok q := by
    intro e s a r hi
    have htot := hi.total
    have hroom2 : s.length + 1 < P.n := by
      by_contra hc
      have h1 := hi.room
      have h2 := hheavy s (hi.seen_ok.1.sublist (List.sublist_append_left _ _)) (fun i h => hi.seen_ok.2 i (by simp [h])) (by omega)
      exact absurd hi.cap (not_le.2 h2)
    have hpos : 0 < e.ids.length := by have := hi.room; omega
    obtain ⟨i, hv⟩ : ∃ i, valid e.ids a r = .ok i := by
      unfold valid
      split_ifs with h1 h2
      · exact ⟨_, rfl⟩
      · omega
      · exact ⟨_, rfl⟩
    have hlen : e.vs.length = P.n := by rw [hi.shape.1]; simp; have := hi.room; omega
    unfold put
    rw [hv]
    dsimp only
    rw [if_neg (by rw [hlen, hi.counter]; have := hi.room; omega)]
    simp only [Nat.add_sub_cancel]
    rw [hi.counter]
    have hsh := hi.shape.set hi.room (e.ids.getD i 0)
    have htot2 := (hsh.total hP).1
    rw [if_pos (by simpa using hroom2)] at htot2
    rw [htot2]
    dsimp only
    split_ifs <;> exact ⟨_, rfl⟩
  have aux : ∀ (x : List (ℕ × ℕ)) (e : Env K) (s : List ℕ), Mid P e s → s ≠ [] → ∃ e', fill P e x = .ok e' := by
    intro x
    induction x with
    | nil => intro e s _ _; exact ⟨_, rfl⟩
    | cons p x ih =>
      intro e s hi h0
      obtain ⟨a, r⟩ := p
      have hc : e.counter ≠ 0 := by rw [hi.counter]; simpa using h0
      obtain ⟨⟨e1, b⟩, hv⟩ := hput e s a r hi
      simp only [fill]
      rw [if_neg hc, hv]
      cases b with
      | true => exact ⟨_, rfl⟩
      | false =>
        obtain ⟨o, _, _, _, _, _, hb, _⟩ := put_spec hP hi hv
        exact ih e1 _ (hb rfl) (by simp)
  obtain ⟨e1, hf⟩ : ∃ e1, fill P { e with counter := 0 } x = .ok e1 := by
    cases x with
    | nil => exact ⟨_, rfl⟩
    | cons p x =>
      obtain ⟨a, r⟩ := p
      have hm0 : Mid P (reset P { e with counter := 0 }) [] := mid_reset hcap (by omega) _ rfl
      obtain ⟨⟨e1, b⟩, hv⟩ := hput _ _ a r hm0
      simp only [fill, if_true]
      rw [hv]
      cases b with
      | true => exact ⟨_, rfl⟩
      | false =>
        obtain ⟨o, _, _, _, _, _, hb, _⟩ := put_spec hP hm0 hv
        exact aux x e1 _ (hb rfl) (by simp)
  obtain ⟨t, o, h1, h2, h3, h4, h5, h6, h7⟩ := fill_spec hP hcap (by omega) hx hf
  obtain ⟨e2, r2, g1, -⟩ := close_spec hP (L := L) (e' := e1) (by rw [h1, he.list]; rfl) h6 h7 (by rw [h2]; exact he.sub)
  unfold stepAll
  rw [hf]
  exact ⟨_, g1⟩

/-! ### Concrete cases and defects -/

/-- Four objects of weight 1, 2, 3, 4 and value 10 each, capacity 5. -/
def exP : Prob ℚ := { n := 4, val := fun _ => 10, wt := fun i => i, cap := 5 }

theorem exP_clear : exP.Clear := by intro i; simp only [exP, blank]; norm_num

example : exP.Clear ∧ 0 ≤ exP.cap ∧ Idle 2 (init exP) ∧
    ((stepAll exP 2 (init exP) [(0, 0), (0, 0), (9, 1), (0, 0)]).toOption.map (fun q => (q.2.x, q.2.reward, q.2.done, q.1.best))) = some ([1, 2], 20, false, 20) :=
  ⟨exP_clear, by decide +kernel, ⟨rfl, by decide⟩, by decide +kernel⟩

/-- The hypothesis of `C58_kp_total` holds for it: any three of the four objects weigh at least 6. -/
example : ∀ s : List ℕ, s.Nodup → (∀ i ∈ s, i ∈ exP.all) → s.length + 1 = exP.n → exP.cap < (s.map exP.wt).sum := by
  intro s h1 h2 h3
  have h3' : s.length = 3 := by simp only [exP] at h3; omega
  obtain ⟨a, b, c, rfl⟩ := List.length_eq_three.1 h3'
  have h4 : ∀ i ∈ [a, b, c], 1 ≤ i := by intro i hi; have := h2 i hi; simp [Prob.all, exP] at this; omega
  have ha := h4 a (by simp)
  have hb := h4 b (by simp)
  have hc := h4 c (by simp)
  simp only [List.nodup_cons, List.mem_cons, List.not_mem_nil, or_false, not_or] at h1
  have h6 : 6 ≤ a + b + c := by omega
  have h7 : (6 : ℚ) ≤ (a : ℚ) + b + c := by exact_mod_cast h6
  simp only [exP, List.map_cons, List.map_nil, List.sum_cons, List.sum_nil]
  linarith

/-- The hypothesis of `C58_kp_light` can hold although all objects together are too heavy: capacity 9, total weight 10. -/
theorem C58_kp_light_example : (match stepAll { exP with cap := 9 } 2 (init { exP with cap := 9 }) [(0, 0), (0, 0), (0, 0), (0, 0)] with | .error .attributeError => true | _ => false) = true ∧
    ((exP.all.map exP.wt).sum : ℚ) = 10 := by decide +kernel

/-- **C58 (reset in the middle).**  `reset` keeps the counter, so the first row stays empty afterwards and the weight is computed as zero: with one object per call a
knapsack of weight 4 + 3 + 2 = 9 is reported as open although the capacity is 5. -/
theorem C58_kp_reset :
    (((stepOne exP 2 (init exP) 0 0).toOption.bind (fun q => (stepOne exP 2 (reset exP q.1) 3 0).toOption.bind (fun q => (stepOne exP 2 q.1 2 0).toOption.bind (fun q =>
      (stepOne exP 2 q.1 1 0).toOption)))).map (fun q => (q.2.x, q.2.reward))) = some ([1, 4, 3, 2], 0) := by decide +kernel

/-- The columns of the first two objects chosen. -/
example : ((stepOne exP 2 (init exP) 0 0).toOption.map (fun q => (q.2.obs.2.2, decide (q.2.obs = (q.1.vs, q.1.ws, q.1.rs))))) =
    some ([exP.wt 1 / exP.val 1, -1000000, -1000000, -1000000], true) := by decide +kernel

end Neorl.KP

import Verif.TSP
import Mathlib.Tactic.Linarith
import Mathlib.Data.Rat.Floor

/-!
# C58 (first half): the travelling-salesman environment
-/

set_option linter.unusedSectionVars false
set_option linter.unusedVariables false

namespace Neorl.TSP

variable {K : Type} [Field K] [LinearOrder K] [IsStrictOrderedRing K]

/-- All closed tours through some of the cities are shorter than the start value 10**6 of the search for an insertion position. -/
def Map.Short (M : Map K) : Prop :=
  ∀ (t : List (K × K)) (s : List ℕ), s.Nodup → (∀ i ∈ s, i ∈ M.all) → t.Perm (s.map M.loc) → tourLen M.d t < 1000000

theorem tourLen_le {d : K × K → K × K → ℤ} {D : ℤ} {t : List (K × K)} (h : ∀ p ∈ t, ∀ q ∈ t, d p q ≤ D) : tourLen d t ≤ t.length * D := by
  unfold tourLen
  have h1 : ∀ x ∈ List.zipWith d t (t.rotate 1), x ≤ D := by
    intro x hx
    obtain ⟨i, hi, rfl⟩ := List.mem_iff_getElem.1 hx
    rw [List.getElem_zipWith]
    exact h _ (List.getElem_mem _) _ (List.mem_rotate.1 (List.getElem_mem _))
  have h2 := List.sum_le_card_nsmul _ _ h1
  simpa using h2

/-- It is enough that `n` times the longest leg is below 10**6. -/
theorem short_of_legs {M : Map K} {D : ℤ} (hD : 0 ≤ D) (h : ∀ i ∈ M.all, ∀ j ∈ M.all, M.d (M.loc i) (M.loc j) ≤ D) (hn : M.n * D < 1000000) : M.Short := by
  intro t s hs hsub hp
  have hlen : t.length ≤ M.n := by
    rw [hp.length_eq, List.length_map]
    have := (List.subperm_of_subset hs hsub).length_le
    simpa [Map.all] using this
  have h1 : ∀ p ∈ t, ∃ i ∈ M.all, p = M.loc i := by
    intro p hpt
    have := hp.mem_iff.1 hpt
    simp only [List.mem_map] at this
    obtain ⟨i, hi, rfl⟩ := this
    exact ⟨i, hsub i hi, rfl⟩
  have h2 : tourLen M.d t ≤ t.length * D := by
    apply tourLen_le
    intro p hp q hq
    obtain ⟨i, hi, rfl⟩ := h1 p hp
    obtain ⟨j, hj, rfl⟩ := h1 q hq
    exact h i hi j hj
  have : (t.length : ℤ) * D ≤ M.n * D := by
    apply mul_le_mul_of_nonneg_right _ hD
    exact_mod_cast hlen
  omega

theorem Mid.seen_ok {M : Map K} {e : Env K} {t : List (K × K)} {seen : List ℕ} (h : Mid M e t seen) : (seen ++ e.ids).Nodup ∧ ∀ i ∈ seen ++ e.ids, i ∈ M.all := by
  constructor
  · exact h.ids.nodup_iff.2 (by unfold Map.all; exact List.nodup_range' 1)
  · intro i hi; exact h.ids.mem_iff.1 hi

theorem visit_total {M : Map K} (hM : M.Clear) (h2 : 2 ≤ M.n) (hS : M.Short) {e : Env K} {t : List (K × K)} {seen : List ℕ} (hi : Mid M e t seen) (ho : e.ids ≠ [])
    (s : Option ℕ) (a r : ℕ) : ∃ q, visit M e s a r = .ok q := by
  have hpos := List.length_pos_iff.2 ho
  obtain ⟨i, hv, hlt⟩ : ∃ i, valid e.ids a r = .ok i ∧ i < e.ids.length := by
    unfold valid
    split_ifs with h1 h2
    · exact ⟨_, rfl, h1⟩
    · omega
    · exact ⟨_, rfl, Nat.mod_lt _ hpos⟩
  have hlen := hi.length
  have htot := hi.total
  have hmem : e.ids.getD i 0 ∈ e.ids := by rw [List.getD_eq_getElem _ _ hlt]; exact List.getElem_mem _
  obtain ⟨q, hq⟩ : ∃ q, place M { e with counter := e.counter + 1 } s (e.ids.getD i 0) = .ok q := by
    unfold place
    dsimp only
    rw [if_neg (by rw [hi.cols.1, hi.counter]; omega), hi.shape.count.1]
    split_ifs with h0
    · rcases bestPos_spec (score := fun k => -cost M (ins e.xs k (M.loc (e.ids.getD i 0)).1) (ins e.ys k (M.loc (e.ids.getD i 0)).2)) (c := t.length) (stale := s) with ⟨_, h3⟩ | ⟨k, _, h3, _⟩
      · exfalso
        have h4 := h3 0 (by omega)
        have h5 := (hi.shape.ins (k := 0) (by omega) (by omega) (hM (e.ids.getD i 0))).cost (by simp)
        rw [h5] at h4
        have h6 := hS (t.insertIdx 0 (M.loc (e.ids.getD i 0))) (seen ++ [e.ids.getD i 0]) (by
            refine List.Nodup.sublist ?_ hi.seen_ok.1
            exact (List.Sublist.refl seen).append (List.singleton_sublist.2 hmem)) (by
            intro j hj
            apply hi.seen_ok.2
            simp only [List.mem_append, List.mem_singleton] at hj ⊢
            rcases hj with hj | rfl
            · exact Or.inl hj
            · exact Or.inr hmem) (by
            rw [List.map_append]
            simp only [List.insertIdx_zero, List.map_cons, List.map_nil]
            exact (List.Perm.cons _ hi.perm).trans (List.perm_append_singleton _ _).symm)
        omega
      · rw [h3]; exact ⟨_, rfl⟩
    · exact ⟨_, rfl⟩
  unfold visit
  rw [hv]
  dsimp only
  rw [hq]
  exact ⟨_, rfl⟩

/-- Fields not touched by visiting cities. -/
def SameStats (e e' : Env K) : Prop := e'.sub = e.sub ∧ e'.best = e.best ∧ e'.episode = e.episode

theorem visits_mid {M : Map K} (hM : M.Clear) : ∀ {x : List (ℕ × ℕ)} {e e' : Env K} {t : List (K × K)} {seen : List ℕ} {s : Option ℕ}, Mid M e t seen → seen ≠ [] →
    (∀ k, s = some k → k ≤ t.length) → visits M e s x = .ok e' →
    ∃ t' added, added.length = x.length ∧ Mid M e' t' (seen ++ added) ∧ e'.list = e.list ++ added ∧ SameStats e e' ∧ e'.done = e.done ∧
      (M.Short → Greedy M.d t (seen.map M.loc) → Greedy M.d t' ((seen ++ added).map M.loc))
  | [], e, e', t, seen, s, hi, h0, hs, h => by
    simp only [visits, Except.ok.injEq] at h
    subst h
    exact ⟨t, [], rfl, by simpa using hi, by simp, ⟨rfl, rfl, rfl⟩, rfl, by simp⟩
  | (a, r) :: x, e, e', t, seen, s, hi, h0, hs, h => by
    simp only [visits] at h
    have hc : e.counter ≠ 0 := by rw [hi.counter]; simpa using h0
    rw [if_neg hc] at h
    split at h
    · cases h
    rename_i e1 b1 hv
    obtain ⟨city, k, hcm, _, hk, hmid, hb, hl, hst, hbest⟩ := visit_spec hM hi hs hv
    have hlen1 : (t.insertIdx k (M.loc city)).length = t.length + 1 := List.length_insertIdx_of_le_length hk _
    obtain ⟨t', added, e1', e2, e3, e4, e5, e6⟩ := visits_mid hM hmid (by simp) (by intro k' hk'; rw [hlen1]; have := hb k' hk'; omega) h
    refine ⟨t', city :: added, by simp [e1'], by simpa using e2, by rw [e3, hl]; simp, ⟨e4.1.trans hst.1, e4.2.1.trans hst.2.1, e4.2.2.trans hst.2.2.1⟩, e5.trans hst.2.2.2, ?_⟩
    intro hS hg
    have hne : t ≠ [] := by
      intro h; apply h0; have := hi.length; rw [h] at this; exact List.length_eq_zero_iff.1 this.symm
    have hpos := List.length_pos_iff.2 hne
    have hg1 := Greedy.more (M.loc city) k hk hg (hbest ⟨0, hpos, hS _ (seen ++ [city]) (by
        refine List.Nodup.sublist ?_ hi.seen_ok.1
        exact (List.Sublist.refl seen).append (List.singleton_sublist.2 hcm)) (by
        intro j hj
        apply hi.seen_ok.2
        simp only [List.mem_append, List.mem_singleton] at hj ⊢
        rcases hj with hj | rfl
        · exact Or.inl hj
        · exact Or.inr hcm) (by
        rw [List.map_append]
        simp only [List.insertIdx_zero, List.map_cons, List.map_nil]
        exact (List.Perm.cons _ hi.perm).trans (List.perm_append_singleton _ _).symm)⟩)
    have := e6 hS (by simpa using hg1)
    simpa using this

/-- The tour made by a whole list of actions. -/
theorem visits_spec {M : Map K} (hM : M.Clear) {x : List (ℕ × ℕ)} (hx : x ≠ []) {e e' : Env K} (h : visits M { e with counter := 0 } none x = .ok e') :
    ∃ t added, added.length = x.length ∧ Mid M e' t added ∧ e'.list = e.list ++ added ∧ SameStats e e' ∧ e'.done = false ∧ (M.Short → Greedy M.d t (added.map M.loc)) := by
  cases x with
  | nil => exact absurd rfl hx
  | cons p x =>
    obtain ⟨a, r⟩ := p
    simp only [visits, if_true] at h
    split at h
    · cases h
    rename_i e1 b1 hv
    have hm0 : Mid M (reset M { e with counter := 0 }) [] [] := mid_reset M _ rfl
    obtain ⟨city, k, hcm, _, hk, hmid, hb, hl, hst, hbest⟩ := visit_spec hM hm0 (by simp) hv
    have hk0 : k = 0 := by simpa using hk
    subst hk0
    obtain ⟨t', added, f1, f2, f3, f4, f5, f6⟩ := visits_mid hM hmid (by simp) (by intro k' hk'; have := hb k' hk'; simp at this ⊢; omega) h
    refine ⟨t', city :: added, by simp [f1], by simpa using f2, ?_, ?_, ?_, ?_⟩
    · rw [f3, hl]; simp [reset, wipe]
    · obtain ⟨g1, g2, g3⟩ := f4
      obtain ⟨h1, h2, h3, h4⟩ := hst
      refine ⟨g1.trans h1, g2.trans h2, g3.trans h3⟩
    · rw [f5, hst.2.2.2]; rfl
    · intro hS
      have := f6 hS (by simpa using Greedy.one (d := M.d) (M.loc city))
      simpa using this

/-- Between two tours: nothing visited, no open tour, fewer than `L` tours in the episode. -/
structure Idle (L : ℕ) (e : Env K) : Prop where
  list : e.list = []
  sub : e.sub < L

/-- **C58 (a whole tour).**  Whatever actions are given - too large ones included - and whatever is drawn in their place, a call with one action per city reports
every city exactly once; its reward is minus the length of a closed tour through all the cities; the best value is updated to the larger one; and the episode ends
exactly with its `L`-th tour. -/
theorem C58_tsp_step {M : Map K} (hM : M.Clear) {L : ℕ} {e e' : Env K} (he : Idle L e) {x : List (ℕ × ℕ)} (hx : x.length = M.n) (hn : 0 < M.n) {o : Out K}
    (h : stepAll M L e x = .ok (e', o)) :
    o.x.Perm M.all ∧ (∃ t : List (K × K), t.Perm (M.all.map M.loc) ∧ o.reward = -tourLen M.d t ∧ (M.Short → Greedy M.d t (o.x.map M.loc))) ∧
    e'.best = max e.best o.reward ∧ Idle L e' ∧ (o.done = true ↔ e.sub + 1 = L) ∧ e'.sub = (e.sub + 1) % L ∧
    e'.episode = e.episode + (if e.sub + 1 = L then 1 else 0) := by
  unfold stepAll at h
  split at h
  · cases h
  rename_i e1 hv
  obtain ⟨t, added, h1, hmid, hl, hst, hd, hg⟩ := visits_spec hM (by intro h0; rw [h0] at hx; simp at hx; omega) hv
  have hlen := hmid.length
  have htot := hmid.total
  have hids : e1.ids = [] := List.length_eq_zero_iff.1 (by omega)
  have hperm : added.Perm M.all := by have := hmid.ids; rw [hids] at this; simpa using this
  have hcost : cost M e1.xs e1.ys = tourLen M.d t := hmid.shape.cost (by intro h0; rw [h0] at hlen; simp at hlen; omega)
  have hsub1 : e1.sub = e.sub := hst.1
  have hL := he.sub
  have hl' : e1.list = added := by rw [hl, he.list]; rfl
  dsimp only [record] at h
  set e2 : Env K := if -cost M e1.xs e1.ys - e1.best > 0 then { e1 with best := -cost M e1.xs e1.ys } else e1 with he2
  have b2 : e2.best = max e.best (-tourLen M.d t) ∧ e2.sub = e.sub ∧ e2.list = added ∧ e2.done = false ∧ e2.episode = e.episode := by
    rw [he2, hcost]
    have hbb := hst.2.1
    split_ifs with hc
    · exact ⟨by dsimp only; rw [max_eq_right (by omega)], hsub1, hl', hd, hst.2.2⟩
    · exact ⟨by rw [hbb, max_eq_left (by omega)], hsub1, hl', hd, hst.2.2⟩
  dsimp only [next] at h
  rw [if_pos (by rw [b2.2.1]; omega)] at h
  dsimp only [finish, wipe] at h
  rw [b2.2.1, b2.2.2.1] at h
  by_cases hc : e.sub + 1 = L
  · rw [if_pos hc] at h
    simp only [Except.ok.injEq, Prod.mk.injEq] at h
    obtain ⟨rfl, rfl⟩ := h
    refine ⟨hperm, ⟨t, hmid.perm.trans (hperm.map _), by rw [hcost], hg⟩, by rw [hcost]; exact b2.1, ⟨rfl, by dsimp only; omega⟩, by simp [hc], by rw [hc]; simp, by dsimp only; rw [if_pos hc, b2.2.2.2.2]⟩
  · rw [if_neg hc] at h
    simp only [Except.ok.injEq, Prod.mk.injEq] at h
    obtain ⟨rfl, rfl⟩ := h
    refine ⟨hperm, ⟨t, hmid.perm.trans (hperm.map _), by rw [hcost], hg⟩, by rw [hcost]; exact b2.1, ⟨rfl, by dsimp only; omega⟩, ?_, by dsimp only; rw [Nat.mod_eq_of_lt (by omega)], by dsimp only; rw [if_neg hc, b2.2.2.2.2]; rfl⟩
    simp [hc, b2.2.2.2.1]

/-- **C58 (observation always blank).**  The columns are wiped before they are returned: with all cities chosen at once, the observation does not depend on the tour. -/
theorem C58_tsp_obs_blank {M : Map K} (hM : M.Clear) {L : ℕ} {e e' : Env K} (he : Idle L e) {x : List (ℕ × ℕ)} (hx : x.length = M.n) (hn : 0 < M.n) {o : Out K}
    (h : stepAll M L e x = .ok (e', o)) : o.obs = (List.replicate M.n blank, List.replicate M.n blank, List.replicate M.n blank, List.replicate M.n blank) := by
  unfold stepAll at h
  split at h
  · cases h
  rename_i e1 hv
  obtain ⟨t, added, h1, hmid, hl, hst, hd, hg⟩ := visits_spec hM (by intro h0; rw [h0] at hx; simp at hx; omega) hv
  have hL := he.sub
  dsimp only [record] at h
  set e2 : Env K := if -cost M e1.xs e1.ys - e1.best > 0 then { e1 with best := -cost M e1.xs e1.ys } else e1 with he2
  have b2 : e2.sub = e.sub := by rw [he2]; split_ifs <;> exact hst.1
  dsimp only [next] at h
  rw [if_pos (by rw [b2]; omega)] at h
  dsimp only [finish, wipe] at h
  split_ifs at h <;> (simp only [Except.ok.injEq, Prod.mk.injEq] at h; obtain ⟨-, rfl⟩ := h; rfl)

/-- **C58 (totality).**  With at least two cities, tours below 10**6 and one action per city, a step never raises. -/
theorem C58_tsp_total {M : Map K} (hM : M.Clear) (hS : M.Short) (h2 : 2 ≤ M.n) {L : ℕ} {e : Env K} (he : Idle L e) {x : List (ℕ × ℕ)} (hx : x.length = M.n) :
    ∃ q, stepAll M L e x = .ok q := by
  have aux : ∀ (x : List (ℕ × ℕ)) (e : Env K) (t : List (K × K)) (seen : List ℕ) (s : Option ℕ), Mid M e t seen → seen ≠ [] → (∀ k, s = some k → k ≤ t.length) →
      x.length ≤ e.ids.length → ∃ e', visits M e s x = .ok e' := by
    intro x
    induction x with
    | nil => intro e t seen s _ _ _ _; exact ⟨_, rfl⟩
    | cons p x ih =>
      intro e t seen s hi h0 hs hl
      obtain ⟨a, r⟩ := p
      obtain ⟨⟨e1, b⟩, hv⟩ := visit_total hM h2 hS hi (by intro h; rw [h] at hl; simp at hl) s a r
      obtain ⟨city, k, hcm, _, hk, hmid, hb, hl', hst, hbest⟩ := visit_spec hM hi hs hv
      have hc : e.counter ≠ 0 := by rw [hi.counter]; simpa using h0
      simp only [visits]
      rw [if_neg hc, hv]
      refine ih e1 _ _ b hmid (by simp) (by intro k' hk'; rw [List.length_insertIdx_of_le_length hk]; have := hb k' hk'; omega) ?_
      have h3 := hmid.total
      have h4 := hi.total
      simp only [List.length_append, List.length_cons, List.length_nil] at h3 hl
      omega
  obtain ⟨e1, hv⟩ : ∃ e1, visits M { e with counter := 0 } none x = .ok e1 := by
    cases x with
    | nil => simp at hx; omega
    | cons p x =>
      obtain ⟨a, r⟩ := p
      have hm0 : Mid M (reset M { e with counter := 0 }) [] [] := mid_reset M _ rfl
      obtain ⟨⟨e1, b⟩, hv⟩ := visit_total hM h2 hS hm0 (by simp [reset, wipe, Map.all]; omega) none a r
      obtain ⟨city, k, hcm, _, hk, hmid, hb, hl', hst, hbest⟩ := visit_spec hM hm0 (by simp) hv
      simp only [visits, if_true]
      rw [hv]
      refine aux x e1 _ _ b hmid (by simp) (by intro k' hk'; have := hb k' hk'; simp at this; omega) ?_
      have h3 := hmid.total
      simp only [List.length_append, List.length_cons, List.length_nil] at h3 hx
      omega
  obtain ⟨t, added, h1, hmid, hl, hst, hd, hg⟩ := visits_spec hM (by intro h0; rw [h0] at hx; simp at hx; omega) hv
  have hL := he.sub
  unfold stepAll
  rw [hv]
  dsimp only [record, next, finish]
  set e2 : Env K := if -cost M e1.xs e1.ys - e1.best > 0 then { e1 with best := -cost M e1.xs e1.ys } else e1 with he2
  have b2 : e2.sub = e.sub := by rw [he2]; split_ifs <;> exact hst.1
  rw [if_pos (by rw [b2]; omega)]
  exact ⟨_, rfl⟩

/-- Several steps: the environment and the outputs. -/
def steps (M : Map K) (L : ℕ) : Env K → List (List (ℕ × ℕ)) → Py (Env K × List (Out K))
  | e, [] => .ok (e, [])
  | e, x :: xs => match stepAll M L e x with
    | .error err => .error err
    | .ok (e', o) => match steps M L e' xs with
      | .error err => .error err
      | .ok (e'', os) => .ok (e'', o :: os)

/-- **C58 (a whole training run).**  Over any number of calls, `best_tour` is the maximum of its start value and all rewards, `done` is reported by exactly the calls
number `L`, `2L`, ... and `_iter_episode` counts them. -/
theorem C58_tsp_run {M : Map K} (hM : M.Clear) (hn : 0 < M.n) {L : ℕ} (hL : 0 < L) : ∀ {xs : List (List (ℕ × ℕ))} {e e' : Env K} {os : List (Out K)}, Idle L e → (∀ x ∈ xs, x.length = M.n) →
    steps M L e xs = .ok (e', os) → os.length = xs.length ∧ Idle L e' ∧ e'.sub = (e.sub + xs.length) % L ∧ e'.episode = e.episode + (e.sub + xs.length) / L ∧
      (∀ b : ℤ, e'.best ≤ b ↔ e.best ≤ b ∧ ∀ o ∈ os, o.reward ≤ b) ∧ (∀ (i : ℕ) (o : Out K), os[i]? = some o → (o.done = true ↔ (e.sub + i + 1) % L = 0))
  | [], e, e', os, he, _, h => by
    simp only [steps, Except.ok.injEq, Prod.mk.injEq] at h
    obtain ⟨rfl, rfl⟩ := h
    refine ⟨rfl, he, by simp [Nat.mod_eq_of_lt he.sub], by simp [Nat.div_eq_of_lt he.sub], by simp, by simp⟩
  | x :: xs, e, e', os, he, hx, h => by
    simp only [steps] at h
    split at h
    · cases h
    rename_i e1 o ho
    split at h
    · cases h
    rename_i e2 os' hos
    simp only [Except.ok.injEq, Prod.mk.injEq] at h
    obtain ⟨rfl, rfl⟩ := h
    obtain ⟨-, -, hb, hi1, hdone, hsub, hep⟩ := C58_tsp_step hM he (hx x (by simp)) hn ho
    obtain ⟨i1, i2, i3, i4, i5, i6⟩ := C58_tsp_run hM hn hL hi1 (fun y hy => hx y (by simp [hy])) hos
    have hls := he.sub
    have hcarry : ∀ m, ((e.sub + 1) % L + m) % L = (e.sub + 1 + m) % L := fun m => Nat.mod_add_mod _ _ _
    refine ⟨by simp [i1], i2, ?_, ?_, ?_, ?_⟩
    · rw [i3, hsub]
      have := hcarry xs.length
      rw [List.length_cons, show e.sub + (xs.length + 1) = e.sub + 1 + xs.length by omega]
      exact this
    · rw [i4, hep, hsub, List.length_cons, show e.sub + (xs.length + 1) = e.sub + 1 + xs.length by omega]
      by_cases hc : e.sub + 1 = L
      · rw [if_pos hc, hc, Nat.mod_self, Nat.zero_add, Nat.add_div_left _ hL]; omega
      · rw [if_neg hc, Nat.mod_eq_of_lt (by omega)]; omega
    · intro b
      rw [i5 b, hb, max_le_iff]
      simp only [List.mem_cons, forall_eq_or_imp]
      tauto
    · intro i o' hi
      cases i with
      | zero =>
        simp only [List.getElem?_cons_zero, Option.some.injEq] at hi
        subst hi
        rw [hdone]
        constructor
        · intro h; rw [Nat.add_zero, h, Nat.mod_self]
        · intro h
          rw [Nat.add_zero] at h
          by_contra hc
          rw [Nat.mod_eq_of_lt (by omega)] at h
          omega
      | succ i =>
        simp only [List.getElem?_cons_succ] at hi
        rw [i6 i o' hi, hsub]
        have := hcarry (i + 1)
        rw [show (e.sub + 1) % L + i + 1 = (e.sub + 1) % L + (i + 1) by omega, show e.sub + (i + 1) + 1 = e.sub + 1 + (i + 1) by omega, this]

/-- **C58 (one city per call).**  From an open tour a call adds one unvisited city - the one chosen, if the action is valid.  Before the last city the reward is
1000 times the length of the closed partial tour, which is *larger for longer tours*; with the last city it is minus the length of a closed tour through all
cities and the reported list contains every city once. -/
theorem C58_tsp_single {M : Map K} (hM : M.Clear) {L : ℕ} {e e' : Env K} {t : List (K × K)} {seen : List ℕ} (hi : Mid M e t seen) (hl : e.list = seen) (hs : e.sub < L)
    {a r : ℕ} {o : Out K} (h : stepOne M L e a r = .ok (e', o)) :
    ∃ city t', city ∈ e.ids ∧ (∀ j, a < e.ids.length → e.ids[a]? = some j → city = j) ∧ t'.Perm ((seen ++ [city]).map M.loc) ∧ o.x = seen ++ [city] ∧
      (seen.length + 1 < M.n → Mid M e' t' (seen ++ [city]) ∧ e'.list = seen ++ [city] ∧ e'.sub = e.sub ∧ o.reward = 1000 * tourLen M.d t' ∧ e'.best = e.best) ∧
      (seen.length + 1 = M.n → (seen ++ [city]).Perm M.all ∧ o.reward = -tourLen M.d t' ∧ Mid M e' [] [] ∧ e'.list = [] ∧ e'.sub = (e.sub + 1) % L ∧
        e'.best = max e.best o.reward ∧ (e.sub + 1 = L → o.done = true)) := by
  unfold stepOne at h
  split at h
  · cases h
  rename_i e1 b1 hv
  obtain ⟨city, k, hcm, hch, hk, hmid, hb, hl1, ⟨hst1, hst2, hst3, hst4⟩, hbest⟩ := visit_spec hM hi (by simp) hv
  have hlen := hmid.length
  have htot := hmid.total
  have hcost : cost M e1.xs e1.ys = tourLen M.d (t.insertIdx k (M.loc city)) := hmid.shape.cost (by
    intro h0; rw [h0] at hlen; simp at hlen)
  have hcount := hmid.shape.count.2
  simp only [List.length_append, List.length_cons, List.length_nil] at hlen htot
  have hl2 : e1.list = seen ++ [city] := by rw [hl1, hl]
  dsimp only at h
  refine ⟨city, t.insertIdx k (M.loc city), hcm, hch, hmid.perm, ?_⟩
  by_cases hc : seen.length + 1 = M.n
  · rw [if_pos (by rw [hcount]; omega)] at h
    dsimp only [record] at h
    set e2 : Env K := if -cost M e1.xs e1.ys - e1.best > 0 then { e1 with best := -cost M e1.xs e1.ys } else e1 with he2
    have b2 : e2.best = max e.best (-tourLen M.d (t.insertIdx k (M.loc city))) ∧ e2.sub = e.sub ∧ e2.list = seen ++ [city] := by
      rw [he2, hcost]
      split_ifs with hc
      · exact ⟨by dsimp only; rw [max_eq_right (by omega)], hst1, hl2⟩
      · exact ⟨by rw [hst2, max_eq_left (by omega)], hst1, hl2⟩
    dsimp only [next] at h
    rw [if_pos (by rw [b2.2.1]; omega)] at h
    dsimp only [finish, wipe] at h
    rw [b2.2.1, b2.2.2] at h
    have hall : (seen ++ [city]).Perm M.all := by
      have h0 : e1.ids = [] := List.length_eq_zero_iff.1 (by omega)
      have := hmid.ids; rw [h0] at this; simpa using this
    have hmid0 : ∀ (s ep : ℕ) (dn : Bool) (bs : ℤ), Mid M { xs := List.replicate M.n blank, ys := List.replicate M.n blank, c2 := List.replicate M.n blank, c3 := List.replicate M.n blank, ids := M.all, list := [], counter := 0, sub := s, best := bs, episode := ep, done := dn } [] [] := by
      intro s ep dn bs
      exact ⟨⟨by simp, by simp, by simp, by simp⟩, .refl _, .refl _, by simp, rfl⟩
    by_cases hL : e.sub + 1 = L
    · rw [if_pos hL] at h
      simp only [Except.ok.injEq, Prod.mk.injEq] at h
      obtain ⟨rfl, rfl⟩ := h
      refine ⟨rfl, fun hlt => by omega, fun _ => ⟨hall, by rw [hcost], hmid0 _ _ _ _, rfl, by rw [hL]; simp, by rw [hcost]; exact b2.1, fun _ => rfl⟩⟩
    · rw [if_neg hL] at h
      simp only [Except.ok.injEq, Prod.mk.injEq] at h
      obtain ⟨rfl, rfl⟩ := h
      refine ⟨rfl, fun hlt => by omega, fun _ => ⟨hall, by rw [hcost], hmid0 _ _ _ _, rfl, by rw [Nat.mod_eq_of_lt (by omega)], by rw [hcost]; exact b2.1, fun h => absurd h hL⟩⟩
  · rw [if_neg (by rw [hcount]; omega)] at h
    dsimp only [finish] at h
    rw [if_neg (by rw [hst1]; omega)] at h
    simp only [Except.ok.injEq, Prod.mk.injEq] at h
    obtain ⟨rfl, rfl⟩ := h
    exact ⟨hl2, fun _ => ⟨hmid, hl2, hst1, by rw [hcost]; ring, hst2⟩, fun h => absurd h hc⟩

/-! ### Concrete cases and defects -/

/-- Four cities on a line at 1, 2, 3, 4 with the distance along the line. -/
def exM : Map ℚ := { n := 4, loc := fun i => ((i : ℚ), 0), near := fun _ => 1, orig := fun i => i, d := fun p q => ⌊|p.1 - q.1| + 1 / 2⌋ }

theorem exM_clear : exM.Clear := by
  intro i
  simp only [exM, blank]
  have : (0 : ℚ) ≤ i := by positivity
  intro h
  linarith

theorem exM_short : exM.Short := by
  apply short_of_legs (D := 3) (by norm_num)
  · decide +kernel
  · decide

example : exM.Clear ∧ exM.Short ∧ Idle 2 (init exM) ∧ ∃ q, stepAll exM 2 (init exM) [(0, 0), (1, 0), (9, 1), (0, 0)] = .ok q :=
  ⟨exM_clear, exM_short, ⟨rfl, by decide⟩, C58_tsp_total exM_clear exM_short (by decide) ⟨rfl, by decide⟩ rfl⟩

/-- **C58 (reported tour and reward disagree).**  The cities are reported in the order of choice, the reward is computed for the order of insertion: here the
reported tour 1, 3, 2, 4 has length 8 and the reward is -6. -/
theorem C58_tsp_reported_order : ((stepAll exM 2 (init exM) [(0, 0), (1, 0), (0, 0), (0, 0)]).toOption.map (fun q => (q.2.x, q.2.reward))) = some ([1, 3, 2, 4], -6) ∧
    tourLen exM.d ([1, 3, 2, 4].map exM.loc) = 8 := by decide +kernel

/-- **C58 (long tours).**  When every closed tour has length at least 10**6 the insertion position stays undefined and the second city raises. -/
theorem C58_tsp_long : (match stepAll { exM with d := fun _ _ => 1000000 } 2 (init exM) [(0, 0), (0, 0), (0, 0), (0, 0)] with | .error .unboundLocal => true | _ => false) = true := by
  decide +kernel

/-- **C58 (reset in the middle of a tour).**  `reset` keeps the counter and the list of visited cities: after one city and a reset the list reported later contains a
city twice. -/
theorem C58_tsp_reset : (((stepOne exM 2 (init exM) 0 0).toOption.bind (fun q => (stepOne exM 2 (reset exM q.1) 0 0).toOption)).map (fun q => q.2.x)) = some [1, 1] := by
  decide +kernel

/-- **C58 (rows of the observation mix cities).**  Columns 0 and 1 follow the tour, columns 2 and 3 the order of choice: after choosing cities 1 and 2 the first row
holds the position of city 2 and the distance to the origin of city 1. -/
theorem C58_tsp_rows_mixed : (((stepOne exM 2 (init exM) 0 0).toOption.bind (fun q => (stepOne exM 2 q.1 0 0).toOption)).map (fun q => (q.2.obs.1.take 2, q.2.obs.2.2.2.take 2))) =
    some ([2, 1], [1, 2]) := by decide +kernel

/-- **C58 (zero tours per episode).**  With `episode_length = 0` the first complete tour raises. -/
theorem C58_tsp_length_zero : (match stepAll exM 0 (init exM) [(0, 0), (0, 0), (0, 0), (0, 0)] with | .error .unboundLocal => true | _ => false) = true := by decide +kernel

end Neorl.TSP

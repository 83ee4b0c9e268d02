import Verif.EDEV
import Verif.Props.EDEVCore
import Mathlib.Tactic.Linarith
import Mathlib.Tactic.IntervalCases

/-!
# C44: EDEV

Specification: the population as the caller sees it, the evaluated points (`logged`), nothing of the sub-population bookkeeping.
-/

set_option linter.unusedSectionVars false
set_option linter.unusedVariables false

namespace Neorl.EDEV

section
variable {K : Type} [Field K] [LinearOrder K] [IsStrictOrderedRing K] [FloorRing K]

/-- `np.random.permutation(n)`. -/
def IsPerm (n : ℕ) (perm : List ℕ) : Prop := perm.Perm (List.range n)

theorem configure_ok {S : Space K} {npop ngen ng : ℕ} {C : Cfg K} (h : configure S npop ngen ng = .ok C) :
    C = ⟨S, npop, npop / 10, ngen, ng⟩ ∧ 70 ≤ npop ∧ 7 ≤ npop / 10 ∧ ng < ngen := by
  unfold configure at h
  split_ifs at h with h1 h2 h3
  cases h
  exact ⟨rfl, by omega, by omega, by omega⟩

/-- **C44 (partition).**  Whichever variant is rewarded, the three index lists are disjoint and together contain every individual exactly once; the two
small ones have `slice` members each and the rewarded one the remaining `npop - 2*slice`. -/
theorem C44_partition {n s idx : ℕ} {perm : List ℕ} (hp : IsPerm n perm) (hs : 2 * s ≤ n) :
    let P := parts s idx perm
    (P.1 ++ P.2.1 ++ P.2.2).Perm (List.range n) ∧ (P.1 ++ P.2.1 ++ P.2.2).Nodup ∧
      (P.1.length = if idx = 0 then n - 2 * s else s) ∧ (P.2.1.length = if idx = 1 then n - 2 * s else s) ∧
      (P.2.2.length = if idx = 0 ∨ idx = 1 then s else n - 2 * s) := by
  have h1 := (parts_perm s idx perm).trans hp
  have hl : perm.length = n := by simpa using hp.length_eq
  by_cases i0 : idx = 0
  · refine ⟨h1, h1.nodup_iff.2 List.nodup_range, ?_, ?_, ?_⟩ <;> simp [parts, i0, hl] <;> omega
  · by_cases i1 : idx = 1
    · refine ⟨h1, h1.nodup_iff.2 List.nodup_range, ?_, ?_, ?_⟩ <;> simp [parts, i1, hl] <;> omega
    · refine ⟨h1, h1.nodup_iff.2 List.nodup_range, ?_, ?_, ?_⟩ <;> simp [parts, i0, i1, hl] <;> omega

/-- One generation. -/
theorem gen_spec {C : Cfg K} (hS : C.S.OK) (hs : 2 * C.slice ≤ C.npop) {f : List K → K} {D : Draws K} (hp : IsPerm C.npop D.perm) {k : ℕ}
    {s s' : State K} (g : Good C.S f C.npop s.arr s.best s.log) (h : gen C f D k s = .ok s') :
    Good C.S f C.npop s'.arr s'.best s'.log ∧
    (∃ new, s'.log = s.log ++ new ∧ new.length = s'.part.1.length + 3 * s'.part.2.1.length + s'.part.2.2.length) ∧
    (∀ (i : ℕ) (p p' : Indv K), s.arr[i]? = some p → s'.arr[i]? = some p' → p'.2 ≤ p.2) ∧
    s'.best.1 ≤ s.best.1 ∧ s'.extra = s.extra ∧ s'.part = parts C.slice s'.idx D.perm ∧ s'.hG = s.hG ++ [s'.best.1] ∧
    ∃ h1 h2 h3 : K, s'.hJ = s.hJ ++ [h1] ∧ s'.hC = s.hC ++ [h2] ∧ s'.hE = s.hE ++ [h3] ∧
      (∃ z ∈ s'.log, f z = h1) ∧ (∃ z ∈ s'.log, f z = h2) ∧ (∃ z ∈ s'.log, f z = h3) := by
  unfold gen at h
  dsimp only at h
  split at h
  · cases h
  rename_i idx ch hadj
  split at h
  · cases h
  rename_i n1 l1 hj
  split at h
  · cases h
  rename_i b1 h1 hi1
  split at h
  · cases h
  rename_i n2 l2 hc
  split at h
  · cases h
  rename_i b2 h2 hi2
  split at h
  · cases h
  rename_i n3 l3 bm he
  split at h
  · cases h
  rename_i b3 h3 hi3
  simp only [Except.ok.injEq] at h
  subst h
  dsimp only
  obtain ⟨hP1, hP2, _⟩ := C44_partition (idx := idx) hp hs
  have hlt : ∀ k, k ∈ (parts C.slice idx D.perm).1 ++ (parts C.slice idx D.perm).2.1 ++ (parts C.slice idx D.perm).2.2 → k < C.npop := by
    intro k hk; simpa using hP1.mem_iff.1 hk
  have nd := List.nodup_append.1 hP2
  have nd' := List.nodup_append.1 nd.1
  obtain ⟨sj, fj, cj⟩ := jade_spec hS hj
  obtain ⟨sc, fc, cc⟩ := code_spec hS hc
  obtain ⟨se, fe, ce⟩ := eps_spec hS he
  obtain ⟨g1, st1, le1, _, m1⟩ := g.stage nd'.1 (fun k hk => hlt k (by simp [hk])) sj fj hi1
  obtain ⟨g2, st2, le2, _, m2⟩ := g1.stage nd'.2.1 (fun k hk => hlt k (by simp [hk])) sc fc hi2
  obtain ⟨g3, st3, le3, _, m3⟩ := g2.stage nd.2.1 (fun k hk => hlt k (by simp [hk])) se fe hi3
  refine ⟨g3, ⟨l1 ++ l2 ++ l3, by simp, ?_⟩, ?_, le3.trans (le2.trans le1), rfl, rfl, rfl, h1, h2, h3, rfl, rfl, rfl, ?_, ?_, ?_⟩
  · simp only [List.length_append, cj, cc, ce, length_gather]
  · intro i p p' hpi hpi'
    have hle : ∀ {ns : List (List K)} {q q' : Indv K}, Ok f ns q q' → q'.2 ≤ q.2 := by
      intro ns q q' ho
      rcases ho with rfl | ⟨_, _, h⟩
      · exact le_rfl
      · exact h
    have hi : i < C.npop := by have := (List.getElem?_eq_some_iff.1 hpi).1; rw [g.size] at this; exact this
    have e1 := List.getElem?_eq_getElem (show i < _ from g1.size.symm ▸ hi)
    have e2 := List.getElem?_eq_getElem (show i < _ from g2.size.symm ▸ hi)
    exact (hle (st3.2.1 i _ _ e2 hpi')).trans ((hle (st2.2.1 i _ _ e1 e2)).trans (hle (st1.2.1 i _ _ hpi e1)))
  · obtain ⟨p, hp, e⟩ := m1
    exact ⟨p.1, by rw [List.append_assoc]; exact List.mem_append_left _ (g1.seen p hp), by rw [← e, g1.own p hp]⟩
  · obtain ⟨p, hp, e⟩ := m2
    exact ⟨p.1, List.mem_append_left _ (g2.seen p hp), by rw [← e, g2.own p hp]⟩
  · obtain ⟨p, hp, e⟩ := m3
    exact ⟨p.1, g3.seen p hp, by rw [← e, g3.own p hp]⟩

/-- The part of the log seen when the j-th history entry was made. -/
def Cuts (f : List K → K) (log : List (List K)) (hist : List K) (cuts : List ℕ) : Prop :=
  cuts.length = hist.length ∧ cuts.Pairwise (· ≤ ·) ∧ (∀ c ∈ cuts, c ≤ log.length) ∧
    ∀ (j c : ℕ) (y : K), cuts[j]? = some c → hist[j]? = some y → MinOn f (log.take c) y

theorem Cuts.step {f : List K → K} {log new : List (List K)} {hist : List K} {cuts : List ℕ} {y : K} (h : Cuts f log hist cuts)
    (hy : MinOn f (log ++ new) y) : Cuts f (log ++ new) (hist ++ [y]) (cuts ++ [(log ++ new).length]) := by
  obtain ⟨h1, h2, h3, h4⟩ := h
  refine ⟨by simp [h1], ?_, ?_, ?_⟩
  · rw [List.pairwise_append]
    refine ⟨h2, by simp, ?_⟩
    intro a ha b hb
    simp only [List.mem_singleton] at hb
    subst hb
    have := h3 a ha
    simp; omega
  · intro c hc
    rcases List.mem_append.1 hc with hc | hc
    · have := h3 c hc; simp; omega
    · simp only [List.mem_singleton] at hc; omega
  · intro j c z hj hz
    by_cases hlt : j < hist.length
    · rw [List.getElem?_append_left (by omega)] at hj
      rw [List.getElem?_append_left hlt] at hz
      have := h4 j c z hj hz
      rwa [List.take_append_of_le_length (h3 c (List.mem_of_getElem? hj))]
    · have hj' : j = hist.length := by
        have := (List.getElem?_eq_some_iff.1 hz).1
        simp at this; omega
      subst hj'
      rw [← h1] at hj
      simp at hj hz
      subst hz
      rw [← hj]
      rw [← List.length_append, List.take_length]
      exact hy

/-- The start. -/
theorem start_spec {C : Cfg K} (hS : C.S.OK) {f : List K → K} {x0 : List (List K)} (hx : ∀ x ∈ x0, x.length = C.S.bounds.length)
    (hn : x0.length = C.npop) (hs : 2 * C.slice ≤ C.npop) {d0 d1 : ℕ → ℕ → K × ℕ} {perm0 : List ℕ} (hp : IsPerm C.npop perm0) {s : State K}
    (h : start C f x0 d0 d1 perm0 = .ok s) :
    Good C.S f C.npop s.arr s.best s.log ∧ s.log.length = C.npop ∧ s.extra.length = C.slice ∧ (∀ z ∈ s.extra, C.S.Feasible z) ∧
    s.log = s.arr.map (·.1) ∧ s.hG = [] ∧ s.hJ = [] ∧ s.hC = [] ∧ s.hE = [] ∧ s.idx = 0 ∧ s.part = parts C.slice 0 perm0 ∧ s.change = (1, 1, 1) ∧
    (C.S.method = .nearestInt → ∀ z ∈ s.extra, z ∈ s.log) := by
  unfold start at h
  split at h
  · cases h
  rename_i us hus
  obtain ⟨u1, u2, u3⟩ := repair_rows hS hx hus
  split at h
  · cases h
  rename_i b hb
  dsimp only at h
  split at h
  · cases h
  rename_i es hes
  split at h
  · cases h
  rename_i m hm
  simp only [Except.ok.injEq] at h
  subst h
  dsimp only
  obtain ⟨_, _, _, _, hP3⟩ := C44_partition (idx := 0) hp hs
  have hP3' : (parts C.slice 0 perm0).2.2.length = C.slice := by simpa using hP3
  have hidx : ∀ k ∈ (parts C.slice 0 perm0).2.2, k < us.length := by
    intro k hk
    have := (parts_perm C.slice 0 perm0).trans hp
    have := this.mem_iff.1 (List.mem_append_right _ hk)
    simp at this; omega
  have hrow : ∀ r ∈ (parts C.slice 0 perm0).2.2.map (fun k => us.getD k []), r ∈ us := by
    intro r hr
    obtain ⟨k, hk, rfl⟩ := List.mem_map.1 hr
    rw [List.getD_eq_getElem _ _ (hidx k hk)]
    exact List.getElem_mem _
  obtain ⟨e1, e2, e3⟩ := repair_rows hS (fun r hr => (u2 r (hrow r hr)).1.length_eq) hes
  rw [u3] at hb ⊢
  rw [e3]
  refine ⟨⟨by simp [u1, hn], ?_, ?_, Swarm.select_inc hb, u2⟩, by rw [u1, hn], by rw [e1, List.length_map, hP3'], e2, by simp [Function.comp_def], rfl, rfl, rfl, rfl, rfl, rfl, rfl, ?_⟩
  · intro p hp; obtain ⟨x, _, rfl⟩ := List.mem_map.1 hp; rfl
  · intro p hp; obtain ⟨x, hx, rfl⟩ := List.mem_map.1 hp; exact hx
  · intro hnear z hz
    refine mapRows_forall (Q := fun y => y ∈ us) hes hrow ?_ z hz
    intro k x y hx hy
    unfold repair at hy
    rw [Space.clip_of_inBox (u2 x hx).1, Space.disc_nearest_id hS hnear (u2 x hx)] at hy
    cases hy
    exact hx

/-- State after `k` generations. -/
theorem run_spec {C : Cfg K} (hS : C.S.OK) (hs : 2 * C.slice ≤ C.npop) {f : List K → K} {D : ℕ → Draws K} (hD : ∀ k, IsPerm C.npop (D k).perm)
    {s0 : State K} (g0 : Good C.S f C.npop s0.arr s0.best s0.log) (e1 : s0.hG = []) (e2 : s0.hJ = []) (e3 : s0.hC = []) (e4 : s0.hE = [])
    {k : ℕ} {s : State K} (h : run C f D s0 k = .ok s) :
    Good C.S f C.npop s.arr s.best s.log ∧ s.extra = s0.extra ∧ s0.log <+: s.log ∧
    s0.log.length + k * (C.npop + 2 * min C.slice (C.npop - 2 * C.slice)) ≤ s.log.length ∧
    s.log.length ≤ s0.log.length + k * (C.npop + 2 * max C.slice (C.npop - 2 * C.slice)) ∧
    (∀ (i : ℕ) (p p' : Indv K), s0.arr[i]? = some p → s.arr[i]? = some p' → p'.2 ≤ p.2) ∧
    (∃ cuts, Cuts f s.log s.hG cuts ∧ (∀ c ∈ cuts, s0.log.length ≤ c)) ∧ s.hG.length = k ∧ s.hJ.length = k ∧ s.hC.length = k ∧ s.hE.length = k ∧
    (∀ j, 0 < k → j + 1 = k → s.hG[j]? = some s.best.1) ∧
    (∀ y ∈ s.hJ ++ s.hC ++ s.hE, ∃ z ∈ s.log, f z = y) := by
  induction k generalizing s with
  | zero =>
    cases h
    refine ⟨g0, rfl, List.prefix_refl _, by simp, by simp, ?_, ⟨[], ⟨by simp [e1], by simp, by simp, by simp⟩, by simp⟩, by simp [e1], by simp [e2], by simp [e3],
      by simp [e4], by intro j hj; omega, by simp [e2, e3, e4]⟩
    intro i p p' h1 h2
    rw [h1] at h2; cases h2; exact le_rfl
  | succ k ih =>
    simp only [run] at h
    split at h
    · cases h
    rename_i t ht
    obtain ⟨a1, a2, a3, a4, a5, a6, ⟨cuts, a7, a7'⟩, a8, a9, a10, a11, a12, a13⟩ := ih ht
    obtain ⟨b1, ⟨new, b2, b3⟩, b4, b5, b6, b7, b8, h1, h2, h3, c1, c2, c3, m1, m2, m3⟩ := gen_spec hS hs (hD k) a1 h
    obtain ⟨_, _, p1, p2, p3⟩ := C44_partition (idx := s.idx) (hD k) hs
    rw [← b7] at p1 p2 p3
    have hnew : C.npop + 2 * min C.slice (C.npop - 2 * C.slice) ≤ new.length ∧ new.length ≤ C.npop + 2 * max C.slice (C.npop - 2 * C.slice) := by
      rw [b3, p1, p2, p3]
      by_cases i0 : s.idx = 0
      · simp only [i0]; simp; omega
      · by_cases i1 : s.idx = 1
        · simp only [i1]; simp; omega
        · simp only [i0, i1]; simp; omega
    refine ⟨b1, by rw [b6, a2], a3.trans ⟨new, b2.symm⟩, ?_, ?_, ?_, ⟨cuts ++ [s.log.length], ?_, ?_⟩, by rw [b8]; simp [a8], by rw [c1]; simp [a9], by rw [c2]; simp [a10],
      by rw [c3]; simp [a11], ?_, ?_⟩
    · rw [b2, List.length_append, Nat.add_mul, Nat.one_mul]; omega
    · rw [b2, List.length_append, Nat.add_mul, Nat.one_mul]; omega
    · intro i p p' hp hp'
      have hi : i < t.arr.length := by
        have := (List.getElem?_eq_some_iff.1 hp').1; rw [b1.size] at this; rw [a1.size]; exact this
      exact (b4 i _ _ (List.getElem?_eq_getElem hi) hp').trans (a6 i _ _ hp (List.getElem?_eq_getElem hi))
    · rw [b2, b8]
      exact a7.step (by rw [← b2]; exact b1.inc.minOn)
    · intro c hc
      rcases List.mem_append.1 hc with hc | hc
      · exact a7' c hc
      · simp only [List.mem_singleton] at hc
        rw [hc]
        exact (a3.trans ⟨new, b2.symm⟩).length_le
    · intro j _ hj
      rw [b8, show j = t.hG.length by omega]
      simp
    · intro y hy
      have hsub : ∀ z ∈ t.log, z ∈ s.log := fun z hz => by rw [b2]; exact List.mem_append_left _ hz
      rw [c1, c2, c3] at hy
      simp only [List.mem_append, List.mem_singleton] at hy
      have hold : ∀ y, y ∈ t.hJ ++ t.hC ++ t.hE → ∃ z ∈ s.log, f z = y := fun y hy => by
        obtain ⟨z, hz, e⟩ := a13 y hy
        exact ⟨z, hsub z hz, e⟩
      rcases hy with ((hy | rfl) | (hy | rfl)) | (hy | rfl)
      · exact hold y (by simp [hy])
      · exact m1
      · exact hold y (by simp [hy])
      · exact m2
      · exact hold y (by simp [hy])
      · exact m3

/-- **C44 (run).**  For every fitness function, both modes, every start of the right shape and every sequence of draws, a finished run
* evaluates only feasible points, between `npop + ngen*(npop + 2*slice)` and `npop + ngen*(3*npop - 4*slice)` of them, plus `slice` second evaluations;
* returns a point of `logged` with its own fitness, not worse than any point of `logged`;
* records after each generation the best fitness evaluated so far (never getting worse), and for each variant the fitness of an evaluated point;
* returns a last population of `npop` evaluated individuals each with its own fitness, individual `i` not worse than the `i`-th evaluated start individual. -/
theorem C44_run {S : Space K} (hS : S.OK) {npop ngen ng : ℕ} {m : Bool} {fit : List K → K} {x0 : List (List K)}
    (hx : ∀ x ∈ x0, x.length = S.bounds.length) {d0 d1 : ℕ → ℕ → K × ℕ} {perm0 : List ℕ} (hp : IsPerm npop perm0) {D : ℕ → Draws K}
    (hD : ∀ k, IsPerm npop (D k).perm) {r : Result K} (h : evolute S npop ngen ng m fit x0 d0 d1 perm0 D = .ok r) :
    (∀ z ∈ r.logged ++ r.extra, S.Feasible z) ∧
    r.extra.length = npop / 10 ∧ npop + ngen * (npop + 2 * (npop / 10)) ≤ r.logged.length ∧
    r.logged.length ≤ npop + ngen * (3 * npop - 4 * (npop / 10)) ∧
    IsBest m fit r.logged r.x r.y ∧ 
    (∃ cuts : List ℕ, cuts.length = ngen ∧ r.hist.length = ngen ∧ cuts.Pairwise (· ≤ ·) ∧ (∀ c ∈ cuts, npop ≤ c ∧ c ≤ r.logged.length) ∧
      ∀ (j c : ℕ) (y : K), cuts[j]? = some c → r.hist[j]? = some y → BestOn m fit (r.logged.take c) y) ∧
    r.hist.getLast? = some r.y ∧
    (r.histJ.length = ngen ∧ r.histC.length = ngen ∧ r.histE.length = ngen ∧ ∀ y ∈ r.histJ ++ r.histC ++ r.histE, ∃ z ∈ r.logged, fit z = y) ∧
    r.lastPop.length = npop ∧ (∀ p ∈ r.lastPop, p.1 ∈ r.logged ∧ p.2 = fit p.1) ∧
    (∀ (i : ℕ) (x : List K) (p : Indv K), i < npop → r.logged[i]? = some x → r.lastPop[i]? = some p → NotWorse m (fit x) p.2) ∧
    (S.method = .nearestInt → IsBest m fit (r.logged ++ r.extra) r.x r.y) := by
  unfold evolute at h
  split at h
  · cases h
  rename_i C hC
  obtain ⟨rfl, n70, s7, hng⟩ := configure_ok hC
  split at h
  · cases h
  rename_i hlen
  push Not at hlen
  split at h
  · cases h
  rename_i s0 hs0
  split at h
  · cases h
  rename_i s hs
  simp only [Except.ok.injEq] at h
  subst h
  dsimp only
  have h2s : 2 * (npop / 10) ≤ npop := by omega
  obtain ⟨g0, l0, x1, x2, x3, e1, e2, e3, e4, _, _, _, x5⟩ := start_spec (C := ⟨S, npop, npop / 10, ngen, ng⟩) hS hx hlen h2s hp hs0
  obtain ⟨g, q1, q2, q3, q4, q5, ⟨cuts, q6, q6'⟩, q7, q8, q9, q10, q11, q12⟩ := run_spec (C := ⟨S, npop, npop / 10, ngen, ng⟩) hS h2s hD g0 e1 e2 e3 e4 hs
  dsimp only at *
  have hmin : min (npop / 10) (npop - 2 * (npop / 10)) = npop / 10 := by omega
  have hmax : max (npop / 10) (npop - 2 * (npop / 10)) = npop - 2 * (npop / 10) := by omega
  rw [hmin] at q3
  rw [hmax] at q4
  -- evaluating through the worker is evaluating the user's function on evaluated points
  have hw : ∀ z ∈ s.log, worker S m fit z = sgn m (fit z) := fun z hz => by
    unfold worker; rw [Space.clip_of_inBox (g.feas z hz).1]
  have hinc : Swarm.Inc (fun x => sgn m (fit x)) s.log s.best :=
    ⟨g.inc.1, by rw [g.inc.2.1]; exact hw _ g.inc.1, fun z hz => by
      have := g.inc.2.2 z hz; rwa [hw z hz] at this⟩
  refine ⟨?_, by rw [q1, x1], by omega, ?_, hinc.isBest, ⟨cuts, by rw [q6.1, q7], by simp [q7], q6.2.1, fun c hc => ⟨by rw [← l0]; exact q6' c hc, q6.2.2.1 c hc⟩, ?_⟩, ?_,
    ⟨by simp [q8], by simp [q9], by simp [q10], ?_⟩, by simp [g.size], ?_, ?_, ?_⟩
  · intro z hz
    rcases List.mem_append.1 hz with hz | hz
    · exact g.feas z hz
    · rw [q1] at hz; exact x2 z hz
  · have : npop + 2 * (npop - 2 * (npop / 10)) = 3 * npop - 4 * (npop / 10) := by omega
    rw [this] at q4; omega
  · intro j c y hj hy
    rw [List.getElem?_map] at hy
    cases hh : s.hG[j]? with
    | none => rw [hh] at hy; cases hy
    | some v =>
      rw [hh] at hy
      simp only [Option.map_some, Option.some.injEq] at hy
      subst hy
      obtain ⟨⟨z, hz, ez⟩, ha⟩ := q6.2.2.2 j c v hj hh
      apply MinOn.bestOn
      exact ⟨⟨z, hz, (hw z (List.mem_of_mem_take hz)).symm.trans ez⟩, fun w hwm => by
        have := ha w hwm
        rwa [hw w (List.mem_of_mem_take hwm)] at this⟩
  · have := q11 (ngen - 1) (by omega) (by omega)
    rw [List.getLast?_eq_getElem?, List.length_map, q7, List.getElem?_map, this]; rfl
  · intro y hy
    rw [← List.map_append, ← List.map_append] at hy
    obtain ⟨v, hv, rfl⟩ := List.mem_map.1 hy
    obtain ⟨z, hz, ez⟩ := q12 v hv
    exact ⟨z, hz, by rw [← ez, hw z hz, sgn_sgn]⟩
  · intro p hp
    obtain ⟨q, hq, rfl⟩ := List.mem_map.1 hp
    refine ⟨g.seen q hq, ?_⟩
    dsimp only
    rw [g.own q hq, hw _ (g.seen q hq), sgn_sgn]
  · intro i x p hi hxi hpi
    rw [List.getElem?_map] at hpi
    cases hh : s.arr[i]? with
    | none => rw [hh] at hpi; cases hpi
    | some q =>
      rw [hh] at hpi
      simp only [Option.map_some, Option.some.injEq] at hpi
      subst hpi
      have hi0 : i < s0.arr.length := by rw [g0.size]; exact hi
      have h0 := List.getElem?_eq_getElem hi0
      have hle := q5 i _ _ h0 hh
      rw [g0.own _ (List.getElem_mem hi0)] at hle
      have hx' : s0.arr[i].1 = x := by
        have h1 : s0.log[i]? = some s0.arr[i].1 := by rw [x3, List.getElem?_map, h0]; rfl
        obtain ⟨t, ht⟩ := q2
        rw [← ht, List.getElem?_append_left (by rw [l0]; exact hi), h1] at hxi
        exact Option.some.inj hxi
      rw [hx', hw x (List.mem_of_getElem? hxi)] at hle
      dsimp only
      rw [notWorse_iff, sgn_sgn]; exact hle
  · intro hnear
    have hsub : ∀ z ∈ s.extra, z ∈ s.log := fun z hz => q2.subset (x5 hnear z (by rw [← q1]; exact hz))
    have hb := hinc.isBest
    exact ⟨List.mem_append_left _ hb.1, hb.2.1, fun z hz => by
      rcases List.mem_append.1 hz with hz | hz
      · exact hb.2.2 z hz
      · exact hb.2.2 z (hsub z hz)⟩

/-! ### Runs finish -/

theorem improve_total {b : K × List K} {sub : List (Indv K)} (h : sub ≠ []) : ∃ r, improve b sub = .ok r := by
  obtain ⟨p, hp⟩ := minPair_total h
  unfold improve; rw [hp]; exact ⟨_, rfl⟩

theorem gen_total {C : Cfg K} (hS : C.S.OK) (hm : C.S.method = .nearestInt) (hs : 2 * C.slice < C.npop) (h0 : 0 < C.slice) (hng : C.ng ≠ 0) (f : List K → K)
    {D : Draws K} (hp : IsPerm C.npop D.perm) (k : ℕ) (s : State K) : ∃ s', gen C f D k s = .ok s' := by
  have hadj : ∃ r, adjust C k s = .ok r := by
    unfold adjust; rw [if_neg hng]; split_ifs <;> exact ⟨_, rfl⟩
  obtain ⟨⟨idx, ch⟩, hadj⟩ := hadj
  obtain ⟨_, _, p1, p2, p3⟩ := C44_partition (idx := idx) hp hs.le
  have q1 : 0 < (parts C.slice idx D.perm).1.length := by rw [p1]; split_ifs <;> omega
  have q2 : 0 < (parts C.slice idx D.perm).2.1.length := by rw [p2]; split_ifs <;> omega
  have q3 : 0 < (parts C.slice idx D.perm).2.2.length := by rw [p3]; split_ifs <;> omega
  have ne : ∀ {l l' : List (Indv K)}, l'.length = l.length → 0 < l.length → l' ≠ [] := by
    intro l l' h1 h2 h3; rw [h3] at h1; simp at h1; omega
  unfold gen
  dsimp only
  rw [hadj]
  dsimp only
  have hj : ∃ r, jade C.S f (1 - (k : K) * (1 / (C.ngen : K))) D s.arch (gather (parts C.slice idx D.perm).1 s.arr) = .ok r := by
    obtain ⟨us, hus⟩ := repair_total (S := C.S) hS hm (a := 1 - (k : K) * (1 / (C.ngen : K))) (d := D.dJ)
      (rows := (List.range (gather (parts C.slice idx D.perm).1 s.arr).length).map (jadeTrial C.S D (gather (parts C.slice idx D.perm).1 s.arr) (gather (parts C.slice idx D.perm).1 s.arr ++ s.arch)))
      (by intro r hr; obtain ⟨i, _, rfl⟩ := List.mem_map.1 hr; exact length_jadeTrial _ _ _ _ _)
    unfold jade; rw [hus]; exact ⟨_, rfl⟩
  obtain ⟨⟨n1, l1⟩, hj⟩ := hj
  rw [hj]
  dsimp only
  obtain ⟨⟨b1, h1⟩, hi1⟩ := improve_total (b := s.best) (ne (jade_spec hS hj).1.1 (by rw [length_gather]; exact q1))
  rw [hi1]
  dsimp only
  have hc : ∃ r, code C.S f (1 - (k : K) * (1 / (C.ngen : K))) D (gather (parts C.slice idx D.perm).2.1 (scatter (parts C.slice idx D.perm).1 n1 s.arr)) = .ok r := by
    obtain ⟨us, hus⟩ := repair_total (S := C.S) hS hm (a := 1 - (k : K) * (1 / (C.ngen : K))) (d := D.dC)
      (rows := (List.range (gather (parts C.slice idx D.perm).2.1 (scatter (parts C.slice idx D.perm).1 n1 s.arr)).length).flatMap
        (codeTrials C.S D (gather (parts C.slice idx D.perm).2.1 (scatter (parts C.slice idx D.perm).1 n1 s.arr))))
      (by intro r hr; obtain ⟨i, _, hr⟩ := List.mem_flatMap.1 hr; exact (length_codeTrials hS _ _ _).2 r hr)
    unfold code; rw [hus]; exact ⟨_, rfl⟩
  obtain ⟨⟨n2, l2⟩, hc⟩ := hc
  rw [hc]
  dsimp only
  obtain ⟨⟨b2, h2⟩, hi2⟩ := improve_total (b := b1) (ne (code_spec hS hc).1.1 (by rw [length_gather]; exact q2))
  rw [hi2]
  dsimp only
  have he : ∃ r, eps C.S f (1 - (k : K) * (1 / (C.ngen : K))) D s.bm
      (gather (parts C.slice idx D.perm).2.2 (scatter (parts C.slice idx D.perm).2.1 n2 (scatter (parts C.slice idx D.perm).1 n1 s.arr))) = .ok r := by
    obtain ⟨us, hus⟩ := repair_total (S := C.S) hS hm (a := 1 - (k : K) * (1 / (C.ngen : K))) (d := D.dE)
      (rows := (List.range (gather (parts C.slice idx D.perm).2.2 (scatter (parts C.slice idx D.perm).2.1 n2 (scatter (parts C.slice idx D.perm).1 n1 s.arr))).length).map
        (epsTrial C.S D s.bm.2 (gather (parts C.slice idx D.perm).2.2 (scatter (parts C.slice idx D.perm).2.1 n2 (scatter (parts C.slice idx D.perm).1 n1 s.arr)))))
      (by intro r hr; obtain ⟨i, _, rfl⟩ := List.mem_map.1 hr; exact length_epsTrial _ _ _ _ _)
    unfold eps; rw [hus]; exact ⟨_, rfl⟩
  obtain ⟨⟨⟨n3, l3⟩, bm⟩, he⟩ := he
  rw [he]
  dsimp only
  obtain ⟨⟨b3, h3⟩, hi3⟩ := improve_total (b := b2) (ne (eps_spec hS he).1.1 (by rw [length_gather]; exact q3))
  rw [hi3]
  exact ⟨_, rfl⟩

/-- **C44 (no run fails).**  With `nearest_int`, a population of at least 70, `0 < ng < ngen` and a start of the right shape, every run finishes. -/
theorem C44_total {S : Space K} (hS : S.OK) (hm : S.method = .nearestInt) {npop ngen ng : ℕ} (hn : 70 ≤ npop) (hg : 0 < ng) (hgg : ng < ngen) (m : Bool)
    (fit : List K → K) {x0 : List (List K)} (hl : x0.length = npop) (hx : ∀ x ∈ x0, x.length = S.bounds.length) (d0 d1 : ℕ → ℕ → K × ℕ)
    {perm0 : List ℕ} (hp : IsPerm npop perm0) {D : ℕ → Draws K} (hD : ∀ k, IsPerm npop (D k).perm) :
    ∃ r, evolute S npop ngen ng m fit x0 d0 d1 perm0 D = .ok r := by
  have hc : configure S npop ngen ng = .ok ⟨S, npop, npop / 10, ngen, ng⟩ := by
    unfold configure; rw [if_neg (by omega), if_neg (by omega), if_neg (by omega)]
  have hst : ∃ s0, start ⟨S, npop, npop / 10, ngen, ng⟩ (worker S m fit) x0 d0 d1 perm0 = .ok s0 := by
    obtain ⟨us, hus⟩ := repair_total hS hm (a := 1) (d := d0) hx
    obtain ⟨u1, u2, u3⟩ := repair_rows hS hx hus
    obtain ⟨b, hb⟩ := Swarm.select_total (f := worker S m fit) (ps := us.map S.clip) (by
      intro h; have := congrArg List.length h; simp at this; rw [this] at u1; simp at u1; omega)
    obtain ⟨_, _, _, _, p3⟩ := C44_partition (s := npop / 10) (idx := 0) hp (by omega)
    have hidx : ∀ k ∈ (parts (npop / 10) 0 perm0).2.2, k < us.length := by
      intro k hk
      have := ((parts_perm (npop / 10) 0 perm0).trans hp).mem_iff.1 (List.mem_append_right _ hk)
      simp at this; omega
    have hrow : ∀ r ∈ (parts (npop / 10) 0 perm0).2.2.map (fun k => us.getD k []), r.length = S.bounds.length := by
      intro r hr
      obtain ⟨k, hk, rfl⟩ := List.mem_map.1 hr
      rw [List.getD_eq_getElem _ _ (hidx k hk)]
      exact (u2 _ (List.getElem_mem _)).1.length_eq
    obtain ⟨es, hes⟩ := repair_total hS hm (a := 1) (d := d1) hrow
    obtain ⟨e1, _, _⟩ := repair_rows hS hrow hes
    obtain ⟨c, hc⟩ := Swarm.select_total (f := worker S m fit) (ps := es.map S.clip) (by
      intro h
      have := congrArg List.length h
      simp only [List.length_map, List.length_nil] at this
      rw [this, List.length_map, p3] at e1
      simp at e1; omega)
    unfold start
    simp only [hus, hb, hes, hc]
    exact ⟨_, rfl⟩
  obtain ⟨s0, hs0⟩ := hst
  have hrun : ∀ k, ∃ s, run ⟨S, npop, npop / 10, ngen, ng⟩ (worker S m fit) D s0 k = .ok s := by
    intro k
    induction k with
    | zero => exact ⟨s0, rfl⟩
    | succ k ih =>
      obtain ⟨s, hs⟩ := ih
      simp only [run, hs]
      exact gen_total (C := ⟨S, npop, npop / 10, ngen, ng⟩) hS hm (by dsimp only; omega) (by dsimp only; omega) (by dsimp only; omega) _ (hD k) k s
  obtain ⟨s, hs⟩ := hrun ngen
  unfold evolute
  simp only [hc, hs0, hs, hl]
  rw [if_neg (by simp)]
  exact ⟨_, rfl⟩

/-- With `ng = 0` the first generation divides by zero (`gen % ng`). -/
theorem C44_ng_zero {C : Cfg K} (h : C.ng = 0) (f : List K → K) (D : Draws K) (k : ℕ) (s : State K) : gen C f D k s = .error .zeroDivision := by
  unfold gen adjust; simp [h]

/-! ### Rewarding a variant -/

/-- The choice is a variant whose gain per evaluation in the last period is not exceeded by another one; ties go to the earlier variant. -/
theorem C44_reward (c : K × K × K) (n1 n2 n3 : ℕ) :
    let r : ℕ → K := fun v => if v = 0 then c.1 / (n1 : K) else if v = 1 then c.2.1 / ((3 * n2 : ℕ) : K) else c.2.2 / (n3 : K)
    rank c n1 n2 n3 ≤ 2 ∧ (∀ v ≤ 2, r v ≤ r (rank c n1 n2 n3)) ∧ ∀ v < rank c n1 n2 n3, r v < r (rank c n1 n2 n3) := by
  intro r
  have e0 : r 0 = c.1 / (n1 : K) := by simp [r]
  have e1 : r 1 = c.2.1 / ((n2 * 3 : ℕ) : K) := by simp [r, mul_comm]
  have e2 : r 2 = c.2.2 / (n3 : K) := by simp [r]
  unfold rank
  dsimp only
  rw [← e0, ← e1, ← e2]
  split_ifs with h1 h2
  · refine ⟨by omega, ?_, by intro v hv; omega⟩
    intro v hv
    interval_cases v
    · exact le_rfl
    · exact h1.1
    · exact h1.2
  · have h01 : r 0 < r 1 := by
      by_contra hc
      exact h1 ⟨not_lt.1 hc, h2.trans (not_lt.1 hc)⟩
    refine ⟨by omega, ?_, ?_⟩
    · intro v hv
      interval_cases v
      · exact h01.le
      · exact le_rfl
      · exact h2
    · intro v hv
      interval_cases v
      exact h01
  · have h12 : r 1 < r 2 := not_le.1 h2
    have h02 : r 0 < r 2 := by
      by_contra hc
      exact h1 ⟨(h12.le.trans (not_lt.1 hc)), not_lt.1 hc⟩
    refine ⟨le_rfl, ?_, ?_⟩
    · intro v hv
      interval_cases v
      · exact h02.le
      · exact h12.le
      · exact le_rfl
    · intro v hv
      interval_cases v
      · exact h02
      · exact h12

/-- Before anything was measured the gains are all one, so in the first period EPSDE always gets the large share: the rate divides by the group sizes. -/
theorem C44_first_period {S : Space K} {npop ngen ng : ℕ} (hn : 70 ≤ npop) {f : List K → K} {x0 : List (List K)} {d0 d1 : ℕ → ℕ → K × ℕ} {perm0 : List ℕ}
    (hp : IsPerm npop perm0) {D : ℕ → Draws K} {s0 : State K} (h0 : start ⟨S, npop, npop / 10, ngen, ng⟩ f x0 d0 d1 perm0 = .ok s0) {k : ℕ} (hk : k + 1 ≤ ng)
    {s : State K} (h : run ⟨S, npop, npop / 10, ngen, ng⟩ f D s0 (k + 1) = .ok s) : s.idx = 2 := by
  have hidx : ∀ {k : ℕ} {t t' : State K}, gen ⟨S, npop, npop / 10, ngen, ng⟩ f (D k) k t = .ok t' → ∃ ch, adjust ⟨S, npop, npop / 10, ngen, ng⟩ k t = .ok (t'.idx, ch) := by
    intro k t t' hg
    unfold gen at hg
    dsimp only at hg
    split at hg
    · cases hg
    rename_i idx ch hadj
    split at hg
    · cases hg
    split at hg
    · cases hg
    split at hg
    · cases hg
    split at hg
    · cases hg
    split at hg
    · cases hg
    split at hg
    · cases hg
    cases hg
    exact ⟨ch, hadj⟩
  induction k generalizing s with
  | zero =>
    simp only [run] at h
    obtain ⟨ch, hadj⟩ := hidx h
    have hs0 : s0.part = parts (npop / 10) 0 perm0 ∧ s0.change = (1, 1, 1) := by
      unfold start at h0
      split at h0
      · cases h0
      split at h0
      · cases h0
      dsimp only at h0
      split at h0
      · cases h0
      split at h0
      · cases h0
      cases h0
      exact ⟨rfl, rfl⟩
    obtain ⟨_, _, p1, p2, p3⟩ := C44_partition (s := npop / 10) (idx := 0) hp (by omega)
    unfold adjust at hadj
    rw [if_neg (by dsimp only; omega), if_pos (by simp), hs0.1, hs0.2, p1, p2, p3] at hadj
    simp only [Except.ok.injEq, Prod.mk.injEq] at hadj
    rw [← hadj.1]
    simp only [if_true, true_or]
    have hs : 7 ≤ npop / 10 := by omega
    have hsK : (0 : K) < ((npop / 10 : ℕ) : K) := by exact_mod_cast (by omega : 0 < npop / 10)
    have hbig : ((npop / 10 : ℕ) : K) < ((npop - 2 * (npop / 10) : ℕ) : K) := by exact_mod_cast (by omega : npop / 10 < npop - 2 * (npop / 10))
    have hbig' : ((npop / 10 : ℕ) : K) < ((npop / 10 * 3 : ℕ) : K) := by exact_mod_cast (by omega : npop / 10 < npop / 10 * 3)
    unfold rank
    dsimp only
    rw [if_neg, if_neg]
    · exact not_le.2 (one_div_lt_one_div_of_lt hsK hbig')
    · simp only [if_neg (show ¬ ((0 : ℕ) = 1) by omega)]
      rintro ⟨_, h2⟩
      exact absurd h2 (not_le.2 (one_div_lt_one_div_of_lt hsK hbig))
  | succ k ih =>
    simp only [run] at h
    split at h
    · cases h
    rename_i t ht
    obtain ⟨ch, hadj⟩ := hidx h
    unfold adjust at hadj
    dsimp only at hadj
    rw [if_neg (by omega), if_neg (by rw [Nat.mod_eq_of_lt (by omega)]; omega)] at hadj
    simp only [Except.ok.injEq, Prod.mk.injEq] at hadj
    rw [← hadj.1]
    exact ih (by omega) (by simpa only [run] using ht)

/-! ### Defects -/

/-- The adaptive means of JADE never move: `goodF` is never filled and `FESj` never counted. -/
theorem C44_means_frozen (gens : List (List K × List K × List ℕ)) :
    let s := gens.foldl (fun s g => JMem.step g.1 g.2.1 g.2.2 s) (JMem.init (K := K))
    s.CRm = 1 / 2 ∧ s.Fm = 1 / 2 := by
  have : ∀ (s : JMem K), s.FESj = 0 → let t := gens.foldl (fun s g => JMem.step g.1 g.2.1 g.2.2 s) s
      t.CRm = s.CRm ∧ t.Fm = s.Fm := by
    induction gens with
    | nil => intro s _; exact ⟨rfl, rfl⟩
    | cons g gens ih =>
      intro s hs
      have h1 : (JMem.step g.1 g.2.1 g.2.2 s).FESj = 0 ∧ (JMem.step g.1 g.2.1 g.2.2 s).CRm = s.CRm ∧ (JMem.step g.1 g.2.1 g.2.2 s).Fm = s.Fm := by
        unfold JMem.step; simp [hs]
      obtain ⟨a, b⟩ := ih _ h1.1
      exact ⟨a.trans h1.2.1, b.trans h1.2.2⟩
  exact this _ rfl

/-- What goes to the archive are replaced parents, each stored with a value not above its own (that of the offspring which replaced it). -/
theorem C44_archived_values {f : List K → K} {pop : List (Indv K)} {us : List (List K)} {q : Indv K} (h : q ∈ jadeReplaced f pop us) :
    ∃ (i : ℕ) (p : Indv K) (o : List K), pop[i]? = some p ∧ us[i]? = some o ∧ q = (p.1, f o) ∧ f o ≤ p.2 := by
  unfold jadeReplaced at h
  obtain ⟨l, hl, hq⟩ := List.mem_flatten.1 h
  obtain ⟨i, hi⟩ := List.mem_iff_getElem?.1 hl
  rw [List.getElem?_zipWith] at hi
  cases hp : pop[i]? with
  | none => rw [hp] at hi; simp at hi
  | some p =>
    cases ho : us[i]? with
    | none => rw [hp, ho] at hi; simp at hi
    | some o =>
      rw [hp, ho] at hi
      simp only [Option.some.injEq] at hi
      subst hi
      split_ifs at hq with hc
      · simp only [List.mem_singleton] at hq
        exact ⟨i, p, o, hp, ho, hq, hc⟩
      · cases hq

/-- So archived values are not the values of the archived vectors. -/
theorem C44_archive_mismatch : ∃ (f : List ℚ → ℚ) (pop : List (Indv ℚ)) (us : List (List ℚ)),
    (∀ p ∈ pop, p.2 = f p.1) ∧ ∃ q ∈ jadeReplaced f pop us, q.2 ≠ f q.1 :=
  ⟨fun v => v.getD 0 0, [([3], 3)], [[1]], by decide +kernel, ([3], 1), by decide +kernel, by decide +kernel⟩

/-- A draw record for examples. -/
def exD (perm : List ℕ) : Draws ℚ where
  perm := perm
  F := fun _ => 1 / 2
  CR := fun _ => 0
  r1 := fun i => i + 1
  r2 := fun _ => 0
  argsort := fun l => List.range l.length
  up := fun _ => 1 / 2
  mu := fun _ _ => 1 / 2
  col := fun _ => 0
  dJ := fun _ _ => (0, 0)
  asort := id
  apos := List.range
  cF := fun _ _ => 1
  cCR := fun _ _ => 1 / 10
  don := fun _ _ k => k
  cw := fun _ _ => 1 / 2
  cu := fun _ _ _ => 1 / 2
  cj := fun _ _ => 0
  dC := fun _ _ => (0, 0)
  estrat := fun i => i % 3
  ecr := fun _ => 1 / 2
  epar := fun _ _ => 1 / 2
  eind := fun _ k => k
  eu := fun _ j => if j = 0 then 0 else 1
  ew := fun _ _ => 1 / 2
  ej := fun _ => 0
  ereset := fun _ _ => 1 / 2
  dE := fun _ _ => (0, 0)

/-- JADE's forced component is misplaced: with three members of two coordinates and crossover rate 0, every member asks for its component 0 to come from
the mutant, yet the trial of member 2 is the parent itself (and member 0 gets both components). -/
theorem C44_forced_misplaced :
    forced 3 2 (fun _ => 0) 2 0 = false ∧ forced 3 2 (fun _ => 0) 2 1 = false ∧
    ∃ (S : Space ℚ) (pop : List (Indv ℚ)), jadeMutant S (exD []) pop pop 2 ≠ (pop.getD 2 ([], 0)).1 ∧
      jadeTrial S (exD []) pop pop 2 = (pop.getD 2 ([], 0)).1 := by
  refine ⟨by decide, by decide, ⟨[(0, 9), (0, 9)], [.float, .float], .nearestInt, fun x => x⟩, [([1, 2], 0), ([3, 4], 0), ([5, 6], 0)], by decide +kernel, by decide +kernel⟩

/-- For one member the place is right. -/
theorem C44_forced_single (dim c : ℕ) : forced 1 dim (fun _ => c) 0 c = true := by simp [forced]

/-- With a random discrete transform the second evaluation of the third group can be better than everything remembered: the start of three
individuals gets the values 2, 2, 2, the second evaluation of individual 0 finds 0, and the remembered best stays 2. -/
theorem C44_second_evaluation_lost : ∃ (C : Cfg ℚ) (x0 : List (List ℚ)) (d0 d1 : ℕ → ℕ → ℚ × ℕ) (s : State ℚ),
    start C (fun v => v.getD 0 0) x0 d0 d1 [0, 1, 2] = .ok s ∧ ∃ z ∈ s.extra, z.getD 0 0 < s.best.1 := by
  refine ⟨⟨⟨[(0, 2)], [.int], .sigmoid, fun x => 1⟩, 3, 1, 10, 5⟩, [[1], [1], [1]], fun _ _ => (0, 1), fun _ _ => (0, 0), _, rfl, [0], ?_, ?_⟩ <;> decide +kernel

/-! ### Instances -/

/-- The space of the example. -/
def exS : Space ℚ := ⟨[(-5, 5), (0, 3)], [.float, .int], .nearestInt, fun x => x⟩

theorem exS_ok : exS.OK := Space.ok_of_okB (by decide +kernel)

/-- A run to which `C44_run` applies: 70 individuals, 30 generations. -/
example : ∃ r, evolute exS 70 30 20 false (fun v => v.getD 0 0 + v.getD 1 0) (List.replicate 70 [7, 1]) (fun _ _ => (0, 0)) (fun _ _ => (0, 0)) (List.range 70)
    (fun _ => exD (List.range 70)) = .ok r :=
  C44_total exS_ok rfl (by omega) (by omega) (by omega) _ _ (by simp) (by intro x hx; rw [List.eq_of_mem_replicate hx]; rfl) _ _ (List.Perm.refl _)
    (fun _ => List.Perm.refl _)

/-- A small generation computed: 6 individuals, slices of 2, JADE gets the rest. -/
example : (parts 2 0 [4, 0, 5, 1, 3, 2] = ([3, 2], [5, 1], [4, 0])) ∧ rank ((9 : ℚ), 1, 1) 2 2 2 = 0 ∧ rank ((1 : ℚ), 9, 1) 2 2 2 = 1 := by decide +kernel

end
end Neorl.EDEV

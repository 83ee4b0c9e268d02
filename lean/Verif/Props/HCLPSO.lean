import Verif.HCLPSO
import Mathlib.Tactic.Linarith

/-!
# C56: HCLPSO
-/

set_option linter.unusedSectionVars false
set_option linter.unusedVariables false

namespace Neorl.HCLPSO
open Particles
open EDEV (repair worker repair_rows repair_total)

section
variable {K : Type} [Field K] [LinearOrder K] [IsStrictOrderedRing K] [FloorRing K]

theorem worker_eq {S : Space K} {m : Bool} {fit : List K → K} {l : List (List K)} (h : ∀ z ∈ l, S.Feasible z) :
    ∀ z ∈ l, worker S m fit z = sgn m (fit z) := fun z hz => by
  unfold worker; rw [Space.clip_of_inBox (h z hz).1]

theorem evolute_ok {S : Space K} (hS : S.OK) {g1 g2 ngen : ℕ} {pc : ℕ → K} {m : Bool} {fit : List K → K} {x0 : Option (List (List K))} {D0 : Draws0 K}
    (hD : D0.OK) {D : ℕ → Draws K} {r : Result K} (h : evolute S g1 g2 ngen pc m fit x0 D0 D = .ok r) :
    ∃ (s : State K) (b : K × List K), Inv S (g1 + g2) ngen (worker S m fit) ngen s ∧ s.best = some b ∧ 0 < g1 + g2 ∧
      r = { x := b.2, y := sgn m b.1, global := s.hG.map (sgn m), locals := s.hL.map (sgn m), c1 := (List.range ngen).map (cog ngen),
            c2 := (List.range ngen).map (soc ngen), kappa := (List.range ngen).map (constr ngen),
            lastPop := s.pos.map (fun p => (p, sgn m (worker S m fit p))), mem := s.mem, log0 := s.log0, log := s.log } := by
  unfold evolute at h
  split_ifs at h
  dsimp only at h
  split at h
  · cases h
  rename_i s0 hs0
  split at h
  · cases h
  rename_i s hs
  split at h
  · cases h
  rename_i b hb
  simp only [Except.ok.injEq] at h
  have i0 := start_inv (ngen := ngen) hS hD hs0
  have hg : 0 < g1 + g2 := by
    rw [← i0.len0]
    exact List.length_pos_of_mem (by simpa using (show _ ∈ s0.log0 ++ s0.log from i0.mem.inc.1) |> fun h => (by
      have e : s0.log = [] := by
        have := i0.hist.1; rw [i0.lens.1] at this; exact List.eq_nil_of_length_eq_zero (by simpa using this)
      rw [e, List.append_nil] at h; exact h))
  exact ⟨s, b, (run_inv hS hg i0 hs).1, hb, hg, h.symm⟩

/-- **C56 (best tracking).**  For every fitness function, both modes, all group sizes and all draws, a finished run evaluates `g1+g2` initial points and
`g1+g2` points per generation, all feasible; the returned pair is the best of the points evaluated *in the loop*, with its own fitness; entry `k` of the two
histories is the best of the loop so far and the best of generation `k`; the last population is the last block with its fitness. -/
theorem C56_run {S : Space K} (hS : S.OK) {g1 g2 ngen : ℕ} {pc : ℕ → K} {m : Bool} {fit : List K → K} {x0 : Option (List (List K))} {D0 : Draws0 K}
    (hD : D0.OK) {D : ℕ → Draws K} {r : Result K} (h : evolute S g1 g2 ngen pc m fit x0 D0 D = .ok r) :
    (∀ z ∈ r.log0 ++ r.log, S.Feasible z) ∧ r.log0.length = g1 + g2 ∧ r.log.length = ngen * (g1 + g2) ∧
    IsBest m fit r.log r.x r.y ∧ r.global.length = ngen ∧ HistBest m fit 0 (g1 + g2) r.log r.global ∧ r.global.getLast? = some r.y ∧
    r.locals.length = ngen ∧ BlockBest m fit 0 (g1 + g2) r.log r.locals ∧
    r.lastPop = (r.log.drop ((ngen - 1) * (g1 + g2))).map (fun z => (z, fit z)) := by
  obtain ⟨s, b, inv, hb, hg, rfl⟩ := evolute_ok hS hD h
  dsimp only
  have hw := worker_eq (m := m) (fit := fit) inv.flog
  have hng : ngen ≠ 0 := by
    rintro rfl
    rcases inv.best with ⟨_, hn⟩ | ⟨b', hb', hinc⟩
    · rw [hn] at hb; cases hb
    · have := inv.hist.1
      rw [inv.lens.1] at this
      have e : s.log = [] := List.eq_nil_of_length_eq_zero (by simpa using this)
      rw [e] at hinc; exact absurd hinc.1 (by simp)
  have hlog : s.log.length = ngen * (g1 + g2) := by have := inv.hist.1; rw [inv.lens.1] at this; simpa using this
  have hinc : Swarm.Inc (worker S m fit) s.log b := by
    rcases inv.best with ⟨h0, _⟩ | ⟨b', hb', hinc⟩
    · exact absurd h0 hng
    · rw [hb] at hb'; cases hb'; exact hinc
  have e := fun z hz => congrArg (sgn m) (hw z hz)
  have hwk : worker S m fit = fun x => sgn m (fit (S.clip x)) := rfl
  have hcl : ∀ z ∈ s.log, fit (S.clip z) = fit z := fun z hz => by rw [Space.clip_of_inBox (inv.flog z hz).1]
  refine ⟨?_, inv.len0, hlog, ?_, by simp [inv.lens.1], ?_, ?_, by simp [inv.lens.2], ?_, ?_⟩
  · intro z hz
    rcases List.mem_append.1 hz with hz | hz
    · exact inv.feas0 z hz
    · exact inv.flog z hz
  · rw [hwk] at hinc; exact (Swarm.Inc.isBest hinc).congr hcl
  · have := inv.hist; rw [hwk] at this; exact this.histBest.congr hcl
  · rw [List.getLast?_map, inv.endG hng, hb]; rfl
  · have := inv.locals; rw [hwk] at this; exact this.ofMin.congr hcl
  · have hl := inv.last
    have hpos : s.pos = s.log.drop ((ngen - 1) * (g1 + g2)) := by
      rw [hl]
      obtain ⟨n, rfl⟩ : ∃ n, ngen = n + 1 := ⟨ngen - 1, by omega⟩
      rw [List.drop_append, inv.len0, List.drop_of_length_le (by rw [inv.len0]; nlinarith), List.nil_append]
      congr 1
      rw [Nat.add_mul, Nat.one_mul]; simp
    rw [← hpos]
    apply List.map_congr_left
    intro z hz
    rw [hpos] at hz
    have hz' := List.mem_of_mem_drop hz
    rw [hw z hz', sgn_sgn]

/-- **C56 (memory).**  The personal best of particle `i` is the best of *its own* `ngen + 1` evaluations, initial one included, with its own fitness; the
global best is the best of all evaluations, initial ones included. -/
theorem C56_memory {S : Space K} (hS : S.OK) {g1 g2 ngen : ℕ} {pc : ℕ → K} {m : Bool} {fit : List K → K} {x0 : Option (List (List K))} {D0 : Draws0 K}
    (hD : D0.OK) {D : ℕ → Draws K} {r : Result K} (h : evolute S g1 g2 ngen pc m fit x0 D0 D = .ok r) :
    r.mem.pb.length = g1 + g2 ∧
    (∀ (i : ℕ) (p : Indv K), r.mem.pb[i]? = some p → SlotBest m fit (g1 + g2) (ngen + 1) (r.log0 ++ r.log) i p.1 (sgn m p.2)) ∧
    IsBest m fit (r.log0 ++ r.log) (r.mem.gref.get r.mem.pb) (sgn m r.mem.gval) ∧ NotWorse m r.y (sgn m r.mem.gval) := by
  have hbest := (C56_run hS hD h).2.2.2.1
  obtain ⟨s, b, inv, hb, hg, rfl⟩ := evolute_ok hS hD h
  dsimp only at hbest ⊢
  have hf : ∀ z ∈ s.log0 ++ s.log, S.Feasible z := by
    intro z hz
    rcases List.mem_append.1 hz with hz | hz
    · exact inv.feas0 z hz
    · exact inv.flog z hz
  have hcl : ∀ z ∈ s.log0 ++ s.log, fit (S.clip z) = fit z := fun z hz => by rw [Space.clip_of_inBox (hf z hz).1]
  have hwk : worker S m fit = fun x => sgn m (fit (S.clip x)) := rfl
  have hinc := inv.mem.inc
  rw [hwk] at hinc
  have hB := (Swarm.Inc.isBest hinc).congr hcl
  refine ⟨inv.mem.size, ?_, hB, ?_⟩
  · intro i p hp
    have := inv.slots i p hp
    rw [hwk] at this
    exact this.ofMin.congr hcl
  · rw [hbest.2.1]
    exact hB.2.2 _ (List.mem_append_right _ hbest.1)

/-- **C56 (never worse).**  One generation never makes a personal best or the global best worse. -/
theorem C56_monotone {S : Space K} (hS : S.OK) {g1 g2 ngen : ℕ} (hg : 0 < g1 + g2) {pc : ℕ → K} {f : List K → K} {D : Draws K} {G k : ℕ} {s s' : State K}
    (hi : Inv S (g1 + g2) ngen f G s) (h : gen S g1 g2 ngen pc f D k s = .ok s') :
    (∀ (i : ℕ) (p p' : Indv K), s.mem.pb[i]? = some p → s'.mem.pb[i]? = some p' → p'.2 ≤ p.2) ∧ s'.mem.gval ≤ s.mem.gval := by
  have hi' := gen_inv hS hg hi h
  unfold gen at h
  dsimp only at h
  split at h
  · cases h
  rename_i pos hpos
  split at h
  · cases h
  rename_i l hl
  simp only [Except.ok.injEq] at h
  subst h
  refine ⟨fun i p p' hp hp' => notes_mono hp hp', ?_⟩
  have h1 := hi.mem.inc
  have h2 := hi'.mem.inc
  rw [show s.mem.gval = f (s.mem.gref.get s.mem.pb) from h1.2.1]
  refine h2.2.2 _ ?_
  dsimp only
  rw [← List.append_assoc]
  exact List.mem_append_left _ h1.1

/-- **C56 (velocities and counters).**  In every reachable state each velocity component is within a fifth of the width of its variable and no particle has
failed more than five times in a row since its exemplar was renewed. -/
theorem C56_limits {S : Space K} (hS : S.OK) {g1 g2 ngen : ℕ} (hg : 0 < g1 + g2) {pc : ℕ → K} {f : List K → K} {D0 : Draws0 K} (hD : D0.OK) {D : ℕ → Draws K}
    {s0 s : State K} (h0 : start S g1 g2 pc f D0 = .ok s0) {G : ℕ} (h : run S g1 g2 ngen pc f D s0 G = .ok s) :
    (∀ (i j : ℕ) (v : List K) (b : K × K) (c : K), s.vel[i]? = some v → v[j]? = some c → S.bounds[j]? = some b → 5 * |c| ≤ b.2 - b.1) ∧
    (∀ n ∈ s.mem.slope, n ≤ 5) := by
  have inv := (run_inv hS hg (start_inv (ngen := ngen) hS hD h0) h).1
  refine ⟨?_, inv.slope⟩
  intro i j v b c hv hc hb
  have hi : i < g1 + g2 := by have := (List.getElem?_eq_some_iff.1 hv).1; rw [inv.nvel.1] at this; exact this
  have hj := (List.getElem?_eq_some_iff.1 hb).1
  have := inv.vel i j hi hj
  have e1 : at2 s.vel i j = c := by unfold at2; simp [List.getD_eq_getElem?_getD, hv, hc]
  have e2 : vmax S j = (b.2 - b.1) * (1 / 5) := by unfold vmax; simp [List.getD_eq_getElem?_getD, hb]
  rw [e1, e2] at this
  have := abs_le.2 this
  linarith

/-- What an exemplar is: every coordinate is copied from a personal best, the particle's own or that of a friend among the first `n` which won a tournament
against another of the first `n`; at least one coordinate comes from a friend. -/
def IsExemplar (dim n i : ℕ) (pb : List (Indv K)) (row : List K) : Prop :=
  row.length = dim ∧
  (∀ d < dim, row.getD d 0 = ((pb.getD i ([], 0)).1).getD d 0 ∨ ∃ a b : ℕ, a < n ∧ b < n ∧ (pb.getD a ([], 0)).2 ≤ (pb.getD b ([], 0)).2 ∧ row.getD d 0 = ((pb.getD a ([], 0)).1).getD d 0) ∧
  ∃ d < dim, ∃ a b : ℕ, a < n ∧ b < n ∧ (pb.getD a ([], 0)).2 ≤ (pb.getD b ([], 0)).2 ∧ row.getD d 0 = ((pb.getD a ([], 0)).1).getD d 0

/-- **C56 (exemplars).**  With tournament draws in (0,1), tosses in [0,1) and a learning probability in [0,1) every exemplar built is one. -/
theorem C56_exemplar {dim n i : ℕ} (hn : 0 < n) (hd : 0 < dim) {pc : K} (hp : 0 ≤ pc ∧ pc < 1) {pb : List (Indv K)} {D : FDraw K}
    (hu : ∀ d, 0 < D.u1 d ∧ D.u1 d < 1) (hv : ∀ d, 0 < D.u2 d ∧ D.u2 d < 1) (ht : ∀ d, 0 ≤ D.t d ∧ D.t d < 1) (hf : D.forced < dim) :
    IsExemplar dim n i pb (exemplar dim n pc pb D i) := by
  have hrow : ∀ d < dim, (exemplar dim n pc pb D i).getD d 0 = ((pbAt pb ((1 - toss dim pc D d) * winner pb n D d + toss dim pc D d * (i : ℤ))).1).getD d 0 := by
    intro d hd
    unfold exemplar
    simp [List.getD_eq_getElem?_getD, hd]
  have hfriend : ∀ d < dim, toss dim pc D d = 0 → ∃ a b : ℕ, a < n ∧ b < n ∧ (pb.getD a ([], 0)).2 ≤ (pb.getD b ([], 0)).2 ∧
      (exemplar dim n pc pb D i).getD d 0 = ((pb.getD a ([], 0)).1).getD d 0 := by
    intro d hd h0
    rw [hrow d hd, h0]
    obtain ⟨a0, a1⟩ := pickFriend_range hn (hu d).1 (hu d).2
    obtain ⟨b0, b1⟩ := pickFriend_range hn (hv d).1 (hv d).2
    obtain ⟨a, ea⟩ := Int.eq_ofNat_of_zero_le a0
    obtain ⟨b, eb⟩ := Int.eq_ofNat_of_zero_le b0
    rw [ea] at a1; rw [eb] at b1
    have e : (1 - (0 : ℤ)) * winner pb n D d + 0 * (i : ℤ) = winner pb n D d := by ring
    rw [e]
    unfold winner; dsimp only
    rw [ea, eb, pbAt_nat, pbAt_nat]
    split_ifs with hc
    · exact ⟨a, b, by omega, by omega, hc.le, by rw [pbAt_nat]⟩
    · exact ⟨b, a, by omega, by omega, not_lt.1 hc, by rw [pbAt_nat]⟩
  refine ⟨length_exemplar _ _ _ _ _ _, ?_, ?_⟩
  · intro d hd
    rcases toss_range (dim := dim) (ht d) hp with h0 | h1
    · exact Or.inr (hfriend d hd h0)
    · left
      rw [hrow d hd, h1]
      have e : (1 - (1 : ℤ)) * winner pb n D d + 1 * (i : ℤ) = (i : ℤ) := by ring
      rw [e, pbAt_nat]
  · by_cases hall : ∀ e < dim, ⌈D.t e - pc⌉ = 1
    · refine ⟨D.forced, hf, hfriend _ hf ?_⟩
      unfold toss
      rw [if_pos ⟨by simpa using hall, rfl⟩]
    · push Not at hall
      obtain ⟨d, hd, h1⟩ := hall
      refine ⟨d, hd, hfriend d hd ?_⟩
      unfold toss
      rw [if_neg]
      · rcases ceil_toss (ht d) hp with h | h
        · exact h
        · exact absurd h h1
      · rintro ⟨h, _⟩
        simp only [List.all_eq_true, List.mem_range, decide_eq_true_eq] at h
        exact h1 (h d hd)

/-- **C56 (last particle is never a friend).**  When group 2 renews its exemplars in the loop the friends are among the first `g - 1` particles: the personal
best of the last particle is copied by no other particle. -/
theorem C56_last_not_friend {dim g1 g : ℕ} (hg : 1 < g) {pc : ℕ → K} {fr : ℕ → FDraw K} {m : Mem K} {fri : List (List K)} (hd : 0 < dim)
    (hp : ∀ i, 0 ≤ pc i ∧ pc i < 1) (hu : ∀ i d, 0 < (fr i).u1 d ∧ (fr i).u1 d < 1) (hv : ∀ i d, 0 < (fr i).u2 d ∧ (fr i).u2 d < 1)
    (ht : ∀ i d, 0 ≤ (fr i).t d ∧ (fr i).t d < 1) (hf : ∀ i, (fr i).forced < dim) :
    ∀ (i : ℕ) (q : List K × ℕ), g1 ≤ i → i < g → (refreshAll dim g1 g pc fr m fri)[i]? = some q →
      q.1 = fri.getD i [] ∨ IsExemplar dim (g - 1) i m.pb q.1 := by
  intro i q h1 h2 hq
  simp only [refreshAll, List.getElem?_map, List.getElem?_range h2, Option.map_some, Option.some.injEq] at hq
  subst hq
  rw [if_neg (by omega)]
  unfold refresh
  split_ifs
  · exact Or.inr (C56_exemplar (by omega) hd (hp i) (hu i) (hv i) (ht i) (hf i))
  · exact Or.inl rfl

/-- **C56 (the start is ignored).**  The given initial positions are checked for their number and then replaced by random ones: two starts of the right
size give the same run. -/
theorem C56_x0_ignored {S : Space K} {g1 g2 ngen : ℕ} {pc : ℕ → K} {m : Bool} {fit : List K → K} {x0 y0 : List (List K)} {D0 : Draws0 K} {D : ℕ → Draws K}
    (hx : x0.length = g1 + g2) (hy : y0.length = g1 + g2) :
    evolute S g1 g2 ngen pc m fit (some x0) D0 D = evolute S g1 g2 ngen pc m fit (some y0) D0 D ∧
    evolute S g1 g2 ngen pc m fit (some x0) D0 D = evolute S g1 g2 ngen pc m fit none D0 D := by
  unfold evolute; simp [hx, hy]

/-- **C56 (velocity on a limit).**  A velocity equal to a limit is replaced by zero, while anything beyond is set to the limit. -/
theorem C56_limit_lost {hi : K} (h : 0 < hi) (v : K) :
    (v < -hi → limit (-hi) hi v = -hi) ∧ (hi < v → limit (-hi) hi v = hi) ∧ (-hi < v → v < hi → limit (-hi) hi v = v) ∧
    (v = hi ∨ v = -hi → limit (-hi) hi v = 0) := limit_spec h v

/-- **C56 (totality).**  With rounding to the nearest integer, at least one particle and one generation, every run finishes. -/
theorem C56_total {S : Space K} (hS : S.OK) (hm : S.method = .nearestInt) {g1 g2 ngen : ℕ} (hg : 0 < g1 + g2) (hn : 0 < ngen) {pc : ℕ → K} {m : Bool}
    {fit : List K → K} {D0 : Draws0 K} (hD : D0.OK) {D : ℕ → Draws K} : ∃ r, evolute S g1 g2 ngen pc m fit none D0 D = .ok r := by
  obtain ⟨s0, h0⟩ : ∃ s0, start S g1 g2 pc (worker S m fit) D0 = .ok s0 := by
    unfold start; dsimp only
    obtain ⟨us, hus⟩ := repair_total hS hm (a := 1) (d := D0.d) (rows := (List.range (g1 + g2)).map (fun i => (List.range S.bounds.length).map (fun j =>
      (S.bounds.getD j (0, 0)).1 + ((S.bounds.getD j (0, 0)).2 - (S.bounds.getD j (0, 0)).1) * D0.u i j))) (by intro r hr; simp at hr; obtain ⟨i, _, rfl⟩ := hr; simp)
    rw [hus]; dsimp only
    have : us ≠ [] := by
      intro h
      have := (mapRows_ok hus).1
      rw [h] at this; simp at this; omega
    obtain ⟨b, hb⟩ := Swarm.select_total (f := worker S m fit) this
    rw [hb]; exact ⟨_, rfl⟩
  have i0 := start_inv (ngen := ngen) hS hD h0
  have hrun : ∀ G, ∃ s, run S g1 g2 ngen pc (worker S m fit) D s0 G = .ok s := by
    intro G
    induction G with
    | zero => exact ⟨_, rfl⟩
    | succ G ih =>
      obtain ⟨s, hs⟩ := ih
      simp only [run, hs]
      unfold gen; dsimp only
      obtain ⟨us, hus⟩ := repair_total hS hm (a := 1 - (G : K) * (1 / (ngen : K))) (d := (D G).d) (rows := (List.range (g1 + g2)).map (fun i =>
        (List.range S.bounds.length).map (fun j => at2 s.pos i j +
          at2 ((List.range (g1 + g2)).map (velRow S g1 ngen G (D G) s (s.mem.gref.get s.mem.pb))) i j))) (by intro r hr; simp at hr; obtain ⟨i, _, rfl⟩ := hr; simp)
      rw [hus]; dsimp only
      have : us ≠ [] := by
        intro h
        have := (mapRows_ok hus).1
        rw [h] at this; simp at this; omega
      obtain ⟨b, hb⟩ := Swarm.select_total (f := worker S m fit) this
      rw [hb]; exact ⟨_, rfl⟩
  obtain ⟨s, hs⟩ := hrun ngen
  have inv := (run_inv hS hg i0 hs).1
  unfold evolute
  simp only [Bool.false_eq_true, if_false, h0, hs]
  rcases inv.best with ⟨h, _⟩ | ⟨b, hb, _⟩
  · omega
  · rw [hb]; exact ⟨_, rfl⟩

/-- **C56 (no generation).**  Asking for zero generations never returns a result. -/
theorem C56_ngen_zero {S : Space K} (hS : S.OK) {g1 g2 : ℕ} {pc : ℕ → K} {m : Bool} {fit : List K → K} {x0 : Option (List (List K))} {D0 : Draws0 K} (hD : D0.OK)
    {D : ℕ → Draws K} {r : Result K} : evolute S g1 g2 0 pc m fit x0 D0 D ≠ .ok r := by
  intro h
  have h1 := (C56_run hS hD h).2.2.1
  have h2 := (C56_run hS hD h).2.2.2.1.1
  have e : r.log = [] := List.eq_nil_of_length_eq_zero (by simpa using h1)
  rw [e] at h2; exact absurd h2 (by simp)

end

/-! ### A concrete run -/

/-- One float and one integer variable. -/
def exS : Space ℚ := { bounds := [(-10, 10), (0, 5)], types := [.float, .int], method := .nearestInt, expf := fun x => x }

theorem exS_ok : exS.OK := Space.ok_of_okB (by decide +kernel)

def exFr : ℕ → FDraw ℚ := fun i => { u1 := fun d => (i + d + 1 : ℕ) / 7, u2 := fun d => 1 / (i + d + 2 : ℕ), t := fun d => d / 3, forced := i % 2 }
def exD0 : Draws0 ℚ := { u := fun i j => ((3 * i + 2 * j) % 7 : ℕ) / 7, v := fun i j => ((i + j) % 3 : ℕ) / 3, d := fun _ _ => (1 / 2, 0), fr := exFr }
def exD : ℕ → Draws ℚ := fun k => { u1 := fun i j => ((i + j + k) % 4 : ℕ) / 4, u2 := fun i j => ((2 * i + j + k) % 5 : ℕ) / 5, d := fun _ _ => (1 / 2, 0), fr := exFr }
def exPc : ℕ → ℚ := fun i => i / 20
/-- Best far from where the swarm goes. -/
def exFit : List ℚ → ℚ := fun v => |v.getD 0 0 + 10| + v.getD 1 0

theorem exD0_ok : exD0.OK := by
  intro i j
  simp only [exD0]
  have h1 : (((i + j) % 3 : ℕ) : ℚ) < 3 := by exact_mod_cast Nat.mod_lt _ (by omega)
  have h2 : (0 : ℚ) ≤ (((i + j) % 3 : ℕ) : ℚ) := by positivity
  constructor
  · positivity
  · linarith

/-- The hypotheses of the theorems above are met by a run with three particles over two generations. -/
example : exS.OK ∧ exS.method = .nearestInt ∧ exD0.OK ∧ 0 < 2 + 1 ∧ (∃ r, evolute exS 2 1 2 exPc true exFit none exD0 exD = .ok r) :=
  ⟨exS_ok, rfl, exD0_ok, by norm_num, C56_total exS_ok rfl (by norm_num) (by norm_num) exD0_ok⟩

/-- **C56 (start lost).**  The best initial point is in the global best but not in the returned pair: here `fit [-10, 1] = 0` was evaluated and the caller is
told the best fitness is 1. -/
theorem C56_start_lost : ∃ r, evolute exS 2 1 2 exPc true (fun v => |v.getD 0 0 + 10| + |v.getD 1 0 - 1|) none exD0 exD = .ok r ∧
    [-10, 1] ∈ r.log0 ∧ r.mem.gval = 0 ∧ r.y = 1 ∧ r.x = [-10, 0] := by
  obtain ⟨r, hr⟩ := C56_total (S := exS) (g1 := 2) (g2 := 1) (ngen := 2) (pc := exPc) (m := true)
    (fit := fun v => |v.getD 0 0 + 10| + |v.getD 1 0 - 1|) (D := exD) exS_ok rfl (by norm_num) (by norm_num) exD0_ok
  have key : (match evolute exS 2 1 2 exPc true (fun v => |v.getD 0 0 + 10| + |v.getD 1 0 - 1|) none exD0 exD with
    | .ok r => decide ([-10, 1] ∈ r.log0 ∧ r.mem.gval = 0 ∧ r.y = 1 ∧ r.x = [-10, 0]) | .error _ => false) = true := by decide +kernel
  rw [hr] at key
  exact ⟨r, hr, by simpa using key⟩

/-- Beyond the limit, on the limit, inside. -/
example : limit (-(4 : ℚ)) 4 4 = 0 ∧ limit (-(4 : ℚ)) 4 5 = 4 ∧ limit (-(4 : ℚ)) 4 3 = 3 := by decide +kernel

/-- An exemplar that mixes two personal bests. -/
example : exemplar 2 3 (1 / 5 : ℚ) [([1, 2], 5), ([3, 4], 4), ([5, 6], 3)] (exFr 0) 2 = [3, 6] := by decide +kernel

end Neorl.HCLPSO

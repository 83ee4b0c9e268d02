import Verif.EPSO
import Verif.Props.HCLPSO
import Mathlib.Tactic.Linarith
import Mathlib.Tactic.IntervalCases

/-!
# C55: EPSO
-/

set_option linter.unusedSectionVars false
set_option linter.unusedVariables false

namespace Neorl.EPSO
open Particles
open EDEV (repair worker)

section
variable {K : Type} [Field K] [LinearOrder K] [IsStrictOrderedRing K] [FloorRing K]

/-- Initial velocities are drawn from [0,1]. -/
def Unit01 (v0 : ℕ → ℕ → K) : Prop := ∀ i j, 0 ≤ v0 i j ∧ v0 i j ≤ 1

theorem evolute_ok {C : Cfg K} (hS : C.S.OK) {pc : ℕ → K} {m : Bool} {fit : List K → K} {x0 : List (List K)} (hx : ∀ x ∈ x0, x.length = C.S.bounds.length)
    {v0 : ℕ → ℕ → K} (hv : Unit01 v0) {D0 : Draws K} {D : ℕ → Draws K} {r : Result K} (h : evolute C pc m fit x0 v0 D0 D = .ok r) :
    ∃ s : State K, Inv C (worker C.S m fit) C.ngen s ∧ 0 < C.g ∧ C.ngen ≠ 0 ∧
      r = { x := s.mem.gref.get s.mem.pb, y := sgn m s.mem.gval, global := s.hG.map (sgn m), locals := s.hL.map (sgn m), rates := s.rates,
            lastPop := s.pos.map (fun p => (p, sgn m (worker C.S m fit p))), mem := s.mem, log := s.log, phases := s.phases } := by
  unfold evolute at h
  split at h
  · cases h
  rename_i hn
  push Not at hn
  dsimp only at h
  split at h
  · cases h
  rename_i s0 hs0
  split at h
  · cases h
  rename_i s hs
  split at h
  · cases h
  rename_i h0
  simp only [Except.ok.injEq] at h
  have i0 := start_inv hS hn hx hv hs0
  have hg : 0 < C.g := by
    have h1 : s0.log.length = C.g := by have := i0.hist.1; rw [i0.lens.1] at this; simpa using this
    rw [← h1]; exact List.length_pos_of_mem i0.mid.mem.inc.1
  exact ⟨s, run_inv hS hg i0 hs, hg, h0, h.symm⟩

/-- **C55 (best tracking).**  For every fitness function, both modes, all group sizes, learning periods and draws, a finished run evaluates `g1+g2` start points
and `g1+g2` points per generation in either phase, all feasible; the returned pair is the best of all of them with its own fitness; the histories are the best so
far and the best of each generation; the last population is the last block with its fitness. -/
theorem C55_run {C : Cfg K} (hS : C.S.OK) {pc : ℕ → K} {m : Bool} {fit : List K → K} {x0 : List (List K)} (hx : ∀ x ∈ x0, x.length = C.S.bounds.length)
    {v0 : ℕ → ℕ → K} (hv : Unit01 v0) {D0 : Draws K} {D : ℕ → Draws K} {r : Result K} (h : evolute C pc m fit x0 v0 D0 D = .ok r) :
    (∀ z ∈ r.log, C.S.Feasible z) ∧ r.log.length = (C.ngen + 1) * (C.g1 + C.g2) ∧ IsBest m fit r.log r.x r.y ∧
    r.global.length = C.ngen ∧ HistBest m fit (C.g1 + C.g2) (C.g1 + C.g2) r.log r.global ∧ r.global.getLast? = some r.y ∧
    r.locals.length = C.ngen ∧ BlockBest m fit (C.g1 + C.g2) (C.g1 + C.g2) r.log r.locals ∧
    r.lastPop = (r.log.drop (C.ngen * (C.g1 + C.g2))).map (fun z => (z, fit z)) := by
  obtain ⟨s, inv, hg, h0, rfl⟩ := evolute_ok hS hx hv h
  dsimp only
  have hwk : worker C.S m fit = fun x => sgn m (fit (C.S.clip x)) := rfl
  have hcl : ∀ z ∈ s.log, fit (C.S.clip z) = fit z := fun z hz => by rw [Space.clip_of_inBox (inv.mid.flog z hz).1]
  have hinc := inv.mid.mem.inc
  refine ⟨inv.mid.flog, ?_, ?_, by simp [inv.lens.1], ?_, ?_, by simp [inv.lens.2.1], ?_, ?_⟩
  · have := inv.hist.1
    rw [inv.lens.1] at this; rw [this]; unfold Cfg.g; ring
  · rw [hwk] at hinc; exact (Swarm.Inc.isBest hinc).congr hcl
  · have := inv.hist; rw [hwk] at this; exact this.histBest.congr hcl
  · rw [List.getLast?_map, inv.endG h0]; rfl
  · have := inv.locals; rw [hwk] at this; exact this.ofMin.congr hcl
  · have hl := inv.last
    rw [show C.g1 + C.g2 = C.g from rfl, ← hl]
    apply List.map_congr_left
    intro z hz
    have hz' : z ∈ s.log := by rw [hl] at hz; exact List.mem_of_mem_drop hz
    rw [hwk]; dsimp only; rw [hcl z hz', sgn_sgn]

/-- **C55 (memory).**  The personal best of particle `i` is the best of its own `ngen + 1` evaluations; and although the global best is sometimes kept as a view
into the table of personal bests that later assignments overwrite, the position read through it always belongs to the remembered value. -/
theorem C55_memory {C : Cfg K} (hS : C.S.OK) {pc : ℕ → K} {m : Bool} {fit : List K → K} {x0 : List (List K)} (hx : ∀ x ∈ x0, x.length = C.S.bounds.length)
    {v0 : ℕ → ℕ → K} (hv : Unit01 v0) {D0 : Draws K} {D : ℕ → Draws K} {r : Result K} (h : evolute C pc m fit x0 v0 D0 D = .ok r) :
    r.mem.pb.length = C.g1 + C.g2 ∧
    (∀ (i : ℕ) (p : Indv K), r.mem.pb[i]? = some p → SlotBest m fit (C.g1 + C.g2) (C.ngen + 1) r.log i p.1 (sgn m p.2)) ∧
    (∀ i, r.mem.gref = .view i → ∃ p, r.mem.pb[i]? = some p ∧ r.x = p.1 ∧ r.y = sgn m p.2) := by
  obtain ⟨s, inv, hg, h0, rfl⟩ := evolute_ok hS hx hv h
  dsimp only
  have hwk : worker C.S m fit = fun x => sgn m (fit (C.S.clip x)) := rfl
  have hcl : ∀ z ∈ s.log, fit (C.S.clip z) = fit z := fun z hz => by rw [Space.clip_of_inBox (inv.mid.flog z hz).1]
  refine ⟨inv.mid.mem.size, ?_, ?_⟩
  · intro i p hp
    have := inv.slots i p hp
    rw [hwk] at this
    exact this.ofMin.congr hcl
  · intro i hi
    obtain ⟨h1, h2⟩ := inv.mid.mem.shown i hi
    have hlt : i < s.mem.pb.length := by rw [inv.mid.mem.size]; exact h1
    refine ⟨s.mem.pb[i], List.getElem?_eq_getElem hlt, ?_, ?_⟩
    · rw [hi]; simp [Ref.get, hlt]
    · rw [h2]; simp [hlt]

/-- **C55 (aliasing is harmless at every update).**  Whatever the memory knew, after one more evaluation of particle `i` - global best copied or viewed - the
position read through the reference is an evaluated point with the remembered value and nothing evaluated is better. -/
theorem C55_aliasing {view : Bool} {rule : K → K → K → ℕ → ℕ} {f : List K → K} {g : ℕ} {log : List (List K)} {mem : Mem K} (h : mem.OK f g log) {i : ℕ} (hi : i < g)
    (x : List K) : let mem' := note view rule f mem i x
    mem'.gref.get mem'.pb ∈ log ++ [x] ∧ mem'.gval = f (mem'.gref.get mem'.pb) ∧ (∀ z ∈ log ++ [x], mem'.gval ≤ f z) ∧ mem'.OK f g (log ++ [x]) := by
  intro mem'
  have := h.note (view := view) (rule := rule) hi x
  exact ⟨this.inc.1, this.inc.2.1, this.inc.2.2, this⟩

/-- **C55 (exactly one strategy).**  In every reachable state each number in [0,1) selects exactly one of the five strategies and the interval of every strategy
is at least 1/505 long. -/
theorem C55_strategy {C : Cfg K} {f : List K → K} {G : ℕ} {s : State K} (inv : Inv C f G s) {k lo : ℕ} {q : Option (Roul K) × Bool} (hq : spin C k lo s = .ok q)
    {r : Roul K} (hr : q.1 = some r) :
    (∀ u : K, 0 ≤ u → u < 1 → choose r.rk u < 5 ∧ (r.rk.getD (choose r.rk u) 0 ≤ u ∧ u < r.rk.getD (choose r.rk u + 1) 0) ∧
      ∀ j < 5, r.rk.getD j 0 ≤ u → u < r.rk.getD (j + 1) 0 → j = choose r.rk u) ∧
    (∀ j < 5, (1 : K) / 505 ≤ r.rk.getD (j + 1) 0 - r.rk.getD j 0) := by
  have h := spin_ok inv.mid.roul hq r hr
  refine ⟨fun u h0 h1 => choose_spec h h0 h1, fun j hj => ?_⟩
  rw [h.step j hj]
  have := h.prob.2.1 j hj
  linarith

/-- **C55 (recorded probabilities).**  The success-rate table has one row per generation, each row is a probability vector in which no strategy falls below
1/505, and the first two rows are uniform. -/
theorem C55_rates {C : Cfg K} (hS : C.S.OK) {pc : ℕ → K} {m : Bool} {fit : List K → K} {x0 : List (List K)} (hx : ∀ x ∈ x0, x.length = C.S.bounds.length)
    {v0 : ℕ → ℕ → K} (hv : Unit01 v0) {D0 : Draws K} {D : ℕ → Draws K} {r : Result K} (h : evolute C pc m fit x0 v0 D0 D = .ok r) :
    r.rates.length = C.ngen ∧ (∀ row ∈ r.rates, row.length = 5 ∧ (∀ x ∈ row, (1 : K) / 505 ≤ x) ∧ row.sum = 1) ∧
    (∀ (k : ℕ) (row : List K), k < 2 → r.rates[k]? = some row → row = [1 / 5, 1 / 5, 1 / 5, 1 / 5, 1 / 5]) := by
  obtain ⟨s, inv, hg, h0, rfl⟩ := evolute_ok hS hx hv h
  dsimp only
  refine ⟨inv.lens.2.2.1, ?_, ?_⟩
  · intro row hrow
    obtain ⟨h1, h2, h3⟩ := inv.rates row hrow
    refine ⟨h1, ?_, h3⟩
    intro x hx
    obtain ⟨j, hj, rfl⟩ := List.mem_iff_getElem.1 hx
    have := h2 j (by omega)
    rwa [List.getD_eq_getElem _ _ hj] at this
  · intro k row hk hrow
    exact inv.early' k row (by omega) hrow

/-- **C55 (learning).**  When the probabilities are renewed, a strategy with a success rate at least as high gets at least as high a probability; the counters
start again from zero. -/
theorem C55_learning (r : Roul K) {i j : ℕ} (hi : i < 5) (hj : j < 5)
    (h : (r.succ.getD i 0 : K) / (max 1 (r.succ.getD i 0 + r.fail.getD i 0) : ℕ) ≤ (r.succ.getD j 0 : K) / (max 1 (r.succ.getD j 0 + r.fail.getD j 0) : ℕ)) :
    r.learn.pk.getD i 0 ≤ r.learn.pk.getD j 0 ∧ r.learn.succ = [0, 0, 0, 0, 0] ∧ r.learn.fail = [0, 0, 0, 0, 0] := by
  refine ⟨?_, rfl, rfl⟩
  have hs : ∀ n, score (K := K) (r.succ.getD n 0) (r.fail.getD n 0) = (r.succ.getD n 0 : K) / (max 1 (r.succ.getD n 0 + r.fail.getD n 0) : ℕ) + 1 / 100 := by
    intro n
    unfold score
    congr 3
    split_ifs with hc <;> omega
  have hle : score (K := K) (r.succ.getD i 0) (r.fail.getD i 0) ≤ score (r.succ.getD j 0) (r.fail.getD j 0) := by rw [hs i, hs j]; linarith
  obtain ⟨a, b, c, d, e, hx, ea, eb, ec, ed, ee, hpk⟩ := learn_eq r
  have hT0 : 0 < a + b + c + d + e := by
    linarith [(hx a (by simp)).1, (hx b (by simp)).1, (hx c (by simp)).1, (hx d (by simp)).1, (hx e (by simp)).1]
  have key : ∀ n < 5, r.learn.pk.getD n 0 = score (r.succ.getD n 0) (r.fail.getD n 0) / (a + b + c + d + e) := by
    intro n hn
    rw [hpk]
    interval_cases n
    · rw [← ea]; rfl
    · rw [← eb]; rfl
    · rw [← ec]; rfl
    · rw [← ed]; rfl
    · rw [← ee]; rfl
  rw [key i hi, key j hj]
  gcongr

/-- **C55 (counting).**  In one generation the success and failure counters of the five strategies together grow by the number of particles moved by a chosen
strategy. -/
theorem C55_counts (f : List K → K) (pb : List (Indv K)) (lo : ℕ) (strat : List ℕ) (rows : List (List K)) (hl : strat.length = rows.length)
    (hs : ∀ st ∈ strat, st < 5) :
    ((List.range 5).map (fun j => tally f pb lo strat rows true j + tally f pb lo strat rows false j)).sum = rows.length := by
  have gen : ∀ l : List ℕ, (∀ i ∈ l, strat.getD i 5 < 5) →
      ((List.range 5).map (fun j =>
        l.countP (fun i => strat.getD i 5 == j && (decide (f (rows.getD i []) < (pb.getD (lo + i) ([], 0)).2) == true)) +
        l.countP (fun i => strat.getD i 5 == j && (decide (f (rows.getD i []) < (pb.getD (lo + i) ([], 0)).2) == false)))).sum = l.length := by
    intro l
    induction l with
    | nil => intro _; simp [List.range_succ]
    | cons a l ih =>
      intro hl
      have h1 := ih (fun i hi => hl i (by simp [hi]))
      have h2 := hl a (by simp)
      simp only [List.countP_cons, List.length_cons]
      rw [← h1]
      generalize strat.getD a 5 = st at h2 ⊢
      generalize decide (f (rows.getD a []) < (pb.getD (lo + a) ([], 0)).2) = b
      simp only [List.range_succ, List.range_zero, List.nil_append, List.cons_append, List.map_cons, List.map_nil, List.sum_cons, List.sum_nil]
      interval_cases st <;> cases b <;> simp <;> omega
  have := gen (List.range rows.length) (by
    intro i hi
    simp only [List.mem_range] at hi
    rw [List.getD_eq_getElem _ _ (by omega)]
    exact hs _ (List.getElem_mem _))
  simpa [tally] using this

/-- **C55 (phase switch).**  In a serial run generation `k` (from 0) is an exploitation generation exactly when more than nine tenths of the `ngen+1` blocks have
been evaluated before it; with several processes the evaluation counter stays in the workers and no generation ever is. -/
theorem C55_phase {C : Cfg K} (hS : C.S.OK) {pc : ℕ → K} {m : Bool} {fit : List K → K} {x0 : List (List K)} (hx : ∀ x ∈ x0, x.length = C.S.bounds.length)
    {v0 : ℕ → ℕ → K} (hv : Unit01 v0) {D0 : Draws K} {D : ℕ → Draws K} {r : Result K} (h : evolute C pc m fit x0 v0 D0 D = .ok r) :
    r.phases.length = C.ngen ∧ ∀ (k : ℕ) (b : Bool), r.phases[k]? = some b →
      (b = true ↔ C.serial = true ∧ (9 / 10 : ℚ) * (C.ngen + 1 : ℕ) < (k + 1 : ℕ)) := by
  obtain ⟨s, inv, hg, h0, rfl⟩ := evolute_ok hS hx hv h
  refine ⟨inv.lens.2.2.2, ?_⟩
  intro k b hb
  rw [inv.phases k b hb, Bool.and_eq_true, decide_eq_true_eq]
  have : (9 * (C.ngen + 1) < 10 * (k + 1)) ↔ (9 / 10 : ℚ) * (C.ngen + 1 : ℕ) < (k + 1 : ℕ) := by
    constructor
    · intro h
      have : ((9 * (C.ngen + 1) : ℕ) : ℚ) < ((10 * (k + 1) : ℕ) : ℚ) := by exact_mod_cast h
      push_cast at this ⊢; linarith
    · intro h
      have : ((9 * (C.ngen + 1) : ℕ) : ℚ) < ((10 * (k + 1) : ℕ) : ℚ) := by push_cast at h ⊢; linarith
      exact_mod_cast this
  rw [this]

/-- **C55 (velocities).**  In every reachable state each velocity component is within half the width of its variable. -/
theorem C55_limits {C : Cfg K} (hS : C.S.OK) (hg : 0 < C.g) {pc : ℕ → K} {f : List K → K} {x0 : List (List K)} (hn : x0.length = C.g)
    (hx : ∀ x ∈ x0, x.length = C.S.bounds.length) {v0 : ℕ → ℕ → K} (hv : Unit01 v0) {D0 : Draws K} {D : ℕ → Draws K} {s0 s : State K}
    (h0 : start C pc f x0 v0 D0 = .ok s0) {G : ℕ} (h : run C pc f D s0 G = .ok s) :
    ∀ v ∈ s.vel, ∀ (j : ℕ) (b : K × K) (c : K), v[j]? = some c → C.S.bounds[j]? = some b → 2 * |c| ≤ b.2 - b.1 := by
  have inv := run_inv hS hg (start_inv hS hn hx hv h0) h
  intro v hv' j b c hc hb
  have := (inv.mid.vel v hv').2 j c hc
  have e2 : vmax C.S j = (b.2 - b.1) * (1 / 2) := by unfold vmax; simp [List.getD_eq_getElem?_getD, hb]
  rw [e2] at this
  have := abs_le.2 this
  linarith

/-- **C55 (failure counters of the second kind never recover).**  The test that should reset the counter of a CLPSO particle compares the result with the
personal best that was just lowered to it, so the counter always grows. -/
theorem C55_slope_grows {view : Bool} {st : ℕ} {f : List K → K} {m : Mem K} {i : ℕ} (hi : i < m.pb.length) (hs : i < m.slope.length) (x : List K) :
    (note view (rule2 st) f m i x).slope.getD i 0 = m.slope.getD i 0 + 1 := by
  rw [note_slope, note_pb]
  have hget : m.pb.getD i ([], 0) = m.pb[i] := List.getD_eq_getElem _ _ hi
  have : ¬ f x < ((if f x < (m.pb.getD i ([], 0)).2 then m.pb.set i (x, f x) else m.pb).getD i ([], 0)).2 := by
    split_ifs with hc
    · simp [hi]
    · exact hc
  simp only [rule2]
  rw [if_neg (fun hc => this hc.2)]
  simp [hs]

/-- **C55 (HPSO with a negative upper bound).**  The cap `sign(v)*min(|v|, ub)` assumes `ub > 0`: for a negative upper bound every non-zero velocity is turned
round and set to the size of the bound. -/
theorem C55_hpso_negative_bound {ub v : K} (h : ub < 0) (hv : v ≠ 0) : hclamp ub v = -(if v < 0 then -1 else 1) * |ub| := by
  unfold hclamp
  have : min |v| ub = ub := min_eq_right (h.le.trans (abs_nonneg v))
  rw [this, abs_of_neg h]
  split_ifs with h1 <;> ring

/-- For a non-negative upper bound the cap keeps the direction and limits the size. -/
theorem C55_hpso_cap {ub v : K} (h : 0 ≤ ub) : |hclamp ub v| ≤ ub ∧ 0 ≤ hclamp ub v * v ∧ (|v| ≤ ub → hclamp ub v = v) := by
  unfold hclamp
  have hm : 0 ≤ min |v| ub := le_min (abs_nonneg v) h
  rcases lt_trichotomy v 0 with h1 | rfl | h1
  · rw [if_pos h1]
    refine ⟨by rw [abs_mul, abs_of_nonneg hm]; simp, by nlinarith, fun hle => by rw [min_eq_left hle, abs_of_neg h1]; ring⟩
  · simp [h]
  · rw [if_neg (not_lt.2 h1.le), if_neg h1.ne']
    refine ⟨by rw [one_mul, abs_of_nonneg hm]; exact min_le_right _ _, by nlinarith, fun hle => by rw [min_eq_left hle, abs_of_pos h1]; ring⟩

/-- **C55 (learning period zero).**  `LP = 0` never returns a result. -/
theorem C55_lp_zero {C : Cfg K} (hS : C.S.OK) (hLP : C.LP = 0) {pc : ℕ → K} {m : Bool} {fit : List K → K} {x0 : List (List K)}
    (hx : ∀ x ∈ x0, x.length = C.S.bounds.length) {v0 : ℕ → ℕ → K} (hv : Unit01 v0) {D0 : Draws K} {D : ℕ → Draws K} {r : Result K} :
    evolute C pc m fit x0 v0 D0 D ≠ .ok r := by
  intro h
  obtain ⟨s, inv, hg, h0, rfl⟩ := evolute_ok hS hx hv h
  unfold evolute at h
  split at h
  · cases h
  rename_i hn
  push Not at hn
  dsimp only at h
  split at h
  · cases h
  rename_i s0 hs0
  split at h
  · cases h
  rename_i s' hs
  obtain ⟨n, hn'⟩ : ∃ n, C.ngen = n + 1 := ⟨C.ngen - 1, by omega⟩
  rw [hn'] at hs
  simp only [run] at hs
  split at hs
  · cases hs
  rename_i t ht
  have it := run_inv hS hg (start_inv hS hn hx hv hs0) ht
  unfold gen at hs
  split at hs
  · cases hs
  rename_i w hw
  unfold body at hw
  dsimp only at hw
  split_ifs at hw
  · split at hw
    · cases hw
    rename_i y hy
    obtain ⟨m1, -⟩ := first_spec hS it.mid hy
    obtain ⟨_, _, _, _, _, _, _, _, _, _, _, _, hc, _⟩ := second_spec hS (by unfold Cfg.g; omega) m1 hw
    exact hc hLP
  · obtain ⟨_, _, _, _, _, _, _, _, _, _, _, _, hc, _⟩ := second_spec hS (Nat.zero_le _) it.mid hw
    exact hc hLP

/-- **C55 (no second group).**  With `g2 = 0` the probabilities are never defined and no run returns a result. -/
theorem C55_g2_zero {C : Cfg K} (hS : C.S.OK) (hg2 : C.g2 = 0) {pc : ℕ → K} {m : Bool} {fit : List K → K} {x0 : List (List K)}
    (hx : ∀ x ∈ x0, x.length = C.S.bounds.length) {v0 : ℕ → ℕ → K} (hv : Unit01 v0) {D0 : Draws K} {D : ℕ → Draws K} {r : Result K} :
    evolute C pc m fit x0 v0 D0 D ≠ .ok r := by
  intro h
  obtain ⟨s, inv, hg, h0, rfl⟩ := evolute_ok hS hx hv h
  unfold evolute at h
  split at h
  · cases h
  rename_i hn
  push Not at hn
  dsimp only at h
  split at h
  · cases h
  rename_i s0 hs0
  split at h
  · cases h
  rename_i s' hs
  have i0 := start_inv hS hn hx hv hs0
  have hro : s0.roul = none := by
    unfold start at hs0
    dsimp only at hs0
    split at hs0
    · cases hs0
    split at hs0
    · cases hs0
    simp only [Except.ok.injEq] at hs0
    rw [← hs0]
  -- the first generation already fails
  have h1 : ∀ t, gen C pc (worker C.S m fit) (D 0) 0 s0 ≠ .ok t := by
    intro t ht
    have hex : exploring C s0 = true := by
      have := exploring_eq hg i0.cnt
      cases hc : exploring C s0 with
      | true => rfl
      | false =>
        rw [hc] at this
        simp at this
        omega
    unfold gen at ht
    split at ht
    · cases ht
    rename_i w hw
    unfold body at hw
    dsimp only at hw
    rw [if_pos hex] at hw
    split at hw
    · cases hw
    rename_i y hy
    obtain ⟨m1, _, _, _, _, _, e1, _⟩ := first_spec hS i0.mid hy
    obtain ⟨_, _, _, _, _, _, _, _, _, _, _, _, _, hc⟩ := second_spec hS (by unfold Cfg.g; omega) m1 hw
    have hwn := hc (by unfold Cfg.g; omega) (by rw [e1, hro])
    rw [hwn] at ht
    cases ht
  have h2 : ∀ n t, run C pc (worker C.S m fit) D s0 (n + 1) ≠ .ok t := by
    intro n
    induction n with
    | zero => intro t; simp only [run]; exact h1 t
    | succ n ih =>
      intro t ht
      simp only [run] at ht ih
      split at ht
      · cases ht
      rename_i w hw
      exact ih w hw
  obtain ⟨n, hn'⟩ : ∃ n, C.ngen = n + 1 := ⟨C.ngen - 1, by omega⟩
  rw [hn'] at hs
  exact h2 n _ hs

/-- **C55 (totality).**  With rounding to the nearest integer, a second group, at least three particles, a positive learning period, roulette draws in [0,1)
and at least one generation, every run finishes. -/
theorem C55_total {C : Cfg K} (hS : C.S.OK) (hm : C.S.method = .nearestInt) (hg2 : 0 < C.g2) (hg3 : 3 ≤ C.g) (hLP : C.LP ≠ 0) (hng : C.ngen ≠ 0) {pc : ℕ → K}
    {m : Bool} {fit : List K → K} {x0 : List (List K)} (hn : x0.length = C.g) (hx : ∀ x ∈ x0, x.length = C.S.bounds.length) {v0 : ℕ → ℕ → K} (hv : Unit01 v0)
    {D0 : Draws K} {D : ℕ → Draws K} (hD : ∀ k i, 0 ≤ (D k).prob i ∧ (D k).prob i < 1) : ∃ r, evolute C pc m fit x0 v0 D0 D = .ok r := by
  have hsel : ∀ ps : List (List K), ps.length = C.g → ∃ b, Swarm.select (worker C.S m fit) ps = .ok b := by
    intro ps hps
    exact Swarm.select_total (by intro h; rw [h] at hps; simp at hps; omega)
  obtain ⟨s0, h0⟩ : ∃ s0, start C pc (worker C.S m fit) x0 v0 D0 = .ok s0 := by
    unfold start; dsimp only
    obtain ⟨us, hus⟩ := repair_total_at hS hm (a := 1) (d := D0.d) (rows := x0) (lo := 0) hx
    rw [hus]; dsimp only
    obtain ⟨b, hb⟩ := hsel us (by rw [(mapRows_ok hus).1, hn])
    rw [hb]; exact ⟨_, rfl⟩
  have hg : 0 < C.g := by omega
  have i0 := start_inv hS hn hx hv h0
  have second_total : ∀ (k lo : ℕ) (gb : List K) (s : State K), lo < C.g → Mid C (worker C.S m fit) s → (1 < k → s.roul ≠ none) →
      ∃ t, second C pc (worker C.S m fit) (D k) k lo gb s = .ok t ∧ t.roul ≠ none := by
    intro k lo gb s hlo hi hro
    obtain ⟨q, hq⟩ : ∃ q : Roul K × Bool, prep k s.flag s.roul = .ok q := by
      unfold prep
      by_cases hk : k ≤ 1
      · rw [if_pos hk]; exact ⟨_, rfl⟩
      · rw [if_neg hk]
        cases hr : s.roul with
        | none => exact absurd hr (hro (by omega))
        | some r => dsimp only; split_ifs <;> exact ⟨_, rfl⟩
    have hq' : spin C k lo s = .ok (some q.1, q.2) := by unfold spin; rw [if_pos hlo, hq]
    have hok := prep_ok hi.roul hq
    have h5 : ¬ ((List.range' lo (C.g - lo)).map (fun i => choose (((some q.1).map Roul.rk).getD []) ((D k).prob i))).any (fun st => decide (5 ≤ st)) = true := by
      simp only [List.any_eq_true, List.mem_map, not_exists, not_and, decide_eq_true_eq]
      rintro x ⟨i, _, rfl⟩
      have := (choose_spec hok (hD k i).1 (hD k i).2).1
      simp only [Option.map_some, Option.getD_some]
      omega
    unfold second
    dsimp only
    rw [hq']
    dsimp only
    rw [if_neg h5, if_neg (by rintro ⟨_, h⟩; omega)]
    obtain ⟨us, hus⟩ := repair_total_at hS hm (a := 1 - (k : K) * (1 / (C.ngen : K))) (d := (D k).d) (lo := lo)
      (rows := (List.range' lo (C.g - lo)).map (fun i => addRow C.S.bounds.length (s.pos.getD i []) (((List.range' lo (C.g - lo)).map (fun i =>
        velRow2 C.S C.g2 C.ngen k (D k) s.mem.pb gb (s.pos.getD i []) (s.vel.getD i []) ((((List.range' lo (C.g - lo)).map (fun i =>
          if ((List.range' lo (C.g - lo)).map (fun i => choose (((some q.1).map Roul.rk).getD []) ((D k).prob i))).getD (i - lo) 5 = 4 then
            refresh C.S.bounds.length C.g1 (pc i) s.mem.pb ((D k).fr i) i (s.fri.getD i []) (s.mem.slope.getD i 0) else (s.fri.getD i [], s.mem.slope.getD i 0))).getD (i - lo) ([], 0)).1) i
          (((List.range' lo (C.g - lo)).map (fun i => choose (((some q.1).map Roul.rk).getD []) ((D k).prob i))).getD (i - lo) 5))).getD (i - lo) [])))
      (by intro r hr; simp only [List.mem_map] at hr; obtain ⟨i, _, rfl⟩ := hr; exact length_addRow _ _ _)
    rw [hus]
    dsimp only
    rw [if_neg hLP]
    exact ⟨_, rfl, by simp⟩
  have gen_total : ∀ (k : ℕ) (s : State K), Inv C (worker C.S m fit) k s → (k ≠ 0 → s.roul ≠ none) →
      ∃ t, gen C pc (worker C.S m fit) (D k) k s = .ok t ∧ t.roul ≠ none := by
    intro k s hi hro
    obtain ⟨t, ht, htr⟩ : ∃ t, body C pc (worker C.S m fit) (D k) k s = .ok t ∧ t.roul ≠ none := by
      unfold body; dsimp only
      split_ifs
      · obtain ⟨w, hw⟩ : ∃ w, first C pc (worker C.S m fit) (D k) k s = .ok w := by
          unfold first; dsimp only
          obtain ⟨us, hus⟩ := repair_total_at hS hm (a := 1 - (k : K) * (1 / (C.ngen : K))) (d := (D k).d) (lo := 0)
            (rows := (List.range C.g1).map (fun i => addRow C.S.bounds.length (s.pos.getD i []) (((List.range C.g1).map (fun i =>
              velRow1 C.S C.ngen k (D k) (s.pos.getD i []) (s.vel.getD i []) ((((List.range C.g1).map (fun i =>
                refresh C.S.bounds.length C.g1 (pc i) s.mem.pb ((D k).fr i) i (s.fri.getD i []) (s.mem.slope.getD i 0))).getD i ([], 0)).1) i)).getD i [])))
            (by intro r hr; simp only [List.mem_map] at hr; obtain ⟨i, _, rfl⟩ := hr; exact length_addRow _ _ _)
          rw [hus]; exact ⟨_, rfl⟩
        rw [hw]; dsimp only
        obtain ⟨m1, _, _, _, _, _, e1, _⟩ := first_spec hS hi.mid hw
        exact second_total k C.g1 _ w (by unfold Cfg.g; omega) m1 (fun hk => by rw [e1]; exact hro (by omega))
      · exact second_total k 0 _ s hg hi.mid (fun hk => hro (by omega))
    obtain ⟨m2, -⟩ := body_spec hS hi.mid ht
    unfold gen
    rw [ht]; dsimp only
    cases hr : t.roul with
    | none => exact absurd hr htr
    | some r =>
      dsimp only
      obtain ⟨b, hb⟩ := hsel t.pos m2.npos
      rw [hb]
      exact ⟨_, rfl, by simp⟩
  have hrun : ∀ G, ∃ s, run C pc (worker C.S m fit) D s0 G = .ok s ∧ (G ≠ 0 → s.roul ≠ none) := by
    intro G
    induction G with
    | zero => exact ⟨_, rfl, fun h => absurd rfl h⟩
    | succ G ih =>
      obtain ⟨s, hs, hr⟩ := ih
      obtain ⟨t, ht, htr⟩ := gen_total G s (run_inv hS hg i0 hs) hr
      refine ⟨t, ?_, fun _ => htr⟩
      simp only [run, hs]; exact ht
  obtain ⟨s, hs, _⟩ := hrun C.ngen
  unfold evolute
  rw [if_neg (by push Not; exact hn)]
  simp only [h0, hs]
  rw [if_neg hng]
  exact ⟨_, rfl⟩

end

/-! ### A concrete run -/

/-- Three particles in one group and two in the other, three generations, learning period 1, one process. -/
def exC : Cfg ℚ := { S := HCLPSO.exS, g1 := 2, g2 := 3, ngen := 3, LP := 1, serial := true }
def exDr : ℕ → Draws ℚ := fun k =>
  { fr := HCLPSO.exFr, prob := fun i => ((2 * i + 3 * k) % 10 : ℕ) / 10, u1 := fun i j => ((i + j + k) % 4 : ℕ) / 4, u2 := fun i j => ((2 * i + j + k) % 5 : ℕ) / 5,
    u3 := fun _ _ => 1 / 2, coin := fun _ _ => 1 / 3, z := fun _ _ => 1 / 3, near := fun _ r => r, fi := fun _ r _ => (r + 1 : ℕ) / 4, d := fun _ _ => (1 / 2, 0) }
def exX : List (List ℚ) := [[-3, 1], [4, 2], [0, 5], [7, 0], [-8, 3]]
def exV : ℕ → ℕ → ℚ := fun _ _ => 1 / 2

theorem exV_ok : Unit01 exV := by intro i j; simp only [exV]; constructor <;> norm_num

theorem exDr_ok : ∀ k i, 0 ≤ (exDr k).prob i ∧ (exDr k).prob i < 1 := by
  intro k i
  simp only [exDr]
  have h1 : (((2 * i + 3 * k) % 10 : ℕ) : ℚ) < 10 := by exact_mod_cast Nat.mod_lt _ (by omega)
  constructor
  · positivity
  · linarith

theorem exX_ok : ∀ x ∈ exX, x.length = exC.S.bounds.length := by intro x hx; simp [exX] at hx; rcases hx with rfl | rfl | rfl | rfl | rfl <;> rfl

/-- The hypotheses of the theorems above are met. -/
example : exC.S.OK ∧ exC.S.method = .nearestInt ∧ Unit01 exV ∧ (∃ r, evolute exC HCLPSO.exPc false HCLPSO.exFit exX exV (exDr 0) exDr = .ok r) :=
  ⟨HCLPSO.exS_ok, rfl, exV_ok, C55_total HCLPSO.exS_ok rfl (by decide) (by decide) (by decide) (by decide) rfl exX_ok exV_ok exDr_ok⟩

/-- The run in figures: 20 evaluations, the best found in the last generation, and probabilities that change after the first period. -/
example : ((evolute exC HCLPSO.exPc false HCLPSO.exFit exX exV (exDr 0) exDr).toOption.map (fun r => (r.x, r.y, r.log.length, r.phases))) =
      some ([2307 / 250, 1], 5057 / 250, 20, [false, false, false]) ∧
    ((evolute exC HCLPSO.exPc false HCLPSO.exFit exX exV (exDr 0) exDr).toOption.map (fun r => r.rates)) =
      some [[1 / 5, 1 / 5, 1 / 5, 1 / 5, 1 / 5], [1 / 5, 1 / 5, 1 / 5, 1 / 5, 1 / 5], [101 / 105, 1 / 105, 1 / 105, 1 / 105, 1 / 105]] := by decide +kernel

/-- **C55 (no generation).**  `ngen = 0` raises instead of returning the evaluated start. -/
theorem C55_ngen_zero : (evolute { exC with ngen := 0 } HCLPSO.exPc true HCLPSO.exFit exX exV (exDr 0) exDr).toOption.isNone = true := by decide +kernel

/-- Exploitation does happen: with twelve generations one process switches in the last one, several processes do not. -/
example : ((evolute { exC with ngen := 12 } HCLPSO.exPc true HCLPSO.exFit exX exV (exDr 0) exDr).toOption.map (fun r => r.phases.drop 9)) =
      some [false, false, true] ∧
    ((evolute { exC with ngen := 12, serial := false } HCLPSO.exPc true HCLPSO.exFit exX exV (exDr 0) exDr).toOption.map (fun r => r.phases.drop 9)) =
      some [false, false, false] := by decide +kernel

example : hclamp (-2 : ℚ) (1 / 2) = -2 ∧ hclamp (-2 : ℚ) (-(1 / 2)) = 2 ∧ hclamp (2 : ℚ) 5 = 2 := by decide +kernel

end Neorl.EPSO

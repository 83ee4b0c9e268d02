import Verif.PESA
import Verif.Props.ES
import Verif.Props.PSO
import Verif.Props.ER

/-!
# C66, C67: PESA
-/

set_option linter.unusedSectionVars false
set_option linter.unusedVariables false

namespace Neorl.PESA

open ER (Mem Sample Tag objOf tagged addAll greedyOne)
open ES (Ind)
open PSO (Mech Part)

section
variable {K : Type} [Field K] [LinearOrder K] [IsStrictOrderedRing K] [FloorRing K]

/-- What `evolute` guarantees before it starts, and the invariant at its end. -/
theorem evolute_ok {c : Conf K} (hS : c.S.OK) (hn : 2 ≤ c.S.bounds.length) {m given : Bool} {userFit : List K → K} {dr : ℕ → GDraw K}
    (hd : ∀ g, (dr g).OK) {pop0 : List (List K × List K)} (hp : ∀ p ∈ pop0, c.S.Feasible p.1 ∧ p.2.length = c.S.bounds.length)
    {r : Result K} (h : evolute c m given userFit dr pop0 = .ok r) :
    ∃ s b, Inv c (fun x => sgn (!m) (userFit x)) pop0.length c.ngen s ∧ s.best = some b ∧ c.ngen ≠ 0 ∧
      r = { x := b.1, y := sgn (!m) b.2.1, hist := s.hist.map (sgn (!m)), memSize := s.mem.storage.length, log := s.log, steps := s.steps } := by
  unfold evolute at h
  split at h
  · cases h
  rename_i hmu
  have hmu := not_not.1 hmu
  split at h
  · cases h
  rename_i hg1
  split at h
  · cases h
  rename_i hg2
  split at h
  · cases h
  split at h
  · cases h
  rename_i s hs
  split at h
  · cases h
  rename_i b hb
  cases h
  have hlen : c.npop ≤ pop0.length := by
    cases given
    · simp at hg2; omega
    · simp at hg1; omega
  have hi := run_inv hS hn hmu hd hlen hp c.ngen hs
  refine ⟨s, b, hi, hb, ?_, rfl⟩
  intro h0
  rw [h0] at hs
  simp only [run, init] at hs
  split at hs
  · cases hs
  · split at hs
    · cases hs
    · cases hs
      cases hb

/-- **C66.** When the memory is large enough for the warmup samples and the `2 * NCORES + 2 * mu` samples of each generation, the point PESA returns
is the best of everything it ever evaluated (warmup included), with its own fitness, and entry `g` of the history is the best of everything
evaluated up to generation `g`. -/
theorem C66_best {c : Conf K} (hS : c.S.OK) (hn : 2 ≤ c.S.bounds.length) {m given : Bool} {userFit : List K → K} {dr : ℕ → GDraw K}
    (hd : ∀ g, (dr g).OK) {pop0 : List (List K × List K)} (hp : ∀ p ∈ pop0, c.S.Feasible p.1 ∧ p.2.length = c.S.bounds.length)
    (hcap : pop0.length + c.ngen * (2 * c.nc + 2 * c.mu) ≤ c.cap) {r : Result K} (h : evolute c m given userFit dr pop0 = .ok r) :
    IsBest m userFit r.log r.x r.y ∧ HistBest m userFit pop0.length (3 * c.npop) r.log r.hist ∧ r.hist.Pairwise (NotWorse m) := by
  obtain ⟨s, b, hi, hb, hg, rfl⟩ := evolute_ok hS hn hd hp h
  obtain ⟨k1, k2, k3⟩ := hi.keep hcap
  obtain ⟨b', hb1, hb2, hb3, hb4⟩ := hi.best hg
  rw [hb] at hb2
  cases hb2
  obtain ⟨f1, f2, f3⟩ := hi.mem b hb1
  have hbest : IsBest false (fun x => sgn (!m) (userFit x)) s.log b.1 b.2.1 := by
    refine ⟨f3, f2, ?_⟩
    intro z hz
    obtain ⟨e, he, hle⟩ := k2 z hz
    have := hle.trans (hb4 e he)
    simpa [NotWorse] using this
  exact ⟨hbest.flip, k3.flip, k3.flip.pairwise⟩

/-- **C66.** The default memory (three times the number of steps plus one) is large enough as soon as the warmup fits into what the
generations leave free; for one core and the default `mu = npop / 2` it suffices that there are at most `2 * ngen * (npop - 1)` warmup samples. -/
theorem C66_default_memory {c : Conf K} (h0 : c.memSize = 0) (n0 : ℕ) :
    (n0 + c.ngen * (2 * c.nc + 2 * c.mu) ≤ c.cap ↔ n0 + c.ngen * (2 * c.nc + 2 * c.mu) ≤ 3 * (c.ngen * c.npop) + 1) ∧
    (c.ncores ≤ 3 → c.mu = c.npop / 2 → n0 + 2 * c.ngen ≤ 2 * (c.ngen * c.npop) + 1 → n0 + c.ngen * (2 * c.nc + 2 * c.mu) ≤ c.cap) := by
  have hc : c.cap = 3 * (c.ngen * c.npop) + 1 := by
    unfold Conf.cap Conf.steps
    rw [if_neg (by omega)]
    ring
  refine ⟨by rw [hc], ?_⟩
  intro h1 h2 h3
  have hnc : c.nc = 1 := by unfold Conf.nc; rw [if_pos h1]
  rw [hc, hnc, h2]
  have h4 : 2 * (c.npop / 2) ≤ c.npop := Nat.mul_div_le _ _
  have h5 : c.ngen * (2 * 1 + 2 * (c.npop / 2)) ≤ c.ngen * (2 + c.npop) := Nat.mul_le_mul_left _ (by omega)
  have h6 : c.ngen * (2 + c.npop) = 2 * c.ngen + c.ngen * c.npop := by ring
  omega

/-- **C66.** Whatever the size of the memory: the returned point was evaluated, is feasible and comes with its own fitness; every entry of the
history is the fitness of an evaluated point; there is one entry per generation, the last one being the returned fitness; every evaluated
point is feasible and there are `warmup + 3 * npop * ngen` evaluations. -/
theorem C66_attained {c : Conf K} (hS : c.S.OK) (hn : 2 ≤ c.S.bounds.length) {m given : Bool} {userFit : List K → K} {dr : ℕ → GDraw K}
    (hd : ∀ g, (dr g).OK) {pop0 : List (List K × List K)} (hp : ∀ p ∈ pop0, c.S.Feasible p.1 ∧ p.2.length = c.S.bounds.length)
    {r : Result K} (h : evolute c m given userFit dr pop0 = .ok r) :
    (r.x ∈ r.log ∧ c.S.Feasible r.x ∧ r.y = userFit r.x) ∧ (∀ y ∈ r.hist, ∃ z ∈ r.log, userFit z = y) ∧
    (r.hist.length = c.ngen ∧ r.hist.getLast? = some r.y) ∧ (∀ z ∈ r.log, c.S.Feasible z) ∧
    r.log.length = pop0.length + c.ngen * (3 * c.npop) := by
  obtain ⟨s, b, hi, hb, hg, rfl⟩ := evolute_ok hS hn hd hp h
  obtain ⟨b', hb1, hb2, hb3, hb4⟩ := hi.best hg
  rw [hb] at hb2
  cases hb2
  obtain ⟨f1, f2, f3⟩ := hi.mem b hb1
  refine ⟨⟨f3, f1, ?_⟩, ?_, ⟨by simp [hi.nhist], ?_⟩, hi.feas, hi.len⟩
  · show sgn (!m) b.2.1 = _
    rw [f2, sgn_sgn]
  · intro y hy
    obtain ⟨v, hv, rfl⟩ := List.mem_map.1 hy
    obtain ⟨z, hz, e⟩ := hi.att v hv
    exact ⟨z, hz, by rw [← e, sgn_sgn]⟩
  · simp only [List.getLast?_map, hb3, Option.map_some]

/-- **C66 (defect).** `evolute` overwrites the attribute that holds the `memory_size` argument.  A second call on the same object therefore works
with a memory no larger than the number of samples the first call stored, at most `warmup + ngen * (2 * NCORES + 2 * mu)` for the default
arguments, whatever its own `ngen` and `warmup`. -/
theorem C66_second_call {c : Conf K} (hS : c.S.OK) (hn : 2 ≤ c.S.bounds.length) {m given : Bool} {userFit : List K → K} {dr : ℕ → GDraw K}
    (hd : ∀ g, (dr g).OK) {pop0 : List (List K × List K)} (hp : ∀ p ∈ pop0, c.S.Feasible p.1 ∧ p.2.length = c.S.bounds.length)
    (hcap : pop0.length + c.ngen * (2 * c.nc + 2 * c.mu) ≤ c.cap) {r : Result K} (h : evolute c m given userFit dr pop0 = .ok r)
    (ngen' : ℕ) :
    ({ c with memSize := r.memSize, ngen := ngen' } : Conf K).cap = r.memSize ∧ 0 < r.memSize ∧
    r.memSize ≤ pop0.length + c.ngen * (2 * c.nc + 2 * c.mu) := by
  obtain ⟨s, b, hi, hb, hg, rfl⟩ := evolute_ok hS hn hd hp h
  have hpos : 0 < s.mem.storage.length := List.length_pos_of_ne_nil hi.ne
  refine ⟨?_, hpos, (hi.keep hcap).1.1⟩
  unfold Conf.cap
  rw [if_pos (by simp only; omega)]

/-- **C67.** One simulated annealing chain: step `k` proposes the best sample of the memory when its replay draw is below the rate and a random
move of the current point otherwise; the proposal is taken exactly when it is better or passes the Metropolis test at the temperature of
the step; steps are consecutive; the counters count; and the best point kept is the best of the start and all proposals. -/
theorem C67_chain {c : Conf K} (hS : c.S.OK) {d : SDraw K} (hd : d.OK) {fit : List K → K} {log : List (List K)} {mem : Mem (Sample K)}
    (hm : MemOK c fit log mem.storage) {x0 : List K} {E0 : K} (hx : c.S.Feasible x0) (hE : E0 = fit x0) {kmin kmax : ℕ} {s : SChain K}
    (h : chainObject c fit d mem x0 E0 kmin kmax = .ok s) :
    (s.c.trace.map (fun e : SA.Entry K => e.step) = (List.range (kmax + 1 - kmin)).map (fun i => kmin + i)) ∧
    (∀ (i : ℕ) (e : SA.Entry K), s.c.trace[i]? = some e →
      (i = 0 → e.src = x0) ∧ (∀ e', s.c.trace[i + 1]? = some e' → e'.src = e.dst) ∧ (i + 1 = kmax + 1 - kmin → s.c.x = e.dst)) ∧
    (∀ e ∈ s.c.trace, (d.r e.step < c.replay → FromMem mem.storage e.cand) ∧
      (¬ d.r e.step < c.replay → SA.defMove c.chi (d.mv e.step) (d.ds e.step) 0 c.S.types c.S.bounds e.src = some e.cand)) ∧
    (∀ e ∈ s.c.trace, e.dst = if SA.Metropolis fit c.accP (c.temp e.step) (d.u e.step) e.src e.cand then e.cand else e.src) ∧
    s.c.acc + s.c.rej = kmax + 1 - kmin ∧ s.c.imp = s.c.trace.countP (fun e : SA.Entry K => decide (fit e.src < fit e.cand)) ∧
    s.c.E = fit s.c.x ∧ IsBest false fit (x0 :: s.c.trace.map (fun e : SA.Entry K => e.cand)) s.c.xb s.c.Eb ∧
    (∀ e ∈ s.c.trace, c.S.Feasible e.cand) ∧ Same mem s.mem := by
  obtain ⟨hI, hs⟩ := chainObject_inv hS hd hm hx hE h
  refine ⟨hI.steps, hI.links, ?_, hI.rule, ?_, hI.imp, hI.cur, hI.best, hI.box.2, hs⟩
  · intro e he
    have := hI.cands e he
    unfold Cand at this
    constructor
    · intro hr; rwa [if_pos hr] at this
    · intro hr; rwa [if_neg hr] at this
  · rw [hI.acc, hI.rej, ← hI.len]
    exact (List.length_eq_countP_add_countP (fun e : SA.Entry K => decide (SA.Metropolis fit c.accP (c.temp e.step) (d.u e.step) e.src e.cand))
      (l := s.c.trace)).symm ▸ by simp

/-- **C67.** Over a whole run the chains use the annealing steps `1, 2, .., ngen * npop`, each exactly once and in this order. -/
theorem C67_steps {c : Conf K} (hS : c.S.OK) (hn : 2 ≤ c.S.bounds.length) {m given : Bool} {userFit : List K → K} {dr : ℕ → GDraw K}
    (hd : ∀ g, (dr g).OK) {pop0 : List (List K × List K)} (hp : ∀ p ∈ pop0, c.S.Feasible p.1 ∧ p.2.length = c.S.bounds.length)
    {r : Result K} (h : evolute c m given userFit dr pop0 = .ok r) :
    r.steps = (List.range (c.ngen * c.npop)).map (fun i => 1 + i) := by
  obtain ⟨s, b, hi, hb, hg, rfl⟩ := evolute_ok hS hn hd hp h
  exact hi.steps

/-- The annealed coefficient stays between its end values. -/
theorem linearAnneal_mem {a0 a1 : K} (h : a0 ≤ a1) (step total : ℕ) : a0 ≤ linearAnneal step total a0 a1 ∧ linearAnneal step total a0 a1 ≤ a1 := by
  unfold linearAnneal
  have h0 : (0 : K) ≤ min ((step : K) / (total : K)) 1 := le_min (by positivity) zero_le_one
  have h1 : min ((step : K) / (total : K)) 1 ≤ 1 := min_le_right _ _
  have hd : 0 ≤ a1 - a0 := sub_nonneg.2 h
  constructor
  · nlinarith [mul_nonneg h0 hd]
  · nlinarith [mul_le_mul_of_nonneg_right h1 hd]

/-- **C67.** The prioritisation coefficient starts at `alpha_init`, never decreases, stays between `alpha_init` and `alpha_end`, and is `alpha_end` after
the last generation. -/
theorem C67_alpha {c : Conf K} (hS : c.S.OK) (hn : 2 ≤ c.S.bounds.length) (hmu : 1 ≤ c.mu ∧ c.mu < c.npop) (ha : c.alpha0 ≤ c.alpha1)
    {fit : List K → K} {dr : ℕ → GDraw K} (hd : ∀ g, (dr g).OK) {pop0 : List (List K × List K)} (hlen : c.npop ≤ pop0.length)
    (hp : ∀ p ∈ pop0, c.S.Feasible p.1 ∧ p.2.length = c.S.bounds.length) {g g' : ℕ} (hgg : g ≤ g') {s s' : State K}
    (h : run c fit dr pop0 g = .ok s) (h' : run c fit dr pop0 g' = .ok s') :
    (g = 0 → s.alpha = c.alpha0) ∧ (c.alpha0 ≤ s.alpha ∧ s.alpha ≤ s'.alpha ∧ s'.alpha ≤ c.alpha1) ∧
    (0 < g' → g' = c.ngen → s'.alpha = c.alpha1) := by
  have e1 := (run_inv hS hn hmu hd hlen hp g h).alpha
  have e2 := (run_inv hS hn hmu hd hlen hp g' h').alpha
  refine ⟨fun h0 => by rw [e1, if_pos h0], ⟨?_, ?_, ?_⟩, ?_⟩
  · rw [e1]; split_ifs
    · exact le_rfl
    · exact (linearAnneal_mem ha _ _).1
  · rw [e1, e2]
    split_ifs with h1 h2 h3
    · exact le_rfl
    · exact (linearAnneal_mem ha _ _).1
    · omega
    · unfold linearAnneal
      have hd : 0 ≤ c.alpha1 - c.alpha0 := sub_nonneg.2 ha
      have : min (((1 + g * c.npop : ℕ) : K) / (c.steps : K)) 1 ≤ min (((1 + g' * c.npop : ℕ) : K) / (c.steps : K)) 1 := by
        apply min_le_min_right
        apply div_le_div_of_nonneg_right _ (Nat.cast_nonneg _)
        exact_mod_cast Nat.add_le_add_left (Nat.mul_le_mul_right _ hgg) 1
      nlinarith [mul_le_mul_of_nonneg_right this hd]
  · rw [e2]; split_ifs
    · exact ha
    · exact (linearAnneal_mem ha _ _).2
  · intro hg0 hg'
    rw [e2, if_neg (by omega)]
    unfold linearAnneal
    have hst : (0 : K) < (c.steps : K) := by
      have : 0 < c.ngen * c.npop := Nat.mul_pos (by omega) (by omega)
      exact_mod_cast this
    have : 1 ≤ ((1 + g' * c.npop : ℕ) : K) / (c.steps : K) := by
      rw [le_div_iff₀ hst, one_mul]
      have : c.steps ≤ 1 + g' * c.npop := by unfold Conf.steps; rw [hg']; omega
      exact_mod_cast this
    rw [min_eq_right this]
    ring

/-- **C67.** Sizes and coherence of the three populations: after each generation ES holds `2 * mu` individuals, the swarm `npop` particles and there is
one start per chain; all of them are feasible, and every local best, the swarm best and every start is an evaluated point stored with its own
fitness. -/
theorem C67_populations {c : Conf K} (hS : c.S.OK) (hn : 2 ≤ c.S.bounds.length) (hmu : 1 ≤ c.mu ∧ c.mu < c.npop)
    {fit : List K → K} {dr : ℕ → GDraw K} (hd : ∀ g, (dr g).OK) {pop0 : List (List K × List K)} (hlen : c.npop ≤ pop0.length)
    (hp : ∀ p ∈ pop0, c.S.Feasible p.1 ∧ p.2.length = c.S.bounds.length) {g : ℕ} {s : State K} (h : run c fit dr pop0 (g + 1) = .ok s) :
    s.pop.length = 2 * c.mu ∧ s.swarm.length = c.npop ∧ s.chains.length = c.nc ∧
    (∀ p ∈ s.swarm, c.S.Feasible p.1.pos ∧ (c.S.Feasible p.2.1 ∧ p.2.2 = fit p.2.1 ∧ p.2.1 ∈ s.log)) ∧
    (c.S.Feasible s.swm.1 ∧ s.swm.2 = fit s.swm.1 ∧ s.swm.1 ∈ s.log) ∧
    (∀ p ∈ s.chains, c.S.Feasible p.1 ∧ p.2 = fit p.1 ∧ p.1 ∈ s.log) ∧
    ∀ e ∈ s.mem.storage, c.S.Feasible e.1 ∧ e.2.1 = fit e.1 ∧ e.1 ∈ s.log := by
  have hi := run_inv hS hn hmu hd hlen hp (g + 1) h
  refine ⟨by rw [hi.npop, if_neg (by omega)], hi.nswarm, ?_, fun p hp' => ⟨(hi.swarm p hp').1, (hi.swarm p hp').2.2⟩, hi.swm, hi.chains, hi.mem⟩
  simp only [run] at h
  split at h
  · cases h
  · rename_i s0 hs0
    unfold gen at h
    split at h
    · cases h
    simp only at h
    split at h
    · cases h
    split at h
    · cases h
    split at h
    · cases h
    split at h
    · cases h
    rename_i hres
    split at h
    · cases h
    cases h
    exact (resample_ok hres).2.2.2.1

/-- **C67 (defect).** With more than three cores the weight of `speed_mech='timew'` never decreases: it is updated in a child process and lost.  (With at
most three cores it is `0.9 - 0.5 * step / steps`, `step` being the first step of the generation just done.) -/
theorem C67_timew {c : Conf K} (hS : c.S.OK) (hn : 2 ≤ c.S.bounds.length) (hmu : 1 ≤ c.mu ∧ c.mu < c.npop) (hw : c.mech = Mech.timew)
    {fit : List K → K} {dr : ℕ → GDraw K} (hd : ∀ g, (dr g).OK) {pop0 : List (List K × List K)} (hlen : c.npop ≤ pop0.length)
    (hp : ∀ p ∈ pop0, c.S.Feasible p.1 ∧ p.2.length = c.S.bounds.length) {g : ℕ} {s : State K} (h : run c fit dr pop0 g = .ok s) :
    (3 < c.ncores → s.w = c.w0) ∧
    (c.ncores ≤ 3 → ∀ k, g = k + 1 → s.w = 9 / 10 - 1 / 2 * ((1 + k * c.npop : ℕ) : K) / ((c.ngen * c.npop : ℕ) : K)) := by
  induction g generalizing s with
  | zero =>
    refine ⟨fun _ => ?_, fun _ k hk => by omega⟩
    simp only [run, init] at h
    split at h
    · cases h
    · split at h
      · cases h
      · cases h; rfl
  | succ g ih =>
    simp only [run] at h
    split at h
    · cases h
    · rename_i s0 hs0
      have hi := run_inv hS hn hmu hd hlen hp g hs0
      unfold gen at h
      split at h
      · cases h
      simp only at h
      split at h
      · cases h
      split at h
      · cases h
      rename_i po hpo
      split at h
      · cases h
      split at h
      · cases h
      split at h
      · cases h
      cases h
      have hpw : po.w = 9 / 10 - 1 / 2 * ((1 + g * c.npop : ℕ) : K) / ((c.ngen * c.npop : ℕ) : K) := by
        unfold psoStep at hpo
        split at hpo
        · cases hpo
        split at hpo
        · cases hpo
        cases hpo
        simp only [hi.step0, Conf.steps]
        norm_num
      constructor
      · intro hc
        show (if c.proc = true then s0.w else po.w) = _
        rw [if_pos (by simp [Conf.proc, hc])]
        exact (ih hs0).1 hc
      · intro hc k hk
        have hk : k = g := by omega
        subst hk
        show (if c.proc = true then s0.w else po.w) = _
        rw [if_neg (by simp [Conf.proc]; omega)]
        exact hpw

/-! ### Totality -/

/-- Draws for which no random choice is out of range and the resampling loop of every move ends. -/
structure GDraw.Good (c : Conf K) (d : GDraw K) : Prop where
  es : ∀ i, ES.PickOK c.S (d.es i).md
  pso : ∀ i, PSO.PickOK c.S (d.pso i)
  mv : ∀ j k x, c.S.Feasible x → ∃ y, SA.defMove c.chi ((d.sa j).mv k) ((d.sa j).ds k) 0 c.S.types c.S.bounds x = some y

theorem chainLoop_total {c : Conf K} (hS : c.S.OK) {d : SDraw K} (hd : d.OK) {fit : List K → K} {log : List (List K)}
    (hmv : ∀ k x, c.S.Feasible x → ∃ y, SA.defMove c.chi (d.mv k) (d.ds k) 0 c.S.types c.S.bounds x = some y) (n : ℕ) :
    ∀ (k : ℕ) (s : SChain K), c.S.Feasible s.c.x → MemOK c fit log s.mem.storage → s.mem.storage ≠ [] →
      ∃ s', chainLoop c fit d n k s = .ok s' := by
  induction n with
  | zero => intro k s _ _ _; exact ⟨s, rfl⟩
  | succ n ih =>
    intro k s hx hm hne
    obtain ⟨x, mm, hc⟩ : ∃ x mm, candidate c d k s = .ok (x, mm) := by
      unfold candidate
      split
      · obtain ⟨e, he⟩ := ER.greedyOne_total hne
        rw [he]; exact ⟨_, _, rfl⟩
      · obtain ⟨y, hy⟩ := hmv k s.c.x hx
        rw [hy]; exact ⟨_, _, rfl⟩
    obtain ⟨h1, h2⟩ := candidate_ok hc
    have hxf := h1.feasible hS hd hm hx
    simp only [chainLoop, hc]
    refine ih (k + 1) _ ?_ ?_ ?_
    · show c.S.Feasible (settle c fit (d.u k) k x s.c).x
      unfold settle
      simp only
      split
      · exact hxf
      · split
        · exact hxf
        · exact hx
    · rcases h2 with h2 | h2
      · rw [h2]; exact hm
      · rw [h2]; exact fun e he => hm e (ER.mem_sortMem.1 he)
    · rcases h2 with h2 | h2
      · rw [h2]; exact hne
      · rw [h2]
        intro h0
        have := congrArg List.length h0
        simp [ER.sortMem] at this
        exact hne this

theorem newVel_total {c : Conf K} {w sfit lfit : K} (h : c.mech ≠ Mech.globw ∨ sfit ≠ 0) (d : PSO.Draw K) (i : ℕ) (x v lp sp : K) :
    ∃ y, newVel c w sfit lfit d i x v lp sp = .ok y := by
  unfold newVel
  simp only
  split
  · exact ⟨_, rfl⟩
  · exact ⟨_, rfl⟩
  · rename_i hm
    rw [if_neg (h.resolve_left (not_not.2 hm))]
    exact ⟨_, rfl⟩

theorem samplePrior_total {pw : K → K} (hpos : ∀ r, 0 < r → 0 < pw r) (hmono : ∀ r s, 0 < r → r ≤ s → pw r ≤ pw s) {m : Mem (Sample K)}
    (hne : m.storage ≠ []) {N : ℕ} (hN : N = m.storage.length) (n : ℕ) (f : ℕ → ℕ) :
    ∃ r, ER.samplePrior objOf pw m ((List.range n).map fun i => f i % N) = .ok r ∧ Same m r.1 := by
  have hl : 0 < m.storage.length := List.length_pos_of_ne_nil hne
  have hl' : (ER.sortMem objOf m).storage.length = m.storage.length := by simp [ER.sortMem]
  obtain ⟨ps, hps, _⟩ := (ER.C39_priorities hpos hmono (ER.sortMem objOf m).storage.length).2 (by rw [hl']; exact hl)
  obtain ⟨xs, hxs⟩ := ER.gather_total (st := (ER.sortMem objOf m).storage) (is := (List.range n).map fun i => f i % N) (by
    intro i hi
    obtain ⟨j, _, rfl⟩ := List.mem_map.1 hi
    rw [hl', hN]
    exact Nat.mod_lt _ hl)
  refine ⟨(ER.sortMem objOf m, xs), ?_, (Same.rfl' m).sort⟩
  unfold ER.samplePrior
  simp only [hps, hxs]

/-- One generation never raises. -/
theorem gen_total {c : Conf K} (hS : c.S.OK) (hn : 2 ≤ c.S.bounds.length) (hmu : 1 ≤ c.mu ∧ c.mu < c.npop) (hdvd : c.nc ∣ c.npop)
    {fit : List K → K} (hw : c.mech ≠ Mech.globw ∨ ∀ x, fit x ≠ 0) (ha : 0 ≤ c.alpha0 ∧ c.alpha0 ≤ c.alpha1)
    (hpow : ∀ a, 0 ≤ a → (∀ r, 0 < r → 0 < c.pow a r) ∧ ∀ r s, 0 < r → r ≤ s → c.pow a r ≤ c.pow a s) {n0 g : ℕ} (hn0 : c.npop ≤ n0)
    (hcap : 0 < c.cap) {d : GDraw K} (hd : d.OK) (hg : d.Good c) {s : State K} (hi : Inv c fit n0 g s) : ∃ s', gen c fit d s = .ok s' := by
  have hs : c.es.smin ≤ c.es.smax := by
    have h2 : (2 : K) ≤ (c.S.bounds.length : K) := by exact_mod_cast hn
    show (1 : K) / (c.S.bounds.length : K) ≤ 1 / 2
    exact one_div_le_one_div_of_le (by norm_num) h2
  have hpl : 2 ≤ s.pop.length := by rw [hi.npop]; split_ifs <;> omega
  obtain ⟨os0, hos0⟩ := ES.genLoop_total (c := c.es) hS hs hg.es (Or.inr hn) c.es.lam 0 s.pop hi.lens hpl
  obtain ⟨os, hos⟩ : ∃ os, ES.genOffspring c.es d.es s.pop = .ok os := by
    unfold ES.genOffspring
    rw [hos0]; exact ⟨_, rfl⟩
  have hncl : c.nc ≤ c.npop := Nat.le_of_dvd (by omega) hdvd
  have hchl : s.chains.length = c.nc := by
    rcases hi.nchains with h | h
    · rw [h]; omega
    · exact h
  obtain ⟨chs, hchs⟩ : ∃ chs, anneal c fit d.sa s.mem s.chains s.step0 = .ok chs := by
    unfold anneal
    rw [if_neg (not_not.2 hchl), if_neg (not_not.2 (Nat.mod_eq_zero_of_dvd hdvd)), if_neg (by omega)]
    refine ES.mapRows_total_idx fun k p hp => ?_
    obtain ⟨_, hp2⟩ := List.getElem?_zip_eq_some.1 hp
    exact chainLoop_total hS (hd _) (hg.mv _) _ _ _ (hi.chains _ (List.mem_of_getElem? hp2)).1 hi.mem hi.ne
  obtain ⟨po, hpo⟩ : ∃ po, psoStep c fit s.w s.swm s.step0 d.pso s.swarm = .ok po := by
    unfold psoStep
    rw [if_neg (not_not.2 hi.nswarm)]
    obtain ⟨off, hoff⟩ : ∃ off, mapRows (fun i (pl : Part K × (List K × K)) => updateParticle c s.w s.swm (d.pso i) pl.1 pl.2) 0 s.swarm = .ok off := by
      refine ES.mapRows_total_idx fun k p hp => ?_
      have hpf := (hi.swarm p (List.mem_of_getElem? hp)).1
      obtain ⟨vel, hvel⟩ : ∃ vel, mapRows (fun i v => newVel c s.w s.swm.2 p.2.2 (d.pso (0 + k)) i (p.1.pos.getD i 0) v (p.2.1.getD i 0) (s.swm.1.getD i 0)) 0 p.1.vel
          = .ok vel := by
        refine ES.mapRows_total_idx fun i v hv => newVel_total ?_ _ _ _ _ _ _
        rcases hw with hw | hw
        · exact Or.inl hw
        · right; rw [hi.swm.2.1]; exact hw _
      obtain ⟨pos, hpos⟩ : ∃ pos, mapRows (fun i x => PSO.newPos c.pso (d.pso (0 + k)) i x (vel.getD i 0)) 0 p.1.pos = .ok pos := by
        refine ES.mapRows_total_idx fun i x hx => ?_
        exact PSO.newPos_total (c := c.pso) hS (hg.pso _) (Or.inr rfl) hpf (by rw [Nat.zero_add]; exact hx) _
      refine ⟨{ pos := pos, vel := vel }, ?_⟩
      unfold updateParticle
      simp only [hvel, hpos]
    rw [hoff]
    exact ⟨_, rfl⟩
  obtain ⟨c0, c1, c2, c3⟩ := anneal_inv hS hd hi.mem (fun p hp => ⟨(hi.chains p hp).1, (hi.chains p hp).2.1⟩)
    (by rw [hi.step0]; omega) hchs
  set mem0 := (if c.proc = true then s.mem else (chs.head?.map (fun h : SChain K => h.mem)).getD s.mem) with hmem0
  have hsame0 : Same s.mem mem0 := by
    rw [hmem0]
    split
    · exact Same.rfl' _
    · cases hh : chs.head? with
      | none => exact Same.rfl' _
      | some h =>
        obtain ⟨j, hj⟩ := List.mem_iff_getElem?.1 (List.mem_of_mem_head? hh)
        exact (c3 j h hj).choose_spec.2.2
  obtain ⟨mem1, hmem1⟩ : ∃ mem1, memoryUpdate mem0 chs (ES.select c.mu (os.map fun o => ({ ind := o.1, strat := o.2, fit := fit o.1 } : Ind K))) po.pars
      = .ok mem1 := ER.addAll_total (by rw [hsame0.1, hi.size]; omega) _
  have hne0 : mem0.storage ≠ [] := by
    intro h0
    have := hsame0.2.2.length_eq
    rw [h0] at this
    exact hi.ne (List.length_eq_zero_iff.1 this.symm)
  have hne1 : mem1.storage ≠ [] := (ER.addAll_ok hmem1).2.2.1 hne0
  have halpha : 0 ≤ s.alpha := by
    rw [hi.alpha]
    split_ifs
    · exact ha.1
    · exact ha.1.trans (linearAnneal_mem ha.2 _ _).1
  obtain ⟨q1, q2⟩ := hpow s.alpha halpha
  have hnes : ∀ {m' : Mem (Sample K)}, Same mem1 m' → m'.storage ≠ [] := by
    intro m' hs' h0
    have := hs'.2.2.length_eq
    rw [h0] at this
    exact hne1 (List.length_eq_zero_iff.1 this.symm)
  obtain ⟨r1, hr1, s1⟩ := samplePrior_total q1 q2 hne1 rfl c.mu d.esIdx
  obtain ⟨r2, hr2, s2⟩ := samplePrior_total q1 q2 (hnes s1) s1.2.2.length_eq.symm (c.npop - c.mu) d.psoIdx
  obtain ⟨r3, hr3, s3⟩ := samplePrior_total q1 q2 (hnes (s1.trans s2)) (s1.trans s2).2.2.length_eq.symm c.nc d.saIdx
  obtain ⟨rr, hrr, hrs⟩ : ∃ rr, resample c d s.alpha mem1 (ES.select c.mu (os.map fun o => ({ ind := o.1, strat := o.2, fit := fit o.1 } : Ind K))) po.pars
      = .ok rr ∧ Same mem1 rr.1 := by
    obtain ⟨r1a, r1b⟩ := r1
    obtain ⟨r2a, r2b⟩ := r2
    obtain ⟨r3a, r3b⟩ := r3
    unfold resample
    simp only at hr2 hr3
    simp only [hr1, hr2, hr3]
    exact ⟨_, rfl, s1.trans (s2.trans s3)⟩
  obtain ⟨b, hb⟩ := ER.greedyOne_total (hnes hrs)
  obtain ⟨ra, rb, rc, rd⟩ := rr
  unfold gen
  simp only at hb
  rw [hmem0] at hmem1
  simp only [hos, hchs, hpo, hmem1, hrr, hb]
  exact ⟨_, rfl⟩

/-- **C67.** If the number of chains divides `npop`, there are at least two variables and one generation, enough warmup samples are given and the swarm
weight never divides by zero, PESA returns a result. -/
theorem C67_total {c : Conf K} (hS : c.S.OK) (hn : 2 ≤ c.S.bounds.length) (hmu : 1 ≤ c.mu ∧ c.mu < c.npop) (hdvd : c.nc ∣ c.npop)
    (hpb : c.cxpb + c.mutpb ≤ 1) (hg : 1 ≤ c.ngen) {m given : Bool} {userFit : List K → K} (hw : c.mech ≠ Mech.globw ∨ ∀ x, userFit x ≠ 0)
    (ha : 0 ≤ c.alpha0 ∧ c.alpha0 ≤ c.alpha1)
    (hpow : ∀ a, 0 ≤ a → (∀ r, 0 < r → 0 < c.pow a r) ∧ ∀ r s, 0 < r → r ≤ s → c.pow a r ≤ c.pow a s)
    {dr : ℕ → GDraw K} (hd : ∀ g, (dr g).OK) (hd' : ∀ g, (dr g).Good c) {pop0 : List (List K × List K)}
    (hlen : if given then c.npop ≤ pop0.length else c.npop < pop0.length)
    (hp : ∀ p ∈ pop0, c.S.Feasible p.1 ∧ p.2.length = c.S.bounds.length) : ∃ r, evolute c m given userFit dr pop0 = .ok r := by
  have hlen' : c.npop ≤ pop0.length := by split_ifs at hlen <;> omega
  have hcap : 0 < c.cap := by unfold Conf.cap; split_ifs <;> omega
  set fit := fun x => sgn (!m) (userFit x) with hfit
  have hw' : c.mech ≠ Mech.globw ∨ ∀ x, fit x ≠ 0 := by
    refine hw.imp id fun h x => ?_
    rw [hfit]
    cases m <;> simp [sgn, h x]
  have hrun : ∀ g, ∃ s, run c fit dr pop0 g = .ok s := by
    intro g
    induction g with
    | zero =>
      simp only [run, init]
      obtain ⟨mem, hmem⟩ := ER.add_total (m := (ER.new c.cap : Mem (Sample K))) (by simp [ER.new]; omega)
        (tagged .na ((pop0.map fun p => ({ ind := p.1, strat := p.2, fit := fit p.1 } : Ind K)).map fun e => (e.ind, e.fit)))
      rw [hmem]
      simp only
      split
      · rename_i h0
        rw [List.head?_eq_none_iff] at h0
        have := congrArg List.length h0
        simp at this
        rw [this] at hlen'
        simp at hlen'
        omega
      · exact ⟨_, rfl⟩
    | succ g ih =>
      obtain ⟨s, hs⟩ := ih
      obtain ⟨s', hs'⟩ := gen_total hS hn hmu hdvd hw' ha hpow hlen' hcap (hd g) (hd' g) (run_inv hS hn hmu hd hlen' hp g hs)
      exact ⟨s', by simp only [run, hs, hs']⟩
  obtain ⟨s, hs⟩ := hrun c.ngen
  have hi := run_inv hS hn hmu hd hlen' hp c.ngen hs
  obtain ⟨b, hb1, hb2, _⟩ := hi.best (by omega)
  unfold evolute
  rw [if_neg (not_not.2 hmu), if_neg (by cases given <;> simp at hlen ⊢; omega), if_neg (by cases given <;> simp at hlen ⊢; omega),
    if_neg (not_not.2 hpb)]
  simp only [← hfit, hs, hb2]
  exact ⟨_, rfl⟩

/-- **C67 (defect).** If the number of chains does not divide `npop` the annealing assertion fires in the first generation (with more than three
cores this happens in a child process, and the parent waits for ever). -/
theorem C67_not_divisible {c : Conf K} (hndvd : ¬ c.nc ∣ c.npop) (hg : 1 ≤ c.ngen) {m given : Bool} {userFit : List K → K} {dr : ℕ → GDraw K}
    {pop0 : List (List K × List K)} : ∃ e, evolute c m given userFit dr pop0 = .error e := by
  have hgen : ∀ (fit : List K → K) (d : GDraw K) (s s' : State K), gen c fit d s ≠ .ok s' := by
    intro fit d s s' h
    unfold gen at h
    split at h
    · cases h
    simp only at h
    split at h
    · cases h
    rename_i chs hchs
    unfold anneal at hchs
    split at hchs
    · cases hchs
    · rw [if_pos (fun h => hndvd (Nat.dvd_of_mod_eq_zero h))] at hchs
      cases hchs
  cases he : evolute c m given userFit dr pop0 with
  | error e => exact ⟨e, rfl⟩
  | ok r =>
    exfalso
    unfold evolute at he
    split at he
    · cases he
    split at he
    · cases he
    split at he
    · cases he
    split at he
    · cases he
    split at he
    · cases he
    rename_i s hs
    obtain ⟨k, hk⟩ : ∃ k, c.ngen = k + 1 := ⟨c.ngen - 1, by omega⟩
    rw [hk] at hs
    simp only [run] at hs
    split at hs
    · cases hs
    · exact hgen _ _ _ _ hs

end

/-! ### Concrete cases -/

def exS : Space ℚ := { bounds := [(-5, 5), (0, 3)], types := [.float, .int], method := .nearestInt, expf := fun x => x }

/-- Four members, two survivors, two generations, default memory. -/
def exC : Conf ℚ :=
  { S := exS, npop := 4, mu := 2, ncores := 1, ngen := 2, memSize := 0, alpha0 := 1 / 10, alpha1 := 1, replay := 1 / 10, chi := 1 / 2,
    cxpb := 6 / 10, mutpb := 3 / 10, c1 := 2, c2 := 2, mech := .timew, w0 := 9 / 10, sig := fun _ => 1 / 2, accP := fun dE T => 1 + dE / T,
    temp := fun k => 10 - k, pow := fun _ r => r }

def exFit : List ℚ → ℚ := fun x => (x.map (fun v => v * v)).sum

def exPop : List (List ℚ × List ℚ) :=
  [([3, 1], [1 / 2, 1 / 2]), ([-2, 2], [1 / 2, 1 / 2]), ([1, 1], [1 / 2, 1 / 2]), ([4, 1], [1 / 2, 1 / 2]), ([2, 3], [1 / 2, 1 / 2])]

def exDr : ℕ → GDraw ℚ := fun g =>
  { es := fun i => { rn := if i = 0 then 1 / 10 else if i = 1 then 7 / 10 else 95 / 100, i1 := g, i2 := 1, a := 0, b := 0, u := fun _ => 1 / 2
                     v := fun _ => 1 / 2, md := { e := fun _ => 2, t := fun _ => 1 / 10, pick := fun _ => 1, g := fun _ => 3 } }
    sa := fun _ => { r := fun k => if k = 4 then 0 else 1, u := fun _ => 9 / 10, mv := fun k i => if i = k % 2 then 0 else 1
                     ds := fun k _ => [(1 / 2, k % 4), (1 / 3, (k + 1) % 4)] }
    pso := fun _ => { r1 := fun _ => 1 / 2, r2 := fun _ => 1 / 3, wr := fun _ => 0, u := fun _ => 1 / 4, pick := fun _ => 1 }
    strat := fun _ _ => 1 / 2, esIdx := fun i => i, psoIdx := fun i => 2 * i, saIdx := fun _ => 3 }

example : exS.OK := Space.ok_of_okB (by decide +kernel)
example : ∀ p ∈ exPop, exS.Feasible p.1 ∧ p.2.length = exS.bounds.length := by
  have h : (exPop.all fun p => exS.feasB p.1 && decide (p.2.length = exS.bounds.length)) = true := by decide +kernel
  intro p hp
  have := List.all_eq_true.1 h p hp
  rw [Bool.and_eq_true] at this
  exact ⟨Space.feasible_of_feasB this.1, of_decide_eq_true this.2⟩
example : ∀ g, (exDr g).OK := by
  intro g j k i t ht
  simp only [exDr, List.mem_cons, List.not_mem_nil, or_false] at ht
  rcases ht with rfl | rfl <;> norm_num
example : exPop.length + exC.ngen * (2 * exC.nc + 2 * exC.mu) ≤ exC.cap ∧ exC.nc ∣ exC.npop ∧ exC.cxpb + exC.mutpb ≤ 1 := by decide +kernel
example : (match evolute exC false false exFit exDr exPop with
    | .ok r => decide (r.x = [5, 2] ∧ r.y = 29 ∧ r.hist = [29, 29] ∧ r.memSize = 16 ∧ r.log.length = 29 ∧ r.steps = [1, 2, 3, 4, 5, 6, 7, 8])
    | .error _ => false) = true := by decide +kernel
example : ∀ a : ℚ, 0 ≤ a → (∀ r, 0 < r → 0 < exC.pow a r) ∧ ∀ r s, 0 < r → r ≤ s → exC.pow a r ≤ exC.pow a s :=
  fun _ _ => ⟨fun _ h => h, fun _ _ _ h => h⟩

example : ∀ g, (exDr g).Good exC := by
  intro g
  have hr : ∀ (t : VType) (b : ℚ × ℚ) (x : ℚ) (d1 d2 : ℚ × ℕ), SA.sampler t b d1 ≠ SA.sampler t b d2 → ∃ y, SA.resample t b x [d1, d2] = some y := by
    intro t b x d1 d2 hne
    simp only [SA.resample]
    split_ifs with h1 h2
    · exact absurd (h1.1.symm.trans h2.1) hne
    · exact ⟨_, rfl⟩
    · exact ⟨_, rfl⟩
  have hpick : ∀ (j : ℕ) (b : ℚ × ℚ), exC.S.types[j]? = some VType.int → exC.S.bounds[j]? = some b → truncZ b.1 ≠ truncZ b.2 →
      ((1 : ℕ) : ℤ) < truncZ b.2 - truncZ b.1 := by
    intro j b ht hb hne
    match j, ht, hb with
    | 1, _, hb =>
      simp [exC, exS] at hb
      subst hb
      norm_num [truncZ]
    | 0, ht, _ => simp [exC, exS] at ht
    | j + 2, ht, _ => simp [exC, exS] at ht
  refine ⟨fun i => hpick, fun i => hpick, ?_⟩
  intro j k x hx
  have hl : x.length = 2 := hx.1.length_eq
  match x, hl with
  | [x0, x1], _ =>
    obtain ⟨y0, h0⟩ : ∃ y, (if (if 0 = k % 2 then (0 : ℚ) else 1) < 1 / 2 then
        SA.resample .float (-5, 5) x0 [(1 / 2, k % 4), (1 / 3, (k + 1) % 4)] else some x0) = some y := by
      by_cases hk : (if 0 = k % 2 then (0 : ℚ) else 1) < 1 / 2
      · rw [if_pos hk]
        exact hr _ _ _ _ _ (by norm_num [SA.sampler])
      · rw [if_neg hk]; exact ⟨_, rfl⟩
    obtain ⟨y1, h1⟩ : ∃ y, (if (if 0 + 1 = k % 2 then (0 : ℚ) else 1) < 1 / 2 then
        SA.resample .int (0, 3) x1 [(1 / 2, k % 4), (1 / 3, (k + 1) % 4)] else some x1) = some y := by
      by_cases hk : (if 0 + 1 = k % 2 then (0 : ℚ) else 1) < 1 / 2
      · rw [if_pos hk]
        refine hr _ _ _ _ _ ?_
        have : ⌊(3 : ℚ) - 0⌋.toNat = 3 := by decide +kernel
        simp only [SA.sampler, this]
        intro h
        have h := add_left_cancel h
        rw [Nat.cast_inj] at h
        omega
      · rw [if_neg hk]; exact ⟨_, rfl⟩
    refine ⟨[y0, y1], ?_⟩
    simp only [exDr, exC, exS, SA.defMove]
    rw [h0, h1]

/-- Two members and twenty warmup samples, more than the default memory of 13 can hold. -/
def loC : Conf ℚ := { exC with npop := 2, mu := 1 }

def loPop : List (List ℚ × List ℚ) := ([0, 0], [1 / 2, 1 / 2]) :: (List.range 19).map (fun i => ([4 - (i : ℚ) / 100, 2], [1 / 2, 1 / 2]))

def loDr : ℕ → GDraw ℚ := fun g =>
  { es := (exDr g).es
    sa := fun _ => { r := fun _ => 1, u := fun _ => 9 / 10, mv := fun _ i => if i = 0 then 0 else 1, ds := fun _ _ => [(9 / 10, 2), (1, 3)] }
    pso := fun _ => { r1 := fun _ => 0, r2 := fun _ => 0, wr := fun _ => 0, u := fun _ => 1 / 4, pick := fun _ => 1 }
    strat := fun _ _ => 1 / 2, esIdx := fun i => 5 + i, psoIdx := fun _ => 6, saIdx := fun _ => 4 }

/-- **C66 (defect).** With the default memory size and a large warmup the best point can be overwritten: here the best warmup sample has fitness 0, the
history goes from 0 up to 1 although the fitness is minimised, and the returned point has fitness 1. -/
theorem C66_default_memory_loses : ∃ (c : Conf ℚ) (dr : ℕ → GDraw ℚ) (pop0 : List (List ℚ × List ℚ)) (r : Result ℚ), c.memSize = 0 ∧
    evolute c true false exFit dr pop0 = .ok r ∧ r.hist = [0, 1] ∧ r.y = 1 ∧ ∃ z ∈ r.log, exFit z < r.y := by
  have h : (match evolute loC true false exFit loDr loPop with
      | .ok r => decide (r.hist = [0, 1] ∧ r.y = 1 ∧ [0, 0] ∈ r.log) | .error _ => false) = true := by decide +kernel
  cases he : evolute loC true false exFit loDr loPop with
  | error e => rw [he] at h; cases h
  | ok r =>
    rw [he] at h
    obtain ⟨h1, h2, h3⟩ := of_decide_eq_true h
    exact ⟨loC, loDr, loPop, r, rfl, he, h1, h2, [0, 0], h3, by rw [h2]; decide +kernel⟩

example : ¬ (({ exC with ncores := 9 } : Conf ℚ).nc ∣ ({ exC with ncores := 9 } : Conf ℚ).npop) := by decide +kernel

end Neorl.PESA

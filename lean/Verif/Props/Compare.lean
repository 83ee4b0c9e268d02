import Verif.Compare
import Verif.Props.DE
import Verif.Props.JAYA
import Verif.Props.GWO
import Verif.Props.WOA
import Verif.Props.SSA
import Verif.Props.CS
import Verif.Props.ACO
import Verif.Props.HHO
import Verif.Props.BAT
import Verif.Props.MFO
import Verif.Props.ES
import Verif.Props.PSO
import Verif.Props.XNES
import Verif.Props.TS
import Verif.Props.SA

/-!
# C135: the optimisers see the fitness through comparisons only

`Keeps m m' g` says that `g` carries better values (mode `m`) to better values (mode `m'`).  For every such `g`, running with fitness `g ∘ f`
in mode `m'` does exactly what running with `f` in mode `m` does: the same points are evaluated, the same point is returned, and every
reported fitness is `g` of the one reported there; if one run raises, so does the other, with the same error.
-/

set_option linter.unusedSectionVars false
set_option linter.unusedVariables false

namespace Neorl.Compare

section
variable {K : Type} [Field K] [LinearOrder K] [IsStrictOrderedRing K]

/-- **C135.** What the hypothesis means: strictly increasing when the mode stays, strictly decreasing when it is exchanged. -/
theorem C135_keeps (m m' : Bool) (g : K → K) : Keeps m m' g ↔ if m = m' then StrictMono g else StrictAnti g := by
  cases m <;> cases m' <;> simp only [Keeps, Better] <;> simp only [Bool.false_eq_true, Bool.true_eq_false, if_true, if_false]
  · exact ⟨fun h a b hab => h b a hab, fun h a b hab => h hab⟩
  · exact ⟨fun h a b hab => h b a hab, fun h a b hab => h hab⟩
  · exact ⟨fun h a b hab => h a b hab, fun h a b hab => h hab⟩
  · exact ⟨fun h a b hab => h a b hab, fun h a b hab => h hab⟩

/-- **C135.** Adding a constant and multiplying by a positive number keep the preference. -/
theorem C135_affine (m : Bool) {a : K} (ha : 0 < a) (b : K) : Keeps m m (fun v => a * v + b) := by
  rw [C135_keeps, if_pos rfl]
  intro x y hxy
  simpa using mul_lt_mul_of_pos_left hxy ha

/-- **C135.** Changing the sign exchanges the modes. -/
theorem C135_negate (m : Bool) : Keeps m (!m) (fun v : K => -v) := by
  rw [C135_keeps, if_neg (by cases m <;> decide)]
  intro x y hxy
  simpa using hxy

end

section
variable {K : Type} [Field K] [LinearOrder K] [IsStrictOrderedRing K] [FloorRing K]
variable {m m' : Bool} {g : K → K}

/-- **C135.** Differential evolution. -/
theorem C135_de (hk : Keeps m m' g) (c : Neorl.DE.Conf K) (f : List K → K) (dr : ℕ → ℕ → Neorl.DE.Draw K) (rl : ℕ → List (ℕ × List K))
    (pop0 : List (List K)) :
    Neorl.DE.evolute c m' (fun x => g (f x)) dr rl pop0 = (Neorl.DE.evolute c m f dr rl pop0).map (DE.mapResult g) :=
  DE.evolute_map hk c f dr rl pop0

/-- **C135.** JAYA. -/
theorem C135_jaya (hk : Keeps m m' g) (c : Neorl.JAYA.Conf K) (f : List K → K) (dr : ℕ → ℕ → Neorl.JAYA.Draw K) (pos0 : List (List K)) :
    Neorl.JAYA.evolute c m' (fun x => g (f x)) dr pos0 = (Neorl.JAYA.evolute c m f dr pos0).map (JAYA.mapResult g) :=
  JAYA.evolute_map hk c f dr pos0

/-- **C135.** Grey wolves. -/
theorem C135_gwo (hk : Keeps m m' g) (c : Neorl.GWO.Conf K) (f : List K → K) (dr : ℕ → Neorl.GWO.Draw K) (pos0 : List (List K)) :
    Neorl.GWO.evolute c m' (fun x => g (f x)) dr pos0 = (Neorl.GWO.evolute c m f dr pos0).map (GWO.mapResult g) :=
  GWO.evolute_map hk c f dr pos0

/-- **C135.** Whales. -/
theorem C135_woa (hk : Keeps m m' g) (c : Neorl.WOA.Conf K) (f : List K → K) (dr : ℕ → ℕ → Neorl.WOA.Draw K) (pos0 : List (List K)) :
    Neorl.WOA.evolute c m' (fun x => g (f x)) dr pos0 = (Neorl.WOA.evolute c m f dr pos0).map (Swarm.mapResult g) :=
  Swarm.evolute_map hk c.S c.nwhales c.ngen _ f pos0

/-- **C135.** Salps. -/
theorem C135_ssa (hk : Keeps m m' g) (c : Neorl.SSA.Conf K) (f : List K → K) (dr : ℕ → ℕ → Neorl.SSA.Draw K) (pos0 : List (List K)) :
    Neorl.SSA.evolute c m' (fun x => g (f x)) dr pos0 = (Neorl.SSA.evolute c m f dr pos0).map (Swarm.mapResult g) :=
  Swarm.evolute_map hk c.S c.nsalps c.ngen _ f pos0

/-- **C135.** Cuckoos. -/
theorem C135_cs (hk : Keeps m m' g) (c : Neorl.CS.Conf K) (f : List K → K) (dr : ℕ → Neorl.CS.Draw K) (pos0 : List (List K)) :
    Neorl.CS.evolute c m' (fun x => g (f x)) dr pos0 = (Neorl.CS.evolute c m f dr pos0).map (CS.mapResult g) :=
  CS.evolute_map hk c f dr pos0

/-- **C135.** Ants. -/
theorem C135_aco (hk : Keeps m m' g) (c : Neorl.ACO.Conf K) (f : List K → K) (dr : ℕ → ℕ → ℕ → Neorl.ACO.Draw K) (pos0 : List (List K)) :
    Neorl.ACO.evolute c m' (fun x => g (f x)) dr pos0 = (Neorl.ACO.evolute c m f dr pos0).map (ACO.mapResult g) :=
  ACO.evolute_map hk c f dr pos0

/-- **C135.** Hawks. -/
theorem C135_hho (hk : Keeps m m' g) (c : Neorl.HHO.Conf K) (f : List K → K) (dr : ℕ → ℕ → Neorl.HHO.Draw K) (pos0 : List (List K)) :
    Neorl.HHO.evolute c m' (fun x => g (f x)) dr pos0 = (Neorl.HHO.evolute c m f dr pos0).map (HHO.mapResult g) :=
  HHO.evolute_map hk c f dr pos0

/-- **C135.** Bats. -/
theorem C135_bat (hk : Keeps m m' g) (c : Neorl.BAT.Conf K) (f : List K → K) (dr : ℕ → ℕ → Neorl.BAT.Draw K) (pos0 : List (List K)) :
    Neorl.BAT.evolute c m' (fun x => g (f x)) dr pos0 = (Neorl.BAT.evolute c m f dr pos0).map (BAT.mapResult g) :=
  BAT.evolute_map hk c f dr pos0

/-- **C135.** Moths, if the sort itself compares only. -/
theorem C135_mfo (hk : Keeps m m' g) (c : Neorl.MFO.Conf K) (hs : MFO.SortCmp c.srt) (f : List K → K) (dr : ℕ → ℕ → Neorl.MFO.Draw K)
    (pos0 : List (List K)) :
    Neorl.MFO.evolute c m' (fun x => g (f x)) dr pos0 = (Neorl.MFO.evolute c m f dr pos0).map (MFO.mapResult g) :=
  MFO.evolute_map hk c hs f dr pos0

/-- **C135.** Evolution strategies. -/
theorem C135_es (hk : Keeps m m' g) (c : Neorl.ES.Conf K) (f : List K → K) (dr : ℕ → ℕ → Neorl.ES.Draw K) (rl : ℕ → List (List K))
    (pop0 : List (List K × List K)) :
    Neorl.ES.evolute c m' (fun x => g (f x)) dr rl pop0 = (Neorl.ES.evolute c m f dr rl pop0).map (ES.mapResult g) :=
  ES.evolute_map hk c f dr rl pop0

/-- **C135.** Particle swarms with constriction or a time-dependent weight. -/
theorem C135_pso (hk : Keeps m m' g) (c : Neorl.PSO.Conf K) (hg : c.mech ≠ .globw) (f : List K → K) (dr : ℕ → ℕ → Neorl.PSO.Draw K)
    (pos0 : List (List K)) :
    Neorl.PSO.evolute c m' (fun x => g (f x)) dr pos0 = (Neorl.PSO.evolute c m f dr pos0).map (PSO.mapResult g) :=
  PSO.evolute_map hk c hg f dr pos0

/-- **C135.** Natural evolution strategies on a fresh object, with at least two samples and a sort that compares only: the same points are
sampled, the same point is returned, and the distribution ends up the same. -/
theorem C135_xnes {n : ℕ} (hk : Keeps m m' g) (c : Neorl.XNES.Conf K n) (ha : XNES.ArgsortCmp c.argsort) (hn : c.npop ≠ 1) (f : List K → K)
    (dr : ℕ → List (Fin n → K)) (ngen : ℕ) (x0 : Fin n → K) (sigma eta : K) (bmat : Matrix (Fin n) (Fin n) K) :
    (Neorl.XNES.evolute c m' (fun x => g (f x)) dr ngen x0 (Neorl.XNES.fresh sigma bmat eta)).map
        (fun r => (r.1.mu, r.1.sigma, r.1.bmat, r.1.eta, r.1.log, r.2.x, r.2.y, r.2.hist))
      = (Neorl.XNES.evolute c m f dr ngen x0 (Neorl.XNES.fresh sigma bmat eta)).map
        (fun r => (r.1.mu, r.1.sigma, r.1.bmat, r.1.eta, r.1.log, r.2.x, g r.2.y, r.2.hist.map g)) := by
  have e : (fun x => sgn (!m') (g (f x))) = fun x => inner (!m) (!m') g (sgn (!m) (f x)) := by funext x; rw [inner_sgn]
  have r0 : XNES.Rel (inner (!m) (!m') g) ({ Neorl.XNES.fresh sigma bmat eta with mu := x0 } : Neorl.XNES.Obj K n)
      { Neorl.XNES.fresh sigma bmat eta with mu := x0 } := ⟨rfl, rfl, rfl, rfl, rfl, rfl, rfl, rfl⟩
  have r := XNES.run_rel (inner_mono' hk) c ha hn (fun x => sgn (!m) (f x)) dr r0 ngen
  unfold Neorl.XNES.evolute Neorl.XNES.finish
  rw [e]
  simp only
  rw [r.best]
  cases (Neorl.XNES.run c (fun x => sgn (!m) (f x)) dr { Neorl.XNES.fresh sigma bmat eta with mu := x0 } ngen).best with
  | none => rfl
  | some b =>
    simp only [Option.map_some, Except.map, r.mu, r.sigma, r.bmat, r.eta, r.log, r.hist, onSnd, sgn_inner, List.map_map]
    have e2 : (sgn (!m') ∘ inner (!m) (!m') g) = g ∘ sgn (!m) := by funext v; simp [sgn_inner]
    rw [e2]

/-- The fitness that simulated annealing, tabu search and the swarms with a ratio of fitnesses work with does not change when both mode and
sign are exchanged. -/
theorem inner_negate (f : List K → K) (m : Bool) : (fun x => sgn (!m) (-f x)) = fun x => sgn m (f x) := by
  funext x; cases m <;> simp [sgn]

/-- **C135.** Simulated annealing: minimising `f` is maximising `-f`. -/
theorem C135_sa_negate (m : Bool) (c : Neorl.SA.Conf K) (f : List K → K) (dr : ℕ → Neorl.SA.GDraw K) (x0 : List (List K)) :
    Neorl.SA.evolute c (!m) (fun x => -f x) dr x0 = (Neorl.SA.evolute c m f dr x0).map (SA.mapResult (fun v => -v)) := by
  have e : (fun x => sgn (!(!m)) (-f x)) = fun x => sgn (!m) (f x) := inner_negate f (!m)
  unfold Neorl.SA.evolute
  rw [e]
  by_cases h1 : x0.length ≠ c.ncores
  · simp only [if_pos h1]; rfl
  simp only [if_neg h1]
  by_cases h2 : c.ncores = 0
  · simp only [if_pos h2]; rfl
  simp only [if_neg h2]
  cases Neorl.SA.run c (fun x => sgn (!m) (f x)) dr x0 (c.ngen / c.ncores) with
  | error e => rfl
  | ok s =>
    simp only
    cases s.xc with
    | none => rfl
    | some x =>
      cases s.opt with
      | none => rfl
      | some o => cases m <;> simp [Except.map, SA.mapResult, sgn]

/-- **C135.** Tabu search: minimising `f` is maximising `-f`. -/
theorem C135_ts_negate (m : Bool) (c : Neorl.TS.Conf K) (f : List K → K) (dr : ℕ → ℕ → K × ℕ) (x0 : List K) :
    Neorl.TS.evolute c (!m) (fun x => -f x) dr x0 = (Neorl.TS.evolute c m f dr x0).map
      (fun r => { r with y := -r.y, global := r.global.map (fun v => -v), locals := r.locals.map (fun v => -v) }) := by
  unfold Neorl.TS.evolute
  rw [inner_negate f m]
  by_cases h1 : x0.length ≠ c.S.bounds.length
  · simp only [if_pos h1]; rfl
  simp only [if_neg h1]
  cases Neorl.TS.run c (fun x => sgn m (f x)) dr x0 c.ngen with
  | error e => rfl
  | ok s =>
    simp only
    by_cases h2 : c.ngen = 0
    · simp only [if_pos h2]; rfl
    simp only [if_neg h2]
    cases m <;> simp [Except.map, sgn]

/-- **C135.** Particle swarms, whatever the speeds: minimising `f` is maximising `-f`. -/
theorem C135_pso_negate (m : Bool) (c : Neorl.PSO.Conf K) (f : List K → K) (dr : ℕ → ℕ → Neorl.PSO.Draw K) (pos0 : List (List K)) :
    Neorl.PSO.evolute c (!m) (fun x => -f x) dr pos0 = (Neorl.PSO.evolute c m f dr pos0).map (PSO.mapResult (fun v => -v)) := by
  have e : (fun x => sgn (!(!m)) (-f x)) = fun x => sgn (!m) (f x) := inner_negate f (!m)
  have e' : ∀ x, sgn (!(!m)) (-f x) = sgn (!m) (f x) := fun x => congrFun e x
  unfold Neorl.PSO.evolute
  by_cases h1 : pos0.length ≠ c.npar
  · simp only [if_pos h1]; rfl
  simp only [if_neg h1, e']
  cases Neorl.PSO.run c (fun x => sgn (!m) (f x)) dr pos0 c.ngen with
  | error e => rfl
  | ok s =>
    simp only
    by_cases h2 : c.ngen = 0
    · simp only [if_pos h2]; rfl
    simp only [if_neg h2]
    have e3 : s.scores.map (sgn (!(!m))) = (s.scores.map (sgn (!m))).map (fun v => -v) := by
      rw [List.map_map]
      refine List.map_congr_left fun v _ => ?_
      cases m <;> simp [sgn]
    rw [e3, acc_map (C135_negate m)]
    cases m <;> simp [Except.map, PSO.mapResult, sgn, onSnd, Function.comp_def] <;> rfl

/-- **C135.** Simulated annealing, unless it restarts the chains by weights of their fitness: adding a constant to the fitness changes
nothing but the reported values. -/
theorem C135_sa_shift (m : Bool) (b : K) (c : Neorl.SA.Conf K) (hr : c.reinforce ≠ .soft) (f : List K → K) (dr : ℕ → Neorl.SA.GDraw K)
    (x0 : List (List K)) :
    Neorl.SA.evolute c m (fun x => f x + b) dr x0 = (Neorl.SA.evolute c m f dr x0).map (SA.mapResult (fun v => v + b)) := by
  have e : (fun x => sgn (!m) (f x + b)) = fun x => sgn (!m) (f x) + sgn (!m) b := by
    funext x; cases m <;> simp [sgn]; ring
  have e2 : ∀ v : K, sgn (!m) (v + sgn (!m) b) = sgn (!m) v + b := by intro v; cases m <;> simp [sgn]; ring
  unfold Neorl.SA.evolute
  rw [e, SA.run_sh _ c hr]
  by_cases h1 : x0.length ≠ c.ncores
  · simp only [if_pos h1]; rfl
  simp only [if_neg h1]
  by_cases h2 : c.ncores = 0
  · simp only [if_pos h2]; rfl
  simp only [if_neg h2]
  cases Neorl.SA.run c (fun x => sgn (!m) (f x)) dr x0 (c.ngen / c.ncores) with
  | error e => rfl
  | ok s =>
    simp only [Except.map, SA.shState]
    cases s.xc with
    | none => rfl
    | some x =>
      cases s.opt with
      | none => rfl
      | some o => simp [SA.mapResult, onSnd, e2, Function.comp_def]

end

/-! ### Where it fails -/

/-- **C135.** Not so for particle swarms with `speed_mech='globw'`: the speeds use the ratio of two fitnesses, so adding a constant to the
fitness moves the particles elsewhere. -/
theorem C135_pso_ratio : ∃ (c : Neorl.PSO.Conf ℚ) (f : List ℚ → ℚ) (dr : ℕ → ℕ → Neorl.PSO.Draw ℚ) (pos0 : List (List ℚ)) (r r' : Neorl.PSO.Result ℚ),
    c.mech = .globw ∧ Neorl.PSO.evolute c true f dr pos0 = .ok r ∧ Neorl.PSO.evolute c true (fun x => f x + 10) dr pos0 = .ok r' ∧
      r.log ≠ r'.log := by
  refine ⟨{ Neorl.PSO.exC with mech := .globw, S := { Neorl.PSO.exS with types := [.float, .float] }, npar := 2, ngen := 1 }, Neorl.PSO.exFit,
    Neorl.PSO.exDr, [[3, 1], [1, 2]], ?_⟩
  have key : (match Neorl.PSO.evolute { Neorl.PSO.exC with mech := .globw, S := { Neorl.PSO.exS with types := [.float, .float] }, npar := 2, ngen := 1 } true
        Neorl.PSO.exFit Neorl.PSO.exDr [[3, 1], [1, 2]],
      Neorl.PSO.evolute { Neorl.PSO.exC with mech := .globw, S := { Neorl.PSO.exS with types := [.float, .float] }, npar := 2, ngen := 1 } true
        (fun x => Neorl.PSO.exFit x + 10) Neorl.PSO.exDr [[3, 1], [1, 2]] with
      | .ok r, .ok r' => decide (r.log ≠ r'.log) | _, _ => false) = true := by decide +kernel
  split at key
  · rename_i r r' h1 h2
    exact ⟨r, r', rfl, h1, h2, of_decide_eq_true key⟩
  · cases key

/-- **C135.** Nor for tabu search: the penalty for frequent moves is added to the fitness, so the scale of the fitness decides which move is
made. -/
theorem C135_ts_scale : ∃ (f : List ℚ → ℚ) (dr : ℕ → ℕ → ℚ × ℕ) (r r' : Neorl.TS.Result ℚ),
    Neorl.TS.evolute Neorl.TS.exPen true f dr [4, 4] = .ok r ∧ Neorl.TS.evolute Neorl.TS.exPen true (fun x => 100 * f x) dr [4, 4] = .ok r' ∧
      r.visited = [[4, 4], [2, 4], [2, 3]] ∧ r'.visited = [[4, 4], [2, 4], [0, 4]] := by
  refine ⟨fun x => x.sum, fun n i => (if i = 0 then (if n = 0 then 1 / 2 else 0) else 3 / 4, 0), ?_⟩
  have key : (match Neorl.TS.evolute Neorl.TS.exPen true (fun x => x.sum) (fun n i => (if i = 0 then (if n = 0 then 1 / 2 else 0) else 3 / 4, 0)) [4, 4],
      Neorl.TS.evolute Neorl.TS.exPen true (fun x => 100 * x.sum) (fun n i => (if i = 0 then (if n = 0 then 1 / 2 else 0) else 3 / 4, 0)) [4, 4] with
      | .ok r, .ok r' => decide (r.visited = [[4, 4], [2, 4], [2, 3]] ∧ r'.visited = [[4, 4], [2, 4], [0, 4]]) | _, _ => false) = true := by
    decide +kernel
  split at key
  · rename_i r r' h1 h2
    exact ⟨r, r', h1, h2, of_decide_eq_true key⟩
  · cases key

/-- **C135.** Nor, as intended, for simulated annealing: the scale of the fitness plays against the temperature. -/
theorem C135_sa_scale : ∃ (c : Neorl.SA.Conf ℚ) (f : List ℚ → ℚ) (dr : ℕ → Neorl.SA.GDraw ℚ) (x0 : List (List ℚ)) (r r' : Neorl.SA.Result ℚ),
    Neorl.SA.evolute c true f dr x0 = .ok r ∧ Neorl.SA.evolute c true (fun x => 100 * f x) dr x0 = .ok r' ∧ r.log ≠ r'.log := by
  refine ⟨{ Neorl.SA.exC with reinforce := .no }, Neorl.SA.exFit, Neorl.SA.exDraw, Neorl.SA.exX0, ?_⟩
  have key : (match Neorl.SA.evolute { Neorl.SA.exC with reinforce := .no } true Neorl.SA.exFit Neorl.SA.exDraw Neorl.SA.exX0,
      Neorl.SA.evolute { Neorl.SA.exC with reinforce := .no } true (fun x => 100 * Neorl.SA.exFit x) Neorl.SA.exDraw Neorl.SA.exX0 with
      | .ok r, .ok r' => decide (r.log ≠ r'.log) | _, _ => false) = true := by decide +kernel
  split at key
  · rename_i r r' h1 h2
    exact ⟨r, r', h1, h2, of_decide_eq_true key⟩
  · cases key

/-! ### Examples -/

/-- A change that is not affine: `v^3`. -/
example : Keeps true true (fun v : ℚ => v ^ 3) := by
  rw [C135_keeps, if_pos rfl]; exact Odd.strictMono_pow (by decide)

/-- The two runs of C135_jaya, computed: minimising `f` and minimising `f^3`. -/
example : (match Neorl.JAYA.evolute Neorl.JAYA.exC true Neorl.JAYA.exFit Neorl.JAYA.exDr Neorl.JAYA.exPos,
      Neorl.JAYA.evolute Neorl.JAYA.exC true (fun x => Neorl.JAYA.exFit x ^ 3) Neorl.JAYA.exDr Neorl.JAYA.exPos with
    | .ok r, .ok r' => decide (r'.x = r.x ∧ r'.y = r.y ^ 3 ∧ r'.log = r.log ∧ r.global ≠ r'.global) | _, _ => false) = true := by decide +kernel

/-- The two runs of C135_gwo, computed: minimising `f` and maximising `-2 f + 1`. -/
example : (match Neorl.GWO.evolute Neorl.GWO.exC true Neorl.GWO.exFit Neorl.GWO.exDr Neorl.GWO.exPos,
      Neorl.GWO.evolute Neorl.GWO.exC false (fun x => -2 * Neorl.GWO.exFit x + 1) Neorl.GWO.exDr Neorl.GWO.exPos with
    | .ok r, .ok r' => decide (r'.x = r.x ∧ r'.y = -2 * r.y + 1 ∧ r'.log = r.log) | _, _ => false) = true := by decide +kernel

/-- The stable sort compares only. -/
example : MFO.SortCmp Neorl.MFO.exC.srt := MFO.sortCmp_stable

/-- The configurations of C135_pso and C135_xnes exist. -/
example : Neorl.PSO.exC.mech ≠ .globw ∧ Neorl.XNES.exConf.npop ≠ 1 ∧ Neorl.SA.Reinforce.hard ≠ .soft := by decide

end Neorl.Compare

import Verif.AEO
import Verif.GWO
import Verif.WOA
import Verif.SSA
import Verif.MFO
import Verif.HHO
import Verif.PSO
import Verif.DE
import Verif.ES
import Verif.JAYA

/-!
# The nine algorithms of the ensemble as evolvers

`neorl/hybrid/aeo.py`, `clone_algo_obj` lines 116-177 and `Population.evolute` lines 301-347: the optimiser is rebuilt with as many members as
the population has, and called with `x0 = members` and the annealed keyword arguments.
-/

set_option linter.unusedSectionVars false
set_option linter.unusedVariables false

namespace Neorl.AEO

section
variable {K : Type} [Field K] [LinearOrder K] [IsStrictOrderedRing K] [FloorRing K]

/-- One optimiser of the ensemble: its settings, its `mode == 'min'` and its draws.  The indices DE samples depend on the population size. -/
inductive Member (K : Type) where
  | gwo (c : GWO.Conf K) (m : Bool) (dr : ℕ → GWO.Draw K)
  | woa (c : WOA.Conf K) (m : Bool) (dr : ℕ → ℕ → WOA.Draw K)
  | ssa (c : SSA.Conf K) (m : Bool) (dr : ℕ → ℕ → SSA.Draw K)
  | mfo (c : MFO.Conf K) (m : Bool) (dr : ℕ → ℕ → MFO.Draw K)
  | hho (c : HHO.Conf K) (m : Bool) (dr : ℕ → ℕ → HHO.Draw K)
  | pso (c : PSO.Conf K) (m : Bool) (dr : ℕ → ℕ → PSO.Draw K)
  | de (c : DE.Conf K) (m : Bool) (dr : ℕ → ℕ → ℕ → DE.Draw K)
  | es (c : ES.Conf K) (m : Bool) (dr : ℕ → ℕ → ES.Draw K) (strat : ℕ → List K)
  | jaya (c : JAYA.Conf K) (m : Bool) (dr : ℕ → ℕ → JAYA.Draw K)

/-- `detect_algo`, lines 76-97. -/
def Member.algo : Member K → Algo
  | .gwo .. => .gwo
  | .woa .. => .woa
  | .ssa .. => .ssa
  | .mfo .. => .mfo
  | .hho .. => .hho
  | .pso .. => .pso
  | .de .. => .de
  | .es .. => .es
  | .jaya .. => .jaya

/-- The search space the optimiser was built with. -/
def Member.space : Member K → Space K
  | .gwo c .. => c.S
  | .woa c .. => c.S
  | .ssa c .. => c.S
  | .mfo c .. => c.S
  | .hho c .. => c.S
  | .pso c .. => c.S
  | .de c .. => c.S
  | .es c .. => c.S
  | .jaya c .. => c.S

/-- Last population and evaluated points of a run. -/
def out {R : Type} (lp : R → List (List K × K)) (lg : R → List (List K)) : Py R → Py (List (List K × K) × List (List K))
  | .error e => .error e
  | .ok r => .ok (lp r, lg r)

/-- `clone_algo_obj` (lines 116-177) followed by `self.strategy.evolute(ngen, x0 = self.members, **annealing_kwargs)` (line 322) for `g` generations.
The evaluations of the evolution strategy's starting population (`init_pop`) come first in its log; those of differential evolution are part of
its model's log.  SSA receives `c1` as the list of values; without it the optimiser's own schedule is used. -/
def Member.ev (fit : List K → K) (g : ℕ) (mem : Member K) : Evolver K := fun kw ms =>
  match mem with
  | .gwo c m dr => out GWO.Result.lastPop GWO.Result.log (GWO.evolute { c with nwolves := ms.length, ngen := g, a := kw.lookup "a" } m fit dr ms)
  | .woa c m dr => out Swarm.Result.lastPop Swarm.Result.log
      (WOA.evolute { c with nwhales := ms.length, ngen := g, kwA := kw.lookup "a", kwFac := kw.lookup "fac" } m fit dr ms)
  | .ssa c m dr => out Swarm.Result.lastPop Swarm.Result.log
      (SSA.evolute { c with nsalps := ms.length, ngen := g, c1 := ((kw.lookup "c1").map SSA.C1.list).getD c.c1 } m fit dr ms)
  | .mfo c m dr => out MFO.Result.lastPop MFO.Result.log (MFO.evolute { c with nmoths := ms.length, ngen := g, kwR := kw.lookup "r" } m fit dr ms)
  | .hho c m dr => out HHO.Result.lastPop (fun r => r.early ++ r.lastDives)
      (HHO.evolute { c with nhawks := ms.length, ngen := g, kwE1 := kw.lookup "E1" } m fit dr ms)
  | .pso c m dr => out PSO.Result.lastPop PSO.Result.log (PSO.evolute { c with npar := ms.length, ngen := g, kwW := kw.lookup "w" } m fit dr ms)
  | .de c m dr => out DE.Result.lastPop DE.Result.log (DE.evolute { c with npop := ms.length, ngen := g } m fit (dr ms.length) (fun _ => []) ms)
  | .es c m dr strat => out ES.Result.lastPop (fun r => ms ++ r.log)
      (ES.evolute { c with lam := ms.length, ngen := g } m fit dr (fun _ => []) (ms.mapIdx (fun i x => (x, strat i))))
  | .jaya c m dr => out JAYA.Result.lastPop JAYA.Result.log (JAYA.evolute { c with npop := ms.length, ngen := g } m fit dr ms)

end
end Neorl.AEO

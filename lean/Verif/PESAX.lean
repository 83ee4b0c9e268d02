import Verif.PESA
import Verif.Seeded
import Verif.DE

/-!
# PESAX

Model of `neorl/hybrid/pesax.py`: evolution strategies, differential evolution and particle swarm around one prioritised memory.  The methods are
those of `neorl/hybrid/pesacore/es.py` and `pso.py` (modelled in `Verif/PESA.lean`) and `pesacore/de.py` (a copy of `evolu/de.py` without the RL
individuals, modelled in `Verif/DE.lean`; the trials are clipped before they are evaluated, so the clipping of `fit_worker` there changes nothing).
The fitness is an arbitrary function of the vector, maximised internally.

Not modelled: worker processes (`PROC`, lines 245-285) beyond their visible consequence that the weight of `speed_mech='timew'` is updated in the
child and lost; printing.  Lists are values here; `C69_shared_unchanged` shows that the in-place repair of the targets of DE changes nothing for
`nearest_int`, the only method PESAX uses.
-/

set_option linter.unusedSectionVars false
set_option linter.unusedVariables false

namespace Neorl.PESAX

open ER (Mem Sample Tag objOf tagged addAll greedyOne)
open ES (Ind)
open PSO (Mech Part)
open PESA (Par PsoOut psoStep vel0 linearAnneal)

section
variable {K : Type} [Field K] [LinearOrder K] [IsStrictOrderedRing K] [FloorRing K]

/-- Arguments of the constructor and of `evolute`, `neorl/hybrid/pesax.py` lines 70-75 and 155.  `mu` is `self.MU` (lines 123-127), `memSize` is the
attribute `self.memory_size` (0 for `None`), `w0`, `sig`, `pow` are as in `PESA.Conf`, `stream` are the uniform numbers of the generator the
memory reseeds for every sample (`Verif/Seeded.lean`).  `seed` is `none` without a seed; with a seed it holds the draws of DE
after seeding. -/
structure Conf (K : Type) where
  S : Space K
  npop : ℕ
  mu : ℕ
  ncores : ℕ
  ngen : ℕ
  memSize : ℕ
  alpha0 : K
  alpha1 : K
  F : K
  CR : K
  cxpb : K
  mutpb : K
  c1 : K
  c2 : K
  mech : Mech
  w0 : K
  sig : K → K
  pow : K → K → K
  stream : ℕ → K
  seed : Option (ℕ → DE.Draw K)

/-- The part of the arguments PESAX shares with PESA (the annealing arguments of PESA are not used): lines 96-107, 123-152, 169-173, 209-217. -/
def Conf.pesa (c : Conf K) : PESA.Conf K :=
  { S := c.S, npop := c.npop, mu := c.mu, ncores := c.ncores, ngen := c.ngen, memSize := c.memSize, alpha0 := c.alpha0, alpha1 := c.alpha1
    replay := 0, chi := 0, cxpb := c.cxpb, mutpb := c.mutpb, c1 := c.c1, c2 := c.c2, mech := c.mech, w0 := c.w0, sig := c.sig
    accP := fun _ _ => 0, temp := fun _ => 0, pow := c.pow }

/-- `DEmod(...)`, lines 212-213, run for one generation (line 291). -/
def Conf.de (c : Conf K) : DE.Conf K := { S := c.S, F := c.F, CR := c.CR, npop := c.npop, ngen := 1 }

/-- Draws of one generation; `strat` are the uniform draws of line 418.  (The samples drawn from the memory are determined by `Conf.stream`.) -/
structure GDraw (K : Type) where
  es : ℕ → ES.Draw K
  de : ℕ → DE.Draw K
  pso : ℕ → PSO.Draw K
  strat : ℕ → ℕ → K

/-- The draws of DE in one generation: `DEmod.evolute` calls `set_neorl_seed(self.seed)` first (`pesacore/de.py` line 163), so with a seed every call
starts from the same state of the generator. -/
def Conf.deDraw (c : Conf K) (d : GDraw K) : ℕ → DE.Draw K := c.seed.getD d.de

/-- State between generations; `log` is a ghost. -/
structure State (K : Type) where
  mem : Mem (Sample K)
  pop : List (Ind K)
  de : List (List K)
  swarm : List (Part K × (List K × K))
  swm : List K × K
  w : K
  step0 : ℕ
  alpha : K
  best : Option (Sample K)
  hist : List K
  log : List (List K)

/-- The initial memory and populations, lines 178-228 and `init_guess`, lines 446-494.  `pop0` holds the warmup samples (or `x0`) with their random
strategies. -/
def init (c : Conf K) (fit : List K → K) (pop0 : List (List K × List K)) : Py (State K) :=
  let all : List (Ind K) := pop0.map fun p => { ind := p.1, strat := p.2, fit := fit p.1 }
  match ER.add (ER.new c.pesa.cap) (tagged .na (all.map fun e => (e.ind, e.fit))) with
  | .error e => .error e
  | .ok mem =>
    let sorted := sortDesc (fun e : Ind K => e.fit) all
    match sorted.head? with
    | none => .error .indexError
    | some b =>
      .ok { mem := mem, pop := sorted.take c.npop, de := (sorted.take c.npop).map (fun e => e.ind)
            swarm := (sorted.take c.npop).map (fun e => ({ pos := e.ind, vel := vel0 e.ind }, (e.ind, e.fit)))
            swm := (b.ind, b.fit), w := c.w0, step0 := 1, alpha := c.alpha0, best := none, hist := []
            log := all.map (fun e => e.ind) }

/-- `select`, lines 353-376. -/
def select (k : ℕ) (pop : List (List K × K)) : List (List K × K) := (sortDesc (fun e : List K × K => e.2) pop).take k

/-- `memory_update`, lines 391-401: all samples carry the tag `'na'`. -/
def memoryUpdate (mem : Mem (Sample K)) (de : List (List K × K)) (pop : List (Ind K)) (pars : List (Par K)) : Py (Mem (Sample K)) :=
  addAll mem [tagged .na de, tagged .na (pop.map fun e => (e.ind, e.fit)), tagged .na (pars.map fun p => (p.part.pos, p.fit))]

/-- `resample`, lines 403-444: ES, then the swarm, then DE are filled up with prioritised samples. -/
def resample (c : Conf K) (d : GDraw K) (alpha : K) (mem : Mem (Sample K)) (de : List (List K × K)) (pop : List (Ind K)) (pars : List (Par K)) :
    Py (Mem (Sample K) × List (Ind K) × List (Part K × (List K × K)) × List (List K)) :=
  match ER.sampleSeeded (c.pow alpha) c.stream mem c.mu with
  | .error e => .error e
  | .ok (m1, es) =>
    match ER.sampleSeeded (c.pow alpha) c.stream m1 (c.npop - c.mu) with
    | .error e => .error e
    | .ok (m2, ps) =>
      match ER.sampleSeeded (c.pow alpha) c.stream m2 (c.npop - c.mu) with
      | .error e => .error e
      | .ok (m3, ds) =>
        .ok (m3,
          pop ++ es.mapIdx (fun k e => { ind := e.1
                                         strat := (List.range c.S.bounds.length).map (fun i => c.pesa.es.smin + (c.pesa.es.smax - c.pesa.es.smin) * d.strat k i)
                                         fit := e.2.1 }),
          pars.map (fun p => (p.part, p.loc)) ++ ps.map (fun e => ({ pos := e.1, vel := vel0 e.1 }, (e.1, e.2.1))),
          de.map (fun p => p.1) ++ ds.map fun e => e.1)

/-- One generation, lines 233-345. -/
def gen (c : Conf K) (fit : List K → K) (d : GDraw K) (s : State K) : Py (State K) :=
  match ES.genOffspring c.pesa.es d.es s.pop with
  | .error e => .error e
  | .ok os =>
    let pop := ES.select c.mu (os.map fun o => ({ ind := o.1, strat := o.2, fit := fit o.1 } : Ind K))
    match DE.evolute c.de false fit (fun _ => c.deDraw d) (fun _ => []) s.de with
    | .error e => .error e
    | .ok r =>
      match psoStep c.pesa fit s.w s.swm s.step0 d.pso s.swarm with
      | .error e => .error e
      | .ok po =>
        let de := select c.mu r.lastPop
        match memoryUpdate s.mem de pop po.pars with
        | .error e => .error e
        | .ok mem =>
          match resample c d s.alpha mem de pop po.pars with
          | .error e => .error e
          | .ok (mem, pop, swarm, de) =>
            match greedyOne mem with
            | .error e => .error e
            | .ok (mem, b) =>
              .ok { mem := mem, pop := pop, de := de, swarm := swarm, swm := po.swm, w := if c.pesa.proc then s.w else po.w
                    step0 := s.step0 + c.npop, alpha := linearAnneal (s.step0 + c.npop) c.pesa.steps c.alpha0 c.alpha1, best := some b
                    hist := s.hist ++ [b.2.1]
                    log := s.log ++ (os.map (fun o => o.1) ++ (r.log ++ po.log)) }

/-- `n` generations. -/
def run (c : Conf K) (fit : List K → K) (dr : ℕ → GDraw K) (pop0 : List (List K × List K)) : ℕ → Py (State K)
  | 0 => init c fit pop0
  | n + 1 =>
    match run c fit dr pop0 n with
    | .error e => .error e
    | .ok s => gen c fit (dr n) s

/-- What `evolute` returns, the attribute `self.memory_size` it leaves behind (line 337), and the ghost log. -/
structure Result (K : Type) where
  x : List K
  y : K
  hist : List K
  memSize : ℕ
  log : List (List K)

/-- `evolute`, lines 155-351.  `m` is `mode == 'min'`; `given` says that `x0` was passed.  `1 ≤ mu < npop` is required by the model (line 124 asserts
`mu < npop`; a `mu` of 0 means the default `npop / 2`).  The probabilities are asserted in the constructor of `ESMod`, `npop > 4` in that of
`DEmod` (line 57 of `pesacore/de.py`).  With `ngen = 0` the attribute `pesa_best` does not exist. -/
def evolute (c : Conf K) (m : Bool) (given : Bool) (userFit : List K → K) (dr : ℕ → GDraw K) (pop0 : List (List K × List K)) : Py (Result K) :=
  if ¬ (1 ≤ c.mu ∧ c.mu < c.npop) then .error .assertion else
  if given ∧ pop0.length < c.npop then .error .assertion else
  if ¬ given ∧ pop0.length ≤ c.npop then .error .assertion else
  if ¬ c.cxpb + c.mutpb ≤ 1 then .error .assertion else
  if c.npop ≤ 4 then .error .assertion else
  match run c (fun x => sgn (!m) (userFit x)) dr pop0 c.ngen with
  | .error e => .error e
  | .ok s =>
    match s.best with
    | none => .error .attributeError
    | some b =>
      .ok { x := b.1, y := sgn (!m) b.2.1, hist := s.hist.map (sgn (!m)), memSize := s.mem.storage.length, log := s.log }

end

end Neorl.PESAX

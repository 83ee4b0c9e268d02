import Verif.Memory
import Verif.ES
import Verif.Props.SA
import Verif.PSO

/-!
# PESA: evolution strategies, simulated annealing and particle swarm around one memory

Model of `neorl/hybrid/pesa.py` with `neorl/hybrid/pesacore/es.py`, `sa.py`, `pso.py` and `er.py`.  The fitness is an arbitrary function of
the encoded vector (grid decoding included).  PESA maximises internally.

`ESMod.GenOffspring` (`pesacore/es.py` lines 329-385) has the same body as `ES.genOffspring` with two-point crossover and clipped
strategies, and the model reuses it.  `SAMod.move` (`pesacore/sa.py` lines 110-127) has the same body as `SA.defMove`.  The position update
of `PSOMod` (`pesacore/pso.py` lines 163-188) is that of `PSO.newPos` with Python integers as bounds; the speed update differs and is
modelled here.

Not modelled: worker processes and their random seeds (`PROC`, lines 293-338).  In that mode the three methods run in child processes on
copies of the state; the model keeps the two visible consequences, that sorting the memory inside a chain and the weight of
`speed_mech='timew'` stay in the child.  An assertion that fails in a child leaves the parent waiting for ever; the model reports the
assertion.
-/

set_option linter.unusedSectionVars false
set_option linter.unusedVariables false

namespace Neorl.PESA

open ER (Mem Sample Tag objOf tagged addAll greedyOne)
open ES (Ind)
open PSO (Mech Part)

section
variable {K : Type} [Field K] [LinearOrder K] [IsStrictOrderedRing K] [FloorRing K]

/-- Arguments of the constructor and of `evolute`, `neorl/hybrid/pesa.py` lines 80-181 and 197-215.  `mu` is `self.MU` (lines 131-135), `memSize` is
the attribute `self.memory_size` (0 for `None`), `w0` is the weight set by the constructor of `PSOMod` (lines 85-95 of `pso.py`), `sig` its
sigmoid, `accP dE T` is `np.exp(dE/T)`, `temp` the cooling schedule, `pow a r` is `r ** a`. -/
structure Conf (K : Type) where
  S : Space K
  npop : ℕ
  mu : ℕ
  ncores : ℕ
  ngen : ℕ
  memSize : ℕ
  alpha0 : K
  alpha1 : K
  replay : K
  chi : K
  cxpb : K
  mutpb : K
  c1 : K
  c2 : K
  mech : Mech
  w0 : K
  sig : K → K
  accP : K → K → K
  temp : ℕ → K
  pow : K → K → K

/-- `self.NCORES`, lines 106-114. -/
def Conf.nc (c : Conf K) : ℕ := if c.ncores ≤ 3 then 1 else c.ncores / 3

/-- `self.PROC`, lines 106-110. -/
def Conf.proc (c : Conf K) : Bool := decide (3 < c.ncores)

/-- `self.STEPS`, line 211. -/
def Conf.steps (c : Conf K) : ℕ := c.ngen * c.npop

/-- `self.MEMORY_SIZE`, lines 212-215. -/
def Conf.cap (c : Conf K) : ℕ := if c.memSize ≠ 0 then c.memSize else c.steps * 3 + 1

/-- The arguments PESA hands to `ESMod`, lines 257-258 with `SMIN = 1/nx`, `SMAX = 0.5` (lines 160-161). -/
def Conf.es (c : Conf K) : ES.Conf K :=
  { S := c.S, lam := c.npop, mu := c.mu, ngen := 1, blend := false, alpha := 0, cxpb := c.cxpb, mutpb := c.mutpb,
    smin := 1 / (c.S.bounds.length : K), smax := 1 / 2, clip := true }

/-- The arguments PESA hands to `PSOMod`, lines 264-265. -/
def Conf.pso (c : Conf K) : PSO.Conf K :=
  { S := c.S, npar := c.npop, ngen := 1, c1 := c.c1, c2 := c.c2, mech := c.mech, w0 := c.w0, wmin := 2 / 5, wmax := 9 / 10, kwW := none,
    sig := c.sig, intArr := true }

/-! ### Simulated annealing, `neorl/hybrid/pesacore/sa.py` -/

/-- Draws of one chain by step: the replay test, the acceptance test, and for `move` the coordinate tests and the raw samples. -/
structure SDraw (K : Type) where
  r : ℕ → K
  u : ℕ → K
  mv : ℕ → ℕ → K
  ds : ℕ → ℕ → List (K × ℕ)

/-- A chain together with the memory it samples from. -/
structure SChain (K : Type) where
  c : SA.Chain K
  mem : Mem (Sample K)

/-- The candidate of step `k`, lines 175-185: with probability `replay_rate` the best sample of the memory (which gets sorted), else a random
move (`recursion` if the given raw samples do not end the loop of lines 122-123). -/
def candidate (c : Conf K) (d : SDraw K) (k : ℕ) (s : SChain K) : Py (List K × Mem (Sample K)) :=
  if d.r k < c.replay then
    match greedyOne s.mem with
    | .error e => .error e
    | .ok (m, e) => .ok (e.1, m)
  else
    match SA.defMove c.chi (d.mv k) (d.ds k) 0 c.S.types c.S.bounds s.c.x with
    | none => .error .recursion
    | some x => .ok (x, s.mem)

/-- Improve, accept or reject, lines 187-204. -/
def settle (c : Conf K) (fit : List K → K) (u : K) (k : ℕ) (x : List K) (s : SA.Chain K) : SA.Chain K :=
  let E := fit x
  let dE := E - s.E
  if dE > 0 then
    { x := x, E := E, xb := if E > s.Eb then x else s.xb, Eb := if E > s.Eb then E else s.Eb, acc := s.acc + 1, rej := s.rej,
      imp := s.imp + 1, trace := s.trace ++ [⟨k, s.x, x, x⟩] }
  else if c.accP dE (c.temp k) ≥ u then
    { s with x := x, E := E, acc := s.acc + 1, trace := s.trace ++ [⟨k, s.x, x, x⟩] }
  else { s with rej := s.rej + 1, trace := s.trace ++ [⟨k, s.x, x, s.x⟩] }

/-- The `while` loop of `chain_object`, lines 172-205, as `n` rounds from step `k`. -/
def chainLoop (c : Conf K) (fit : List K → K) (d : SDraw K) : ℕ → ℕ → SChain K → Py (SChain K)
  | 0, _, s => .ok s
  | n + 1, k, s =>
    match candidate c d k s with
    | .error e => .error e
    | .ok (x, m) => chainLoop c fit d n (k + 1) { c := settle c fit (d.u k) k x s.c, mem := m }

/-- `chain_object`, lines 144-212, on the inclusive range `[kmin, kmax]`. -/
def chainObject (c : Conf K) (fit : List K → K) (d : SDraw K) (mem : Mem (Sample K)) (x0 : List K) (E0 : K) (kmin kmax : ℕ) : Py (SChain K) :=
  chainLoop c fit d (kmax + 1 - kmin) kmin
    { c := { x := x0, E := E0, xb := x0, Eb := E0, acc := 0, rej := 0, imp := 0, trace := [] }, mem := mem }

/-- `anneal` with one generation and `chain`, lines 214-293.  With an empty range the temperature of a chain is never assigned. -/
def anneal (c : Conf K) (fit : List K → K) (dr : ℕ → SDraw K) (mem : Mem (Sample K)) (starts : List (List K × K)) (step0 : ℕ) :
    Py (List (SChain K)) :=
  if starts.length ≠ c.nc then .error .assertion else
  if c.npop % c.nc ≠ 0 then .error .assertion else
  if c.npop = 0 then .error .unboundLocal else
  mapRows (fun j p => chainObject c fit (dr j) mem p.2.1 p.2.2 p.1.1 p.1.2) 0
    ((SA.ranges (c.npop / c.nc) step0 c.nc 1 step0).zip starts)

/-! ### Particle swarm, `neorl/hybrid/pesacore/pso.py` -/

/-- New speed of a coordinate, lines 145-156.  For `globw` the weight is `1.11 - local_fit / swm_fit`. -/
def newVel (c : Conf K) (w sfit lfit : K) (d : PSO.Draw K) (i : ℕ) (x v lp sp : K) : Py K :=
  let cog := c.c1 * d.r1 i * (lp - x)
  let soc := c.c2 * d.r2 i * (sp - x)
  match c.mech with
  | .constric => .ok (w * (v + cog + soc))
  | .timew => .ok (w * v + cog + soc)
  | .globw => if sfit = 0 then .error .zeroDivision else .ok ((111 / 100 - lfit / sfit) * v + cog + soc)

/-- `UpdateParticle`, lines 122-190. -/
def updateParticle (c : Conf K) (w : K) (swm : List K × K) (d : PSO.Draw K) (p : Part K) (l : List K × K) : Py (Part K) :=
  match mapRows (fun i v => newVel c w swm.2 l.2 d i (p.pos.getD i 0) v (l.1.getD i 0) (swm.1.getD i 0)) 0 p.vel with
  | .error e => .error e
  | .ok vel =>
    match mapRows (fun i x => PSO.newPos c.pso d i x (vel.getD i 0)) 0 p.pos with
    | .error e => .error e
    | .ok pos => .ok { pos := pos, vel := vel }

/-- `[position, speed, fitness, local position, local fitness]`. -/
structure Par (K : Type) where
  part : Part K
  fit : K
  loc : List K × K

/-- What one generation of `PSOMod.evolute` hands back: the surviving particles, the swarm best, the weight, and the ghost log. -/
structure PsoOut (K : Type) where
  pars : List (Par K)
  swm : List K × K
  w : K
  log : List (List K)

/-- `evolute` with one generation, lines 250-410: move, evaluate, update local and swarm best, keep the best `mu` particles
(`select`, lines 208-231, a stable sort). -/
def psoStep (c : Conf K) (fit : List K → K) (w : K) (swm : List K × K) (step0 : ℕ) (dr : ℕ → PSO.Draw K)
    (ps : List (Part K × (List K × K))) : Py (PsoOut K) :=
  if ps.length ≠ c.npop then .error .assertion else
  match mapRows (fun i pl => updateParticle c w swm (dr i) pl.1 pl.2) 0 ps with
  | .error e => .error e
  | .ok off =>
    let xs := off.map fun p => p.pos
    let r := PSO.evalLoop fit xs (ps.map fun p => p.2) swm
    let all : List (Par K) := (off.zip r.1).map fun p => { part := p.1, fit := fit p.1.pos, loc := p.2 }
    .ok { pars := (sortDesc (fun p : Par K => p.fit) all).take c.mu, swm := r.2
          w := (if c.mech = Mech.timew then 9 / 10 - (9 / 10 - 2 / 5) * (step0 : K) / (c.steps : K) else w), log := xs }

/-! ### The engine, `neorl/hybrid/pesa.py` -/

/-- Draws of one generation.  `strat` are the uniform draws of line 454, `esIdx`, `psoIdx`, `saIdx`
those of the three calls of `np.random.choice`, reduced to the range of the memory. -/
structure GDraw (K : Type) where
  es : ℕ → ES.Draw K
  sa : ℕ → SDraw K
  pso : ℕ → PSO.Draw K
  strat : ℕ → ℕ → K
  esIdx : ℕ → ℕ
  psoIdx : ℕ → ℕ
  saIdx : ℕ → ℕ

/-- State between generations; `log` and `steps` are ghosts. -/
structure State (K : Type) where
  mem : Mem (Sample K)
  pop : List (Ind K)
  chains : List (List K × K)
  swarm : List (Part K × (List K × K))
  swm : List K × K
  w : K
  step0 : ℕ
  alpha : K
  best : Option (Sample K)
  hist : List K
  log : List (List K)
  steps : List ℕ

/-- `linear_anneal`, lines 414-425. -/
def linearAnneal (step total : ℕ) (a0 a1 : K) : K := a0 + min ((step : K) / (total : K)) 1 * (a1 - a0)

/-- `list(self.v0*np.array(x))` with `v0 = 0.1`. -/
def vel0 (x : List K) : List K := x.map fun v => 1 / 10 * v

/-- The initial memory and population, lines 217-276 and `init_guess`, lines 476-524.  `pop0` holds the warmup samples (or `x0`) with their random
strategies. -/
def init (c : Conf K) (fit : List K → K) (pop0 : List (List K × List K)) : Py (State K) :=
  let all : List (Ind K) := pop0.map fun p => { ind := p.1, strat := p.2, fit := fit p.1 }
  match ER.add (ER.new c.cap) (tagged .na (all.map fun e => (e.ind, e.fit))) with
  | .error e => .error e
  | .ok mem =>
    let sorted := sortDesc (fun e : Ind K => e.fit) all
    match sorted.head? with
    | none => .error .indexError
    | some b =>
      .ok { mem := mem, pop := sorted.take c.npop, chains := (sorted.take c.nc).map (fun e => (e.ind, e.fit))
            swarm := (sorted.take c.npop).map (fun e => ({ pos := e.ind, vel := vel0 e.ind }, (e.ind, e.fit)))
            swm := (b.ind, b.fit), w := c.w0, step0 := 1, alpha := c.alpha0, best := none, hist := []
            log := all.map (fun e => e.ind), steps := [] }

/-- `memory_update`, lines 427-437: the last and the best point of every chain, the surviving individuals, the surviving particles. -/
def memoryUpdate (mem : Mem (Sample K)) (chs : List (SChain K)) (pop : List (Ind K)) (pars : List (Par K)) : Py (Mem (Sample K)) :=
  addAll mem [tagged .sanext (chs.map fun s => (s.c.x, s.c.E)), tagged .sabest (chs.map fun s => (s.c.xb, s.c.Eb)),
    tagged .es (pop.map fun e => (e.ind, e.fit)), tagged .pso (pars.map fun p => (p.part.pos, p.fit))]

/-- `resample`, lines 439-474: three prioritised samples; individuals get random strategies, particles a speed and themselves as local best. -/
def resample (c : Conf K) (d : GDraw K) (alpha : K) (mem : Mem (Sample K)) (pop : List (Ind K)) (pars : List (Par K)) :
    Py (Mem (Sample K) × List (Ind K) × List (Part K × (List K × K)) × List (List K × K)) :=
  match ER.samplePrior objOf (c.pow alpha) mem ((List.range c.mu).map fun i => d.esIdx i % mem.storage.length) with
  | .error e => .error e
  | .ok (m1, es) =>
    match ER.samplePrior objOf (c.pow alpha) m1 ((List.range (c.npop - c.mu)).map fun i => d.psoIdx i % mem.storage.length) with
    | .error e => .error e
    | .ok (m2, ps) =>
      match ER.samplePrior objOf (c.pow alpha) m2 ((List.range c.nc).map fun i => d.saIdx i % mem.storage.length) with
      | .error e => .error e
      | .ok (m3, ss) =>
        .ok (m3,
          pop ++ es.mapIdx (fun k e => { ind := e.1
                                         strat := (List.range c.S.bounds.length).map (fun i => c.es.smin + (c.es.smax - c.es.smin) * d.strat k i)
                                         fit := e.2.1 }),
          pars.map (fun p => (p.part, p.loc)) ++ ps.map (fun e => ({ pos := e.1, vel := vel0 e.1 }, (e.1, e.2.1))),
          ss.map fun e => (e.1, e.2.1))

/-- One generation, lines 281-397. -/
def gen (c : Conf K) (fit : List K → K) (d : GDraw K) (s : State K) : Py (State K) :=
  match ES.genOffspring c.es d.es s.pop with
  | .error e => .error e
  | .ok os =>
    let pop := ES.select c.mu (os.map fun o => ({ ind := o.1, strat := o.2, fit := fit o.1 } : Ind K))
    match anneal c fit d.sa s.mem s.chains s.step0 with
    | .error e => .error e
    | .ok chs =>
      let mem := if c.proc then s.mem else (chs.head?.map (fun h : SChain K => h.mem)).getD s.mem
      match psoStep c fit s.w s.swm s.step0 d.pso s.swarm with
      | .error e => .error e
      | .ok po =>
        match memoryUpdate mem chs pop po.pars with
        | .error e => .error e
        | .ok mem =>
          match resample c d s.alpha mem pop po.pars with
          | .error e => .error e
          | .ok (mem, pop, swarm, chains) =>
            match greedyOne mem with
            | .error e => .error e
            | .ok (mem, b) =>
              .ok { mem := mem, pop := pop, chains := chains, swarm := swarm, swm := po.swm, w := if c.proc then s.w else po.w
                    step0 := s.step0 + c.npop, alpha := linearAnneal (s.step0 + c.npop) c.steps c.alpha0 c.alpha1, best := some b
                    hist := s.hist ++ [b.2.1]
                    log := s.log ++ (os.map (fun o => o.1) ++ (chs.flatMap (fun h => h.c.trace.map (fun e => e.cand)) ++ po.log))
                    steps := s.steps ++ chs.flatMap (fun h => h.c.trace.map (fun e => e.step)) }

/-- `n` generations. -/
def run (c : Conf K) (fit : List K → K) (dr : ℕ → GDraw K) (pop0 : List (List K × List K)) : ℕ → Py (State K)
  | 0 => init c fit pop0
  | n + 1 =>
    match run c fit dr pop0 n with
    | .error e => .error e
    | .ok s => gen c fit (dr n) s

/-- What `evolute` returns, the attribute `self.memory_size` it leaves behind (line 385), and the ghost logs. -/
structure Result (K : Type) where
  x : List K
  y : K
  hist : List K
  memSize : ℕ
  log : List (List K)
  steps : List ℕ

/-- `evolute`, lines 197-412.  `m` is `mode == 'min'`; `given` says that `x0` was passed.  `1 ≤ mu < npop` is required by the model: the
constructor asserts `mu < npop` for a given `mu` (line 132), and `npop = 1` would make `MU = 0`.  The assertion on the
probabilities is in the constructor of `ESMod` (line 74 of `es.py`).  With `ngen = 0` the attribute `xbest_correct`
does not exist. -/
def evolute (c : Conf K) (m : Bool) (given : Bool) (userFit : List K → K) (dr : ℕ → GDraw K) (pop0 : List (List K × List K)) : Py (Result K) :=
  if ¬ (1 ≤ c.mu ∧ c.mu < c.npop) then .error .assertion else
  if given ∧ pop0.length < c.npop then .error .assertion else
  if ¬ given ∧ pop0.length ≤ c.npop then .error .assertion else
  if ¬ c.cxpb + c.mutpb ≤ 1 then .error .assertion else
  match run c (fun x => sgn (!m) (userFit x)) dr pop0 c.ngen with
  | .error e => .error e
  | .ok s =>
    match s.best with
    | none => .error .attributeError
    | some b =>
      .ok { x := b.1, y := sgn (!m) b.2.1, hist := s.hist.map (sgn (!m)), memSize := s.mem.storage.length, log := s.log, steps := s.steps }

/-! ### Lemmas: one chain -/

/-- Everything known about a chain of PESA after `n` rounds from step `k0` at `x0`; `Cand` says where the candidates come from. -/
structure CInv (Good : List K → Prop) (Cand : ℕ → List K → List K → Prop) (fit : List K → K) (accP : K → K → K) (temp u : ℕ → K) (x0 : List K)
    (k0 n : ℕ) (s : SA.Chain K) : Prop where
  steps : s.trace.map (fun e : SA.Entry K => e.step) = (List.range n).map (fun i => k0 + i)
  links : ∀ (i : ℕ) (e : SA.Entry K), s.trace[i]? = some e →
    (i = 0 → e.src = x0) ∧ (∀ e', s.trace[i + 1]? = some e' → e'.src = e.dst) ∧ (i + 1 = n → s.x = e.dst)
  empty : n = 0 → s.x = x0
  cands : ∀ e ∈ s.trace, Cand e.step e.src e.cand
  rule : ∀ e ∈ s.trace, e.dst = if SA.Metropolis fit accP (temp e.step) (u e.step) e.src e.cand then e.cand else e.src
  acc : s.acc = s.trace.countP (fun e : SA.Entry K => decide (SA.Metropolis fit accP (temp e.step) (u e.step) e.src e.cand))
  rej : s.rej = s.trace.countP (fun e : SA.Entry K => !decide (SA.Metropolis fit accP (temp e.step) (u e.step) e.src e.cand))
  imp : s.imp = s.trace.countP (fun e : SA.Entry K => decide (fit e.src < fit e.cand))
  cur : s.E = fit s.x
  le : s.E ≤ s.Eb
  best : IsBest false fit (x0 :: s.trace.map (fun e : SA.Entry K => e.cand)) s.xb s.Eb
  mem : s.x ∈ x0 :: s.trace.map (fun e : SA.Entry K => e.cand)
  box : Good s.x ∧ ∀ e ∈ s.trace, Good e.cand


theorem cinv_init {Good : List K → Prop} {Cand : ℕ → List K → List K → Prop} {fit : List K → K} {accP : K → K → K} {temp u : ℕ → K} {x0 : List K} {E0 : K} {k0 : ℕ}
    (hx : Good x0) (hE : E0 = fit x0) :
    CInv Good Cand fit accP temp u x0 k0 0 { x := x0, E := E0, xb := x0, Eb := E0, acc := 0, rej := 0, imp := 0, trace := [] } := by
  refine ⟨by simp, by simp, fun _ => rfl, by simp, by simp, by simp, by simp, by simp, hE, le_rfl, ?_, by simp, hx, by simp⟩
  exact ⟨by simp, hE, by simp [NotWorse, hE]⟩

theorem settle_inv {c : Conf K} {Good : List K → Prop} {Cand : ℕ → List K → List K → Prop} {fit : List K → K} {u : ℕ → K}
    {x0 : List K} {k0 n : ℕ} {s : SA.Chain K} (h : CInv Good Cand fit c.accP c.temp u x0 k0 n s) {x : List K}
    (hx : Cand (k0 + n) s.x x) (hbox : Good x) :
    CInv Good Cand fit c.accP c.temp u x0 k0 (n + 1) (settle c fit (u (k0 + n)) (k0 + n) x s) := by
  have hlen : s.trace.length = n := by simpa using congrArg List.length h.steps
  -- common part: the trace grows by one entry obeying the rule
  have common : ∀ (dst : List K), (dst = if SA.Metropolis fit c.accP (c.temp (k0 + n)) (u (k0 + n)) s.x x then x else s.x) →
      let tr := s.trace ++ [⟨k0 + n, s.x, x, dst⟩]
      tr.map (fun e : SA.Entry K => e.step) = (List.range (n + 1)).map (fun i => k0 + i) ∧
      (∀ (i : ℕ) (e : SA.Entry K), tr[i]? = some e →
        (i = 0 → e.src = x0) ∧ (∀ e', tr[i + 1]? = some e' → e'.src = e.dst) ∧ (i + 1 = n + 1 → dst = e.dst)) ∧
      (∀ e ∈ tr, Cand e.step e.src e.cand) ∧
      (∀ e ∈ tr, e.dst = if SA.Metropolis fit c.accP (c.temp e.step) (u e.step) e.src e.cand then e.cand else e.src) ∧
      Good dst ∧ ∀ e ∈ tr, Good e.cand := by
    intro dst hdst
    refine ⟨?_, ?_, ?_, ?_, ?_, ?_⟩
    · rw [List.map_append, h.steps, List.range_succ, List.map_append]; rfl
    · intro i e he
      rcases Nat.lt_trichotomy i n with hi | hi | hi
      · rw [List.getElem?_append_left (by omega)] at he
        obtain ⟨h1, h2, h3⟩ := h.links i e he
        refine ⟨h1, ?_, by omega⟩
        intro e' he'
        rcases Nat.lt_or_ge (i + 1) n with hi' | hi'
        · rw [List.getElem?_append_left (by omega)] at he'
          exact h2 e' he'
        · rw [List.getElem?_append_right (by omega)] at he'
          have : i + 1 - s.trace.length = 0 := by omega
          rw [this] at he'
          cases he'
          exact h3 (by omega)
      · subst hi
        rw [List.getElem?_append_right (by omega), hlen, Nat.sub_self] at he
        cases he
        refine ⟨fun h0 => h.empty h0, ?_, fun _ => rfl⟩
        intro e' he'
        rw [List.getElem?_append_right (by omega), hlen] at he'
        have : i + 1 - i = 1 := by omega
        rw [this] at he'
        cases he'
      · have := (List.getElem?_eq_some_iff.1 he).1
        simp [hlen] at this
        omega
    · intro e he
      rcases List.mem_append.1 he with he | he
      · exact h.cands e he
      · simp only [List.mem_singleton] at he; subst he; exact hx
    · intro e he
      rcases List.mem_append.1 he with he | he
      · exact h.rule e he
      · simp only [List.mem_singleton] at he; subst he; exact hdst
    · rw [hdst]; split
      · exact hbox
      · exact h.box.1
    · intro e he
      rcases List.mem_append.1 he with he | he
      · exact h.box.2 e he
      · simp only [List.mem_singleton] at he; subst he; exact hbox
  have hlog : ∀ dst, (s.trace ++ [(⟨k0 + n, s.x, x, dst⟩ : SA.Entry K)]).map (fun e : SA.Entry K => e.cand) = s.trace.map (fun e : SA.Entry K => e.cand) ++ [x] := by
    intro dst; simp
  have hbest : ∀ z ∈ x0 :: s.trace.map (fun e : SA.Entry K => e.cand), fit z ≤ s.Eb := by
    intro z hz; simpa [NotWorse] using h.best.2.2 z hz
  have hmem' : ∀ z ∈ x0 :: s.trace.map (fun e : SA.Entry K => e.cand), z ∈ x0 :: (s.trace.map (fun e : SA.Entry K => e.cand) ++ [x]) := by
    intro z hz; rw [← List.cons_append]; exact List.mem_append_left _ hz
  have hxm : x ∈ x0 :: (s.trace.map (fun e : SA.Entry K => e.cand) ++ [x]) := by simp
  have hall : ∀ (v : K), s.Eb ≤ v → fit x ≤ v → ∀ z ∈ x0 :: (s.trace.map (fun e : SA.Entry K => e.cand) ++ [x]), fit z ≤ v := by
    intro v h1 h2 z hz
    rw [← List.cons_append] at hz
    rcases List.mem_append.1 hz with hz | hz
    · exact (hbest z hz).trans h1
    · simp only [List.mem_singleton] at hz; rw [hz]; exact h2
  have hcur := h.cur
  unfold settle
  simp only
  by_cases h1 : fit x - s.E > 0
  · rw [if_pos h1]
    have hM : SA.Metropolis fit c.accP (c.temp (k0 + n)) (u (k0 + n)) s.x x := Or.inl (by rw [← hcur]; linarith)
    obtain ⟨a1, a2, a3, a4, a5, a6⟩ := common x (by rw [if_pos hM])
    have himp : fit s.x < fit x := by rw [← hcur]; linarith
    refine ⟨a1, a2, by omega, a3, a4, ?_, ?_, ?_, rfl, ?_, ?_, ?_, a5, a6⟩
    · simp [List.countP_append, h.acc, hM]
    · simp [List.countP_append, h.rej, hM]
    · simp [List.countP_append, h.imp, himp]
    · show fit x ≤ if fit x > s.Eb then fit x else s.Eb
      split_ifs with hc
      · exact le_rfl
      · exact not_lt.1 hc
    · rw [hlog]
      by_cases hc : fit x > s.Eb
      · simp only [if_pos hc]
        exact ⟨hxm, rfl, fun z hz => by simpa [NotWorse] using hall _ hc.le le_rfl z hz⟩
      · simp only [if_neg hc]
        exact ⟨hmem' _ h.best.1, h.best.2.1, fun z hz => by simpa [NotWorse] using hall _ le_rfl (not_lt.1 hc) z hz⟩
    · rw [hlog]; exact hxm
  · rw [if_neg h1]
    have hle : fit x ≤ s.E := by linarith [not_lt.1 h1]
    have hnimp : ¬ fit s.x < fit x := by rw [← hcur]; exact not_lt.2 hle
    by_cases h2 : c.accP (fit x - s.E) (c.temp (k0 + n)) ≥ u (k0 + n)
    · rw [if_pos h2]
      have hM : SA.Metropolis fit c.accP (c.temp (k0 + n)) (u (k0 + n)) s.x x := Or.inr (by rw [← hcur]; exact h2)
      obtain ⟨a1, a2, a3, a4, a5, a6⟩ := common x (by rw [if_pos hM])
      refine ⟨a1, a2, by omega, a3, a4, ?_, ?_, ?_, rfl, hle.trans h.le, ?_, ?_, a5, a6⟩
      · simp [List.countP_append, h.acc, hM]
      · simp [List.countP_append, h.rej, hM]
      · simp [List.countP_append, h.imp, hnimp]
      · rw [hlog]
        exact ⟨hmem' _ h.best.1, h.best.2.1, fun z hz => by simpa [NotWorse] using hall _ le_rfl (hle.trans h.le) z hz⟩
      · rw [hlog]; exact hxm
    · rw [if_neg h2]
      have hM : ¬ SA.Metropolis fit c.accP (c.temp (k0 + n)) (u (k0 + n)) s.x x := by
        rintro (h | h)
        · exact hnimp h
        · rw [← hcur] at h; exact h2 h
      obtain ⟨a1, a2, a3, a4, a5, a6⟩ := common s.x (by rw [if_neg hM])
      refine ⟨a1, a2, by omega, a3, a4, ?_, ?_, ?_, hcur, h.le, ?_, ?_, a5, a6⟩
      · simp [List.countP_append, h.acc, hM]
      · simp [List.countP_append, h.rej, hM]
      · simp [List.countP_append, h.imp, hnimp]
      · rw [hlog]
        exact ⟨hmem' _ h.best.1, h.best.2.1, fun z hz => by simpa [NotWorse] using hall _ le_rfl (hle.trans h.le) z hz⟩
      · rw [hlog]; exact hmem' _ h.mem


/-- Same capacity, same position, same samples in some order. -/
def Same (m m' : Mem (Sample K)) : Prop := m'.size = m.size ∧ m'.next = m.next ∧ m'.storage.Perm m.storage

theorem Same.rfl' (m : Mem (Sample K)) : Same m m := ⟨rfl, rfl, .refl _⟩

theorem Same.sort {m m' : Mem (Sample K)} (h : Same m m') : Same m (ER.sortMem objOf m') :=
  ⟨h.1, h.2.1, (sortDesc_perm _ _).trans h.2.2⟩

theorem Same.nw {m m' : Mem (Sample K)} (h : Same m m') {n : ℕ} (hn : ER.NW m n) : ER.NW m' n := by
  unfold ER.NW at *
  rw [h.1, h.2.1, h.2.2.length_eq]
  exact hn

theorem Same.mem {m m' : Mem (Sample K)} (h : Same m m') {e : Sample K} : e ∈ m'.storage ↔ e ∈ m.storage := h.2.2.mem_iff

/-- Specification: `x` is the point of a best sample. -/
def FromMem (st : List (Sample K)) (x : List K) : Prop := ∃ e ∈ st, e.1 = x ∧ ∀ b ∈ st, objOf b ≤ objOf e

/-- Specification of a candidate: the best sample of the memory when the replay test succeeds, a random move of the current point
otherwise. -/
def Cand (c : Conf K) (d : SDraw K) (st : List (Sample K)) (k : ℕ) (src x : List K) : Prop :=
  if d.r k < c.replay then FromMem st x else SA.defMove c.chi (d.mv k) (d.ds k) 0 c.S.types c.S.bounds src = some x

/-- Raw samples of floats are in `[0, 1]`. -/
def SDraw.OK (d : SDraw K) : Prop := ∀ k i, ∀ t ∈ d.ds k i, 0 ≤ t.1 ∧ t.1 ≤ 1

/-- The samples of a memory: feasible points with their fitness, evaluated before. -/
def MemOK (c : Conf K) (fit : List K → K) (log : List (List K)) (st : List (Sample K)) : Prop :=
  ∀ e ∈ st, c.S.Feasible e.1 ∧ e.2.1 = fit e.1 ∧ e.1 ∈ log

theorem candidate_ok {c : Conf K} {d : SDraw K} {k : ℕ} {s : SChain K} {x : List K} {m : Mem (Sample K)}
    (h : candidate c d k s = .ok (x, m)) : Cand c d s.mem.storage k s.c.x x ∧ (m = s.mem ∨ m = ER.sortMem objOf s.mem) := by
  unfold candidate at h
  unfold Cand
  split at h
  · rename_i hr
    rw [if_pos hr]
    split at h
    · cases h
    · rename_i m' e he
      cases h
      obtain ⟨h1, h2, h3⟩ := ER.greedyOne_ok he
      exact ⟨⟨e, h2, rfl, h3⟩, Or.inr h1⟩
  · rename_i hr
    rw [if_neg hr]
    split at h
    · cases h
    · rename_i y hy
      cases h
      exact ⟨hy, Or.inl rfl⟩

theorem defMove_feasible {S : Space K} (hS : S.OK) {chi : K} {u : ℕ → K} {ds : ℕ → List (K × ℕ)} (hd : ∀ i, ∀ t ∈ ds i, 0 ≤ t.1 ∧ t.1 ≤ 1)
    {x y : List K} (hx : S.Feasible x) (h : SA.defMove chi u ds 0 S.types S.bounds x = some y) : S.Feasible y := by
  obtain ⟨h1, h2⟩ := SA.C25_default_move hS.ordered hS.ntypes hx.1.length_eq hS.intBounds hd h
  have hl : y.length = S.bounds.length := by rw [h1, hx.1.length_eq]
  refine ⟨inBox_of_getElem? hl ?_, ?_⟩
  · intro j v b hv hb
    have hj : j < x.length := by have := (List.getElem?_eq_some_iff.1 hv).1; omega
    have hjt : j < S.types.length := by have := (List.getElem?_eq_some_iff.1 hb).1; rw [hS.ntypes]; exact this
    have := h2 j _ v b _ (List.getElem?_eq_getElem hj) hv hb (List.getElem?_eq_getElem hjt)
    split_ifs at this
    · exact this.1
    · rw [this]; exact inBox_getElem? hx.1 (List.getElem?_eq_getElem hj) hb
  · intro j v ht hv
    have hj : j < x.length := by have := (List.getElem?_eq_some_iff.1 hv).1; omega
    have hjb : j < S.bounds.length := by rw [← hx.1.length_eq]; exact hj
    have := h2 j _ v _ _ (List.getElem?_eq_getElem hj) hv (List.getElem?_eq_getElem hjb) ht
    split_ifs at this
    · exact this.2.1 rfl
    · rw [this]; exact hx.2 j _ ht (List.getElem?_eq_getElem hj)

theorem Cand.feasible {c : Conf K} (hS : c.S.OK) {d : SDraw K} (hd : d.OK) {fit : List K → K} {log : List (List K)} {st : List (Sample K)}
    (hm : MemOK c fit log st) {k : ℕ} {src x : List K} (hs : c.S.Feasible src) (h : Cand c d st k src x) : c.S.Feasible x := by
  unfold Cand at h
  split_ifs at h
  · obtain ⟨e, he, rfl, _⟩ := h
    exact (hm e he).1
  · exact defMove_feasible hS (hd k) hs h

theorem Cand.same {c : Conf K} {d : SDraw K} {m m' : Mem (Sample K)} (hs : Same m m') {k : ℕ} {src x : List K}
    (h : Cand c d m'.storage k src x) : Cand c d m.storage k src x := by
  unfold Cand at *
  split_ifs at *
  · obtain ⟨e, he, h1, h2⟩ := h
    exact ⟨e, hs.mem.1 he, h1, fun b hb => h2 b (hs.mem.2 hb)⟩
  · exact h

theorem chainLoop_inv {c : Conf K} (hS : c.S.OK) {d : SDraw K} (hd : d.OK) {fit : List K → K} {log : List (List K)} {m0 : Mem (Sample K)}
    (hm : MemOK c fit log m0.storage) {x0 : List K} {k0 : ℕ} (m n : ℕ) {s s' : SChain K}
    (h : CInv c.S.Feasible (Cand c d m0.storage) fit c.accP c.temp d.u x0 k0 n s.c) (hsame : Same m0 s.mem)
    (hr : chainLoop c fit d m (k0 + n) s = .ok s') :
    CInv c.S.Feasible (Cand c d m0.storage) fit c.accP c.temp d.u x0 k0 (n + m) s'.c ∧ Same m0 s'.mem := by
  induction m generalizing n s with
  | zero => cases hr; exact ⟨h, hsame⟩
  | succ m ih =>
    simp only [chainLoop] at hr
    split at hr
    · cases hr
    · rename_i x mm hc
      obtain ⟨h1, h2⟩ := candidate_ok hc
      have h1' := h1.same hsame
      have hx := h1'.feasible hS hd hm h.box.1
      rw [show n + (m + 1) = n + 1 + m by ring]
      refine ih (n + 1) (settle_inv h h1' hx) ?_ hr
      rcases h2 with h2 | h2
      · rw [h2]; exact hsame
      · rw [h2]; exact hsame.sort

theorem chainObject_inv {c : Conf K} (hS : c.S.OK) {d : SDraw K} (hd : d.OK) {fit : List K → K} {log : List (List K)} {m0 : Mem (Sample K)}
    (hm : MemOK c fit log m0.storage) {x0 : List K} {E0 : K} (hx : c.S.Feasible x0) (hE : E0 = fit x0) {kmin kmax : ℕ} {s : SChain K}
    (h : chainObject c fit d m0 x0 E0 kmin kmax = .ok s) :
    CInv c.S.Feasible (Cand c d m0.storage) fit c.accP c.temp d.u x0 kmin (kmax + 1 - kmin) s.c ∧ Same m0 s.mem := by
  have := chainLoop_inv hS hd hm (kmax + 1 - kmin) 0 (s' := s) (cinv_init (accP := c.accP) (temp := c.temp) (u := d.u) (k0 := kmin) hx hE)
    (Same.rfl' m0) h
  rw [Nat.zero_add] at this
  exact this

theorem nc_pos (c : Conf K) : 0 < c.nc := by
  unfold Conf.nc
  split_ifs with h
  · exact one_pos
  · omega

/-- One annealing stage: chain `j` starts at start `j` and uses the steps `step0 + j * q .. step0 + (j+1) * q - 1`, `q = npop / NCORES`. -/
theorem anneal_inv {c : Conf K} (hS : c.S.OK) {dr : ℕ → SDraw K} (hd : ∀ j, (dr j).OK) {fit : List K → K} {log : List (List K)}
    {m0 : Mem (Sample K)} (hm : MemOK c fit log m0.storage) {starts : List (List K × K)}
    (hst : ∀ p ∈ starts, c.S.Feasible p.1 ∧ p.2 = fit p.1) {step0 : ℕ} (h0 : 1 ≤ step0) {chs : List (SChain K)}
    (h : anneal c fit dr m0 starts step0 = .ok chs) :
    starts.length = c.nc ∧ c.nc * (c.npop / c.nc) = c.npop ∧ chs.length = c.nc ∧
    ∀ (j : ℕ) (s : SChain K), chs[j]? = some s → ∃ p, starts[j]? = some p ∧
      CInv c.S.Feasible (Cand c (dr j) m0.storage) fit c.accP c.temp (dr j).u p.1 (step0 + j * (c.npop / c.nc)) (c.npop / c.nc) s.c ∧
      Same m0 s.mem := by
  unfold anneal at h
  split at h
  · cases h
  rename_i hl
  split at h
  · cases h
  rename_i hmod
  split at h
  · cases h
  have hl : starts.length = c.nc := not_not.1 hl
  have hmod : c.npop % c.nc = 0 := not_not.1 hmod
  have hmul : c.nc * (c.npop / c.nc) = c.npop := Nat.mul_div_cancel' (Nat.dvd_of_mod_eq_zero hmod)
  obtain ⟨a1, a2⟩ := mapRows_ok h
  rw [SA.ranges_start h0] at a1 a2
  refine ⟨hl, hmul, by rw [a1]; simp [hl], ?_⟩
  intro j s hs
  obtain ⟨p, hp, hc⟩ := a2 j s hs
  rw [Nat.zero_add] at hc
  rw [List.getElem?_zip_eq_some] at hp
  obtain ⟨hp1, hp2⟩ := hp
  rw [List.getElem?_map] at hp1
  cases hr : (List.range c.nc)[j]? with
  | none => rw [hr] at hp1; cases hp1
  | some i =>
    rw [hr] at hp1
    have hi : i = j := by
      have := List.getElem?_eq_some_iff.1 hr
      obtain ⟨w, hw⟩ := this
      simpa using hw.symm
    subst hi
    simp only [Option.map_some, Option.some.injEq] at hp1
    rw [← hp1] at hc
    obtain ⟨f1, f2⟩ := hst p.2 (List.mem_of_getElem? hp2)
    obtain ⟨b1, b2⟩ := chainObject_inv hS (hd i) hm f1 f2 hc
    refine ⟨p.2, hp2, ?_, b2⟩
    have e : step0 + (i + 1) * (c.npop / c.nc) - 1 + 1 - (step0 + i * (c.npop / c.nc)) = c.npop / c.nc := by
      rw [Nat.add_mul]
      omega
    simp only at b1
    rw [e] at b1
    exact b1

/-! ### Lemmas: selection -/

theorem select_cover {β : Type} (key : β → K) {l : List β} {k : ℕ} (hk : 1 ≤ k) {a : β} (ha : a ∈ l) :
    ∃ b ∈ (sortDesc key l).take k, key a ≤ key b := by
  cases hs : sortDesc key l with
  | nil =>
    have : (sortDesc key l).length = 0 := by rw [hs]; rfl
    rw [length_sortDesc, List.length_eq_zero_iff] at this
    rw [this] at ha; cases ha
  | cons b t =>
    have hb := sortDesc_head_max key (l := l) (a := b) (by rw [hs]; rfl)
    refine ⟨b, ?_, hb.2 a ha⟩
    obtain ⟨k, rfl⟩ := Nat.exists_eq_add_of_le' hk
    simp

/-! ### Lemmas: particle swarm -/

theorem newPos_feasible {c : Conf K} (hS : c.S.OK) {d : PSO.Draw K} {p : Part K} {vel pos : List K} (hp : c.S.Feasible p.pos)
    (h : mapRows (fun i x => PSO.newPos c.pso d i x (vel.getD i 0)) 0 p.pos = .ok pos) : c.S.Feasible pos := by
  obtain ⟨h1, h2⟩ := mapRows_ok h
  have hc : ∀ (i : ℕ) (y : K), pos[i]? = some y → (∀ b, c.S.bounds[i]? = some b → b.1 ≤ y ∧ y ≤ b.2) ∧
      (c.S.types[i]? = some .int → ∃ n : ℤ, y = n) := by
    intro i y hy
    obtain ⟨x, hx, e⟩ := h2 i y hy
    rw [Nat.zero_add] at e
    refine PSO.newPos_ok (c := c.pso) hS e ?_
    intro ht
    exact ⟨hp.2 i x ht hx, fun b hb => inBox_getElem? hp.1 hx hb⟩
  exact ⟨inBox_of_getElem? (by rw [h1, hp.1.length_eq]) (fun i y b hy hb => (hc i y hy).1 b hb), fun i y ht hy => (hc i y hy).2 ht⟩

theorem updateParticle_ok {c : Conf K} (hS : c.S.OK) {w : K} {swm : List K × K} {d : PSO.Draw K} {p q : Part K} {l : List K × K}
    (hp : c.S.Feasible p.pos) (h : updateParticle c w swm d p l = .ok q) : c.S.Feasible q.pos ∧ q.vel.length = p.vel.length := by
  unfold updateParticle at h
  split at h
  · cases h
  · rename_i vel hvel
    split at h
    · cases h
    · rename_i pos hpos
      cases h
      exact ⟨newPos_feasible hS hp hpos, (mapRows_ok hvel).1⟩

/-- A pair `(x, y)` recording an evaluated feasible point with its fitness. -/
def Rec (c : Conf K) (fit : List K → K) (log : List (List K)) (p : List K × K) : Prop := c.S.Feasible p.1 ∧ p.2 = fit p.1 ∧ p.1 ∈ log

theorem Rec.mono {c : Conf K} {fit : List K → K} {log log' : List (List K)} {p : List K × K} (h : Rec c fit log p)
    (hs : ∀ z ∈ log, z ∈ log') : Rec c fit log' p := ⟨h.1, h.2.1, hs _ h.2.2⟩

theorem evalLoop_rec {f : List K → K} {P : List K × K → Prop} {ps : List (List K)} {ls : List (List K × K)} {g : List K × K}
    (hp : ∀ p ∈ ps, P (p, f p)) (hl : ∀ l ∈ ls, P l) (hg : P g) :
    (∀ l ∈ (PSO.evalLoop f ps ls g).1, P l) ∧ P (PSO.evalLoop f ps ls g).2 := by
  induction ps generalizing ls g with
  | nil => cases ls <;> exact ⟨hl, hg⟩
  | cons p ps ih =>
    cases ls with
    | nil => exact ⟨hl, hg⟩
    | cons l ls =>
      have hp' : ∀ q ∈ ps, P (q, f q) := fun q hq => hp q (by simp [hq])
      have hl' : ∀ q ∈ ls, P q := fun q hq => hl q (by simp [hq])
      simp only [PSO.evalLoop]
      split
      · have hg' : P (if f p > g.2 then (p, f p) else g) := by
          split
          · exact hp p (by simp)
          · exact hg
        obtain ⟨a1, a2⟩ := ih hp' hl' hg'
        refine ⟨?_, a2⟩
        intro q hq
        rcases List.mem_cons.1 hq with rfl | hq
        · exact hp p (by simp)
        · exact a1 q hq
      · obtain ⟨a1, a2⟩ := ih hp' hl' hg
        refine ⟨?_, a2⟩
        intro q hq
        rcases List.mem_cons.1 hq with rfl | hq
        · exact hl _ (by simp)
        · exact a1 q hq

theorem evalLoop_length {f : List K → K} {ps : List (List K)} {ls : List (List K × K)} {g : List K × K} :
    (PSO.evalLoop f ps ls g).1.length = ls.length := by
  induction ps generalizing ls g with
  | nil => cases ls <;> rfl
  | cons p ps ih =>
    cases ls with
    | nil => rfl
    | cons l ls => simp only [PSO.evalLoop]; split <;> simp [ih]

/-- One generation of the swarm. -/
theorem psoStep_inv {c : Conf K} (hS : c.S.OK) (hmu : 1 ≤ c.mu ∧ c.mu < c.npop) {fit : List K → K} {w : K} {swm : List K × K} {step0 : ℕ}
    {dr : ℕ → PSO.Draw K} {ps : List (Part K × (List K × K))} {log : List (List K)}
    (hps : ∀ p ∈ ps, c.S.Feasible p.1.pos ∧ p.1.vel.length = c.S.bounds.length ∧ Rec c fit log p.2) (hswm : Rec c fit log swm)
    {o : PsoOut K} (h : psoStep c fit w swm step0 dr ps = .ok o) :
    o.log.length = c.npop ∧ (∀ z ∈ o.log, c.S.Feasible z) ∧ o.pars.length = c.mu ∧
    (∀ q ∈ o.pars, Rec c fit o.log (q.part.pos, q.fit) ∧ q.part.vel.length = c.S.bounds.length ∧ Rec c fit (log ++ o.log) q.loc) ∧
    Rec c fit (log ++ o.log) o.swm ∧ ∀ z ∈ o.log, ∃ q ∈ o.pars, fit z ≤ q.fit := by
  unfold psoStep at h
  split at h
  · cases h
  rename_i hlen
  have hlen : ps.length = c.npop := not_not.1 hlen
  split at h
  · cases h
  rename_i off hoff
  cases h
  obtain ⟨a1, a2⟩ := mapRows_ok hoff
  have hfeas : ∀ q ∈ off, c.S.Feasible q.pos ∧ q.vel.length = c.S.bounds.length := by
    intro q hq
    obtain ⟨k, hk⟩ := List.mem_iff_getElem?.1 hq
    obtain ⟨x, hx, e⟩ := a2 k q hk
    obtain ⟨b1, b2, b3⟩ := hps x (List.mem_of_getElem? hx)
    obtain ⟨e1, e2⟩ := updateParticle_ok hS b1 e
    exact ⟨e1, e2.trans b2⟩
  have hlog : ∀ z ∈ off.map (fun p => p.pos), c.S.Feasible z := by
    intro z hz
    obtain ⟨q, hq, rfl⟩ := List.mem_map.1 hz
    exact (hfeas q hq).1
  obtain ⟨r1, r2⟩ := evalLoop_rec (f := fit) (P := Rec c fit (log ++ off.map (fun p => p.pos))) (ps := off.map (fun p => p.pos))
    (ls := ps.map fun p => p.2) (g := swm) (fun p hp => ⟨hlog p hp, rfl, by simp only [List.mem_append]; exact Or.inr hp⟩)
    (fun l hl => by
      obtain ⟨p, hp, rfl⟩ := List.mem_map.1 hl
      exact (hps p hp).2.2.mono (fun z hz => by simp only [List.mem_append]; exact Or.inl hz))
    (hswm.mono (fun z hz => by simp only [List.mem_append]; exact Or.inl hz))
  have hzl : (off.zip (PSO.evalLoop fit (off.map fun p => p.pos) (ps.map fun p => p.2) swm).1).length = c.npop := by
    rw [List.length_zip, evalLoop_length, List.length_map, a1, hlen, Nat.min_self]
  refine ⟨by simp [a1, hlen], hlog, ?_, ?_, r2, ?_⟩
  · simp only [List.length_take, length_sortDesc, List.length_map, hzl]
    omega
  · intro q hq
    have hq := mem_sortDesc.1 (List.mem_of_mem_take hq)
    obtain ⟨p, hp, rfl⟩ := List.mem_map.1 hq
    have hp' := List.of_mem_zip (a := p.1) (b := p.2) hp
    exact ⟨⟨(hfeas _ hp'.1).1, rfl, List.mem_map.2 ⟨_, hp'.1, rfl⟩⟩, (hfeas _ hp'.1).2, r1 _ hp'.2⟩
  · intro z hz
    obtain ⟨q, hq, rfl⟩ := List.mem_map.1 hz
    obtain ⟨k, hk⟩ := List.mem_iff_getElem?.1 hq
    have hk' : k < (off.zip (PSO.evalLoop fit (off.map fun p => p.pos) (ps.map fun p => p.2) swm).1).length := by
      rw [hzl, ← hlen, ← a1]; exact (List.getElem?_eq_some_iff.1 hk).1
    have hkz := List.getElem?_eq_getElem hk'
    obtain ⟨e1, e2⟩ := List.getElem?_zip_eq_some.1 hkz
    rw [hk] at e1
    have e1 := Option.some.inj e1
    obtain ⟨b, hb, hle⟩ := select_cover (fun p : Par K => p.fit) hmu.1 (List.mem_map.2 ⟨_, List.getElem_mem hk', rfl⟩ :
      ({ part := _, fit := _, loc := _ } : Par K) ∈ (off.zip (PSO.evalLoop fit (off.map fun p => p.pos) (ps.map fun p => p.2) swm).1).map
        fun p => ({ part := p.1, fit := fit p.1.pos, loc := p.2 } : Par K))
    refine ⟨b, hb, ?_⟩
    rw [← e1] at hle
    exact hle

/-! ### Lemmas: evolution strategy -/

theorem esStep_inv {c : Conf K} (hS : c.S.OK) (hn : 2 ≤ c.S.bounds.length) (hmu : 1 ≤ c.mu ∧ c.mu < c.npop) {fit : List K → K}
    {dr : ℕ → ES.Draw K} {pop : List (Ind K)} (hl : ES.LenOK c.es pop) {os : List (List K × List K)}
    (h : ES.genOffspring c.es dr pop = .ok os) :
    os.length = c.npop ∧ (∀ z ∈ os.map (fun o => o.1), c.S.Feasible z) ∧
    (ES.select c.mu (os.map fun o => ({ ind := o.1, strat := o.2, fit := fit o.1 } : Ind K))).length = c.mu ∧
    (∀ e ∈ ES.select c.mu (os.map fun o => ({ ind := o.1, strat := o.2, fit := fit o.1 } : Ind K)),
      Rec c fit (os.map fun o => o.1) (e.ind, e.fit) ∧ e.strat.length = c.S.bounds.length) ∧
    ∀ z ∈ os.map (fun o => o.1), ∃ e ∈ ES.select c.mu (os.map fun o => ({ ind := o.1, strat := o.2, fit := fit o.1 } : Ind K)),
      fit z ≤ e.fit := by
  have hs : c.es.smin ≤ c.es.smax := by
    have h2 : (2 : K) ≤ (c.S.bounds.length : K) := by exact_mod_cast hn
    show (1 : K) / (c.S.bounds.length : K) ≤ 1 / 2
    exact one_div_le_one_div_of_le (by norm_num) h2
  obtain ⟨a1, a2, _⟩ := ES.genOffspring_ok (c := c.es) hS hs hl h
  have a1 : os.length = c.npop := a1
  refine ⟨a1, ?_, ?_, ?_, ?_⟩
  · intro z hz
    obtain ⟨o, ho, rfl⟩ := List.mem_map.1 hz
    exact (a2 o ho).1
  · simp only [ES.select, List.length_take, length_sortDesc, List.length_map, a1]
    omega
  · intro e he
    have := ES.mem_select he
    obtain ⟨o, ho, rfl⟩ := List.mem_map.1 this
    exact ⟨⟨(a2 o ho).1, rfl, List.mem_map.2 ⟨o, ho, rfl⟩⟩, (a2 o ho).2⟩
  · intro z hz
    obtain ⟨o, ho, rfl⟩ := List.mem_map.1 hz
    obtain ⟨b, hb, hle⟩ := select_cover (fun e : Ind K => e.fit) hmu.1 (List.mem_map.2 ⟨o, ho, rfl⟩ :
      ({ ind := o.1, strat := o.2, fit := fit o.1 } : Ind K) ∈ os.map fun o => ({ ind := o.1, strat := o.2, fit := fit o.1 } : Ind K))
    exact ⟨b, hb, hle⟩

/-! ### Lemmas: the engine -/

theorem Same.trans {m1 m2 m3 : Mem (Sample K)} (h : Same m1 m2) (h' : Same m2 m3) : Same m1 m3 :=
  ⟨h'.1.trans h.1, h'.2.1.trans h.2.1, h'.2.2.trans h.2.2⟩

theorem resample_ok {c : Conf K} {d : GDraw K} {alpha : K} {mem mem' : Mem (Sample K)} {pop pop' : List (Ind K)} {pars : List (Par K)}
    {swarm : List (Part K × (List K × K))} {chains : List (List K × K)}
    (h : resample c d alpha mem pop pars = .ok (mem', pop', swarm, chains)) :
    Same mem mem' ∧
    (pop'.length = pop.length + c.mu ∧ ∀ e ∈ pop', e ∈ pop ∨ ∃ b ∈ mem.storage, e.ind = b.1 ∧ e.strat.length = c.S.bounds.length) ∧
    (swarm.length = pars.length + (c.npop - c.mu) ∧ ∀ p ∈ swarm, (∃ q ∈ pars, p = (q.part, q.loc)) ∨
      ∃ b ∈ mem.storage, p = ({ pos := b.1, vel := vel0 b.1 }, (b.1, b.2.1))) ∧
    (chains.length = c.nc ∧ ∀ p ∈ chains, ∃ b ∈ mem.storage, p = (b.1, b.2.1)) := by
  unfold resample at h
  split at h
  · cases h
  rename_i m1 es h1
  split at h
  · cases h
  rename_i m2 ps h2
  split at h
  · cases h
  rename_i m3 ss h3
  cases h
  obtain ⟨a1, a2, a3⟩ := ER.samplePrior_ok h1
  obtain ⟨b1, b2, b3⟩ := ER.samplePrior_ok h2
  obtain ⟨d1, d2, d3⟩ := ER.samplePrior_ok h3
  have s1 : Same mem m1 := by rw [a1]; exact (Same.rfl' mem).sort
  have s2 : Same mem m2 := by rw [b1]; exact s1.sort
  have s3 : Same mem mem' := by rw [d1]; exact s2.sort
  refine ⟨s3, ⟨by simp [a2], ?_⟩, ⟨by simp [b2], ?_⟩, by simp [d2], ?_⟩
  · intro e he
    rcases List.mem_append.1 he with he | he
    · exact Or.inl he
    · obtain ⟨k, hk⟩ := List.mem_iff_getElem?.1 he
      rw [List.getElem?_mapIdx] at hk
      cases hb : es[k]? with
      | none => rw [hb] at hk; cases hk
      | some b =>
        rw [hb] at hk
        simp only [Option.map_some, Option.some.injEq] at hk
        refine Or.inr ⟨b, a3 b (List.mem_of_getElem? hb), ?_, ?_⟩
        · rw [← hk]
        · rw [← hk]; simp
  · intro p hp
    rcases List.mem_append.1 hp with hp | hp
    · obtain ⟨q, hq, rfl⟩ := List.mem_map.1 hp
      exact Or.inl ⟨q, hq, rfl⟩
    · obtain ⟨b, hb, rfl⟩ := List.mem_map.1 hp
      exact Or.inr ⟨b, s1.mem.1 (b3 b hb), rfl⟩
  · intro p hp
    obtain ⟨b, hb, rfl⟩ := List.mem_map.1 hp
    exact ⟨b, s2.mem.1 (d3 b hb), rfl⟩

/-- How many samples a generation hands to the memory. -/
def Conf.per (c : Conf K) : ℕ := 2 * c.nc + 2 * c.mu

/-- What holds after `g` generations with `n0` warmup samples. -/
structure Inv (c : Conf K) (fit : List K → K) (n0 g : ℕ) (s : State K) : Prop where
  size : s.mem.size = c.cap
  mem : MemOK c fit s.log s.mem.storage
  ne : s.mem.storage ≠ []
  lens : ES.LenOK c.es s.pop
  npop : s.pop.length = if g = 0 then c.npop else 2 * c.mu
  nchains : s.chains.length = min c.nc n0 ∨ s.chains.length = c.nc
  chains : ∀ p ∈ s.chains, Rec c fit s.log p
  nswarm : s.swarm.length = c.npop
  swarm : ∀ p ∈ s.swarm, c.S.Feasible p.1.pos ∧ p.1.vel.length = c.S.bounds.length ∧ Rec c fit s.log p.2
  swm : Rec c fit s.log s.swm
  step0 : s.step0 = 1 + g * c.npop
  alpha : s.alpha = if g = 0 then c.alpha0 else linearAnneal (1 + g * c.npop) c.steps c.alpha0 c.alpha1
  feas : ∀ z ∈ s.log, c.S.Feasible z
  len : s.log.length = n0 + g * (3 * c.npop)
  steps : s.steps = (List.range (g * c.npop)).map (fun i => 1 + i)
  nhist : s.hist.length = g
  att : ∀ y ∈ s.hist, ∃ z ∈ s.log, fit z = y
  best : g ≠ 0 → ∃ b ∈ s.mem.storage, s.best = some b ∧ s.hist.getLast? = some b.2.1 ∧ ∀ e ∈ s.mem.storage, e.2.1 ≤ b.2.1
  keep : n0 + g * c.per ≤ c.cap → ER.NW s.mem (n0 + g * c.per) ∧ (∀ z ∈ s.log, ∃ e ∈ s.mem.storage, fit z ≤ e.2.1) ∧
    HistBest false fit n0 (3 * c.npop) s.log s.hist

theorem length_tagged (t : Tag) (l : List (List K × K)) : (tagged t l).length = l.length := by simp [tagged]

theorem mem_tagged {t : Tag} {l : List (List K × K)} {e : Sample K} (h : e ∈ tagged t l) : (e.1, e.2.1) ∈ l := by
  obtain ⟨p, hp, rfl⟩ := List.mem_map.1 h
  exact hp

theorem init_inv {c : Conf K} (hmu : 1 ≤ c.mu ∧ c.mu < c.npop) {fit : List K → K} {pop0 : List (List K × List K)}
    (hlen : c.npop ≤ pop0.length) (hp : ∀ p ∈ pop0, c.S.Feasible p.1 ∧ p.2.length = c.S.bounds.length) {s : State K}
    (h : init c fit pop0 = .ok s) : Inv c fit pop0.length 0 s := by
  unfold init at h
  simp only at h
  split at h
  · cases h
  rename_i mem hmem
  split at h
  · cases h
  rename_i b hb
  cases h
  set all : List (Ind K) := pop0.map fun p => { ind := p.1, strat := p.2, fit := fit p.1 } with hall
  have hall' : ∀ e ∈ all, Rec c fit (all.map fun e => e.ind) (e.ind, e.fit) ∧ e.strat.length = c.S.bounds.length := by
    intro e he
    obtain ⟨p, hp', rfl⟩ := List.mem_map.1 he
    exact ⟨⟨(hp p hp').1, rfl, List.mem_map.2 ⟨_, he, rfl⟩⟩, (hp p hp').2⟩
  have hs : ∀ {k : ℕ} {e : Ind K}, e ∈ (sortDesc (fun e : Ind K => e.fit) all).take k → e ∈ all :=
    fun he => mem_sortDesc.1 (List.mem_of_mem_take he)
  obtain ⟨m1, m2, m3, m4⟩ := ER.add_ok hmem
  have hal : all.length = pop0.length := by simp [hall]
  refine ⟨m1, ?_, ?_, ?_, ?_, ?_, ?_, ?_, ?_, ?_, by simp, by simp, ?_, ?_, by simp, rfl, by simp, by simp, ?_⟩
  · intro e he
    rcases m2 e he with he | he
    · have := mem_tagged he
      obtain ⟨a, ha, e1⟩ := List.mem_map.1 this
      have e2 := (hall' a ha).1
      rw [e1] at e2
      exact e2
    · simp [ER.new] at he
  · apply m3
    left
    intro h0
    have := congrArg List.length h0
    rw [length_tagged] at this
    simp [hal] at this
    rw [this] at hlen
    simp at hlen
    omega
  · intro p hp'
    have := hs hp'
    exact ⟨(hall' p this).1.1.1.length_eq, (hall' p this).2⟩
  · simp [hal]; omega
  · left; simp [hal]
  · intro p hp'
    obtain ⟨e, he, rfl⟩ := List.mem_map.1 hp'
    exact (hall' e (hs he)).1
  · simp [hal]; omega
  · intro p hp'
    obtain ⟨e, he, rfl⟩ := List.mem_map.1 hp'
    have := (hall' e (hs he)).1
    exact ⟨this.1, by simp [vel0]; exact this.1.1.length_eq, this⟩
  · exact (hall' b (mem_sortDesc.1 (List.mem_of_mem_head? hb))).1
  · intro z hz
    obtain ⟨e, he, rfl⟩ := List.mem_map.1 hz
    exact (hall' e he).1.1
  · simp [hal]
  · intro hcap
    rw [Nat.zero_mul, Nat.add_zero] at hcap
    have hnw : ER.NW (ER.new c.cap : Mem (Sample K)) 0 := ⟨by simp [ER.new], by simp [ER.new]⟩
    obtain ⟨k1, k2, k3⟩ := ER.add_keep hnw (by rw [length_tagged]; simp [hal]; exact hcap) hmem
    rw [length_tagged] at k1
    refine ⟨?_, ?_, ?_⟩
    · refine k1.mono ?_
      simp [hal]
    · intro z hz
      obtain ⟨e, he, rfl⟩ := List.mem_map.1 hz
      refine ⟨(e.ind, e.fit, .na), k3 _ ?_, ?_⟩
      · exact List.mem_map.2 ⟨(e.ind, e.fit), List.mem_map.2 ⟨e, he, rfl⟩, rfl⟩
      · exact le_of_eq (hall' e he).1.2.1.symm
    · have := histBest_nil false fit (3 * c.npop) (all.map fun e => e.ind)
      simpa [hal] using this

theorem CInv.len {Good : List K → Prop} {Cand : ℕ → List K → List K → Prop} {fit : List K → K} {accP : K → K → K} {temp u : ℕ → K}
    {x0 : List K} {k0 n : ℕ} {s : SA.Chain K} (h : CInv Good Cand fit accP temp u x0 k0 n s) : s.trace.length = n := by
  simpa using congrArg List.length h.steps

/-- Draws with float samples in `[0, 1]`. -/
def GDraw.OK (d : GDraw K) : Prop := ∀ j, (d.sa j).OK

theorem flatMap_length {β γ : Type} {l : List β} {f : β → List γ} {q : ℕ} (h : ∀ a ∈ l, (f a).length = q) :
    (l.flatMap f).length = l.length * q := by
  induction l with
  | nil => simp
  | cons a l ih =>
    rw [List.flatMap_cons, List.length_append, h a (by simp), ih fun b hb => h b (by simp [hb]), List.length_cons]
    ring

theorem gen_inv {c : Conf K} (hS : c.S.OK) (hn : 2 ≤ c.S.bounds.length) (hmu : 1 ≤ c.mu ∧ c.mu < c.npop) {fit : List K → K} {n0 g : ℕ}
    {d : GDraw K} (hd : d.OK) {s s' : State K} (hi : Inv c fit n0 g s) (h : gen c fit d s = .ok s') : Inv c fit n0 (g + 1) s' := by
  unfold gen at h
  split at h
  · cases h
  rename_i os hos
  simp only at h
  split at h
  · cases h
  rename_i chs hchs
  split at h
  · cases h
  rename_i po hpo
  split at h
  · cases h
  rename_i mem1 hmem1
  split at h
  · cases h
  rename_i mem2 pop2 swarm2 chains2 hres
  split at h
  · cases h
  rename_i mem3 b hb
  cases h
  obtain ⟨e1, e2, e3, e4, e5⟩ := esStep_inv hS hn hmu (fit := fit) hi.lens hos
  obtain ⟨c0, c1, c2, c3⟩ := anneal_inv hS hd hi.mem (fun p hp => ⟨(hi.chains p hp).1, (hi.chains p hp).2.1⟩)
    (by rw [hi.step0]; omega) hchs
  obtain ⟨p1, p2, p3, p4, p5, p6⟩ := psoStep_inv hS hmu hi.swarm hi.swm hpo
  set pop1 := ES.select c.mu (os.map fun o => ({ ind := o.1, strat := o.2, fit := fit o.1 } : Ind K)) with hpop1
  set l1 := os.map (fun o => o.1) with hl1
  set l2 := chs.flatMap (fun h => h.c.trace.map (fun e => e.cand)) with hl2
  set new := l1 ++ (l2 ++ po.log) with hnew
  -- chains
  have hch : ∀ h ∈ chs, (Rec c fit (s.log ++ new) (h.c.x, h.c.E) ∧ Rec c fit (s.log ++ new) (h.c.xb, h.c.Eb)) ∧
      (∀ z ∈ h.c.trace.map (fun e => e.cand), c.S.Feasible z ∧ fit z ≤ h.c.Eb) ∧ h.c.trace.length = c.npop / c.nc ∧ Same s.mem h.mem := by
    intro h hh
    obtain ⟨j, hj⟩ := List.mem_iff_getElem?.1 hh
    obtain ⟨p, hp, hI, hsame⟩ := c3 j h hj
    have hpr := hi.chains p (List.mem_of_getElem? hp)
    have hin : ∀ z ∈ p.1 :: h.c.trace.map (fun e => e.cand), c.S.Feasible z ∧ z ∈ s.log ++ new := by
      intro z hz
      rcases List.mem_cons.1 hz with rfl | hz
      · exact ⟨hpr.1, List.mem_append_left _ hpr.2.2⟩
      · obtain ⟨e, he, rfl⟩ := List.mem_map.1 hz
        refine ⟨hI.box.2 e he, List.mem_append_right _ (List.mem_append_right _ (List.mem_append_left _ ?_))⟩
        exact List.mem_flatMap.2 ⟨h, hh, hz⟩
    refine ⟨⟨⟨hI.box.1, hI.cur, (hin _ hI.mem).2⟩, ⟨(hin _ hI.best.1).1, hI.best.2.1, (hin _ hI.best.1).2⟩⟩, ?_, hI.len, hsame⟩
    intro z hz
    refine ⟨(hin z (List.mem_cons_of_mem _ hz)).1, ?_⟩
    have := hI.best.2.2 z (List.mem_cons_of_mem _ hz)
    simpa [NotWorse] using this
  have hl2len : l2.length = c.npop := by
    rw [hl2, flatMap_length (q := c.npop / c.nc) (fun h hh => by rw [List.length_map]; exact (hch h hh).2.2.1), c2, c1]
  have hnewlen : new.length = 3 * c.npop := by
    rw [hnew, List.length_append, List.length_append, hl2len, p1, hl1, List.length_map, e1]; ring
  have hnewf : ∀ z ∈ new, c.S.Feasible z := by
    intro z hz
    rcases List.mem_append.1 hz with hz | hz
    · exact e2 z hz
    · rcases List.mem_append.1 hz with hz | hz
      · obtain ⟨h, hh, hz⟩ := List.mem_flatMap.1 hz
        exact ((hch h hh).2.1 z hz).1
      · exact p2 z hz
  -- memory
  set mem0 := (if c.proc = true then s.mem else (chs.head?.map (fun h : SChain K => h.mem)).getD s.mem) with hmem0
  have hsame0 : Same s.mem mem0 := by
    rw [hmem0]
    split
    · exact Same.rfl' _
    · cases hh : chs.head? with
      | none => exact Same.rfl' _
      | some h => exact (hch h (List.mem_of_mem_head? hh)).2.2.2
  unfold memoryUpdate at hmem1
  obtain ⟨m1, m2, m3, m4⟩ := ER.addAll_ok hmem1
  obtain ⟨r1, ⟨r2, r3⟩, ⟨r4, r5⟩, r6, r7⟩ := resample_ok hres
  obtain ⟨b1, b2, b3⟩ := ER.greedyOne_ok hb
  have hsame3 : Same mem1 mem3 := by rw [b1]; exact r1.sort
  have hold : ∀ z ∈ s.log, z ∈ s.log ++ new := fun z hz => List.mem_append_left _ hz
  have hmem : MemOK c fit (s.log ++ new) mem1.storage := by
    intro e he
    rcases m2 e he with ⟨bl, hbl, he⟩ | he
    · simp only [List.mem_cons, List.not_mem_nil, or_false] at hbl
      rcases hbl with rfl | rfl | rfl | rfl
      · obtain ⟨h, hh, e0⟩ := List.mem_map.1 (mem_tagged he)
        have := (hch h hh).1.1
        rw [e0] at this
        exact this
      · obtain ⟨h, hh, e0⟩ := List.mem_map.1 (mem_tagged he)
        have := (hch h hh).1.2
        rw [e0] at this
        exact this
      · obtain ⟨h, hh, e0⟩ := List.mem_map.1 (mem_tagged he)
        have := (e4 h hh).1
        rw [e0] at this
        exact this.mono fun z hz => List.mem_append_right _ (List.mem_append_left _ hz)
      · obtain ⟨h, hh, e0⟩ := List.mem_map.1 (mem_tagged he)
        have := (p4 h hh).1
        rw [e0] at this
        exact this.mono fun z hz => List.mem_append_right _ (List.mem_append_right _ (List.mem_append_right _ hz))
    · obtain ⟨f1, f2, f3⟩ := hi.mem e (hsame0.mem.1 he)
      exact ⟨f1, f2, hold _ f3⟩
  have hmem3 : MemOK c fit (s.log ++ new) mem3.storage := fun e he => hmem e (hsame3.mem.1 he)
  have hb1 : b ∈ mem1.storage := r1.mem.1 b2
  have hbmax : ∀ e ∈ mem1.storage, e.2.1 ≤ b.2.1 := fun e he => b3 e (r1.mem.2 he)
  refine ⟨?_, hmem3, ?_, ?_, ?_, Or.inr r6, ?_, ?_, ?_, ?_, ?_, ?_, ?_, ?_, ?_, ?_, ?_, ?_, ?_⟩
  · show mem3.size = c.cap
    rw [hsame3.1, m1, hsame0.1, hi.size]
  · intro h0
    have := hsame3.mem.2 hb1
    rw [show mem3.storage = [] from h0] at this
    cases this
  · intro p hp
    rcases r3 p hp with hp | ⟨q, hq, q1, q2⟩
    · exact ⟨(e4 p hp).1.1.1.length_eq, (e4 p hp).2⟩
    · exact ⟨by rw [q1]; exact (hmem q hq).1.1.length_eq, q2⟩
  · show pop2.length = _
    rw [r2, e3, if_neg (by omega)]; ring
  · intro p hp
    obtain ⟨q, hq, rfl⟩ := r7 p hp
    exact hmem q hq
  · show swarm2.length = _
    rw [r4, p3]; omega
  · intro p hp
    rcases r5 p hp with ⟨q, hq, rfl⟩ | ⟨q, hq, rfl⟩
    · obtain ⟨q1, q2, q3⟩ := p4 q hq
      refine ⟨q1.1, q2, q3.mono ?_⟩
      intro z hz
      rcases List.mem_append.1 hz with hz | hz
      · exact hold z hz
      · exact List.mem_append_right _ (List.mem_append_right _ (List.mem_append_right _ hz))
    · exact ⟨(hmem q hq).1, by simp [vel0]; exact (hmem q hq).1.1.length_eq, hmem q hq⟩
  · refine p5.mono ?_
    intro z hz
    rcases List.mem_append.1 hz with hz | hz
    · exact hold z hz
    · exact List.mem_append_right _ (List.mem_append_right _ (List.mem_append_right _ hz))
  · show s.step0 + c.npop = _
    rw [hi.step0]; ring
  · show linearAnneal (s.step0 + c.npop) _ _ _ = _
    rw [hi.step0, if_neg (by omega), show 1 + g * c.npop + c.npop = 1 + (g + 1) * c.npop by ring]
  · intro z hz
    rcases List.mem_append.1 hz with hz | hz
    · exact hi.feas z hz
    · exact hnewf z hz
  · show (s.log ++ new).length = _
    rw [List.length_append, hi.len, hnewlen]; ring
  · show s.steps ++ chs.flatMap (fun h => h.c.trace.map (fun e => e.step)) = _
    have := SA.flatten_blocks (npop := c.npop / c.nc) (chs.map fun h => h.c.trace.map (fun e => e.step)) (1 + g * c.npop) (by
      intro j l hj
      rw [List.getElem?_map] at hj
      cases hk : chs[j]? with
      | none => rw [hk] at hj; cases hj
      | some h =>
        rw [hk] at hj
        cases hj
        obtain ⟨p, hp, hI, _⟩ := c3 j h hk
        show h.c.trace.map (fun e => e.step) = _
        rw [hI.steps, hi.step0])
    rw [List.flatMap_def, this, List.length_map, c2, c1, hi.steps, Nat.add_mul, Nat.one_mul, List.range_add, List.map_append, List.map_map]
    congr 1
    apply List.map_congr_left
    intro i _
    simp only [Function.comp]
    ring
  · show (s.hist ++ [b.2.1]).length = _
    simp [hi.nhist]
  · intro y hy
    rcases List.mem_append.1 hy with hy | hy
    · obtain ⟨z, hz, e⟩ := hi.att y hy
      exact ⟨z, hold z hz, e⟩
    · rw [List.mem_singleton.1 hy]
      obtain ⟨f1, f2, f3⟩ := hmem b hb1
      exact ⟨b.1, f3, f2.symm⟩
  · intro _
    refine ⟨b, hsame3.mem.2 hb1, rfl, by simp, fun e he => hbmax e (hsame3.mem.1 he)⟩
  · intro hcap
    have hcap' : n0 + g * c.per ≤ c.cap := by
      refine le_trans ?_ hcap
      have : g * c.per ≤ (g + 1) * c.per := Nat.mul_le_mul_right _ (by omega)
      omega
    obtain ⟨k1, k2, k3⟩ := hi.keep hcap'
    have hsum : ([tagged Tag.sanext (chs.map fun s => (s.c.x, s.c.E)), tagged .sabest (chs.map fun s => (s.c.xb, s.c.Eb)),
        tagged .es (pop1.map fun e => (e.ind, e.fit)), tagged .pso (po.pars.map fun p => (p.part.pos, p.fit))].map List.length).sum = c.per := by
      simp only [List.map_cons, List.map_nil, List.sum_cons, List.sum_nil, length_tagged, List.length_map, c2, e3, p3, Conf.per]
      ring
    have hnext : n0 + g * c.per + c.per = n0 + (g + 1) * c.per := by ring
    obtain ⟨q1, q2, q3⟩ := ER.addAll_keep (hsame0.nw k1) (by rw [hsum, hsame0.1, hi.size, hnext]; exact hcap) hmem1
    rw [hsum, hnext] at q1
    have hcover : ∀ z ∈ s.log ++ new, ∃ e ∈ mem1.storage, fit z ≤ e.2.1 := by
      intro z hz
      rcases List.mem_append.1 hz with hz | hz
      · obtain ⟨e, he, hle⟩ := k2 z hz
        exact ⟨e, q2 e (hsame0.mem.2 he), hle⟩
      rcases List.mem_append.1 hz with hz | hz
      · obtain ⟨e, he, hle⟩ := e5 z hz
        refine ⟨(e.ind, e.fit, .es), q3 (tagged .es (pop1.map fun e => (e.ind, e.fit))) (by simp) _ ?_, hle⟩
        exact List.mem_map.2 ⟨(e.ind, e.fit), List.mem_map.2 ⟨e, he, rfl⟩, rfl⟩
      rcases List.mem_append.1 hz with hz | hz
      · obtain ⟨h, hh, hz⟩ := List.mem_flatMap.1 hz
        refine ⟨(h.c.xb, h.c.Eb, .sabest), q3 (tagged .sabest (chs.map fun s => (s.c.xb, s.c.Eb))) (by simp) _ ?_, ((hch h hh).2.1 z hz).2⟩
        exact List.mem_map.2 ⟨(h.c.xb, h.c.Eb), List.mem_map.2 ⟨h, hh, rfl⟩, rfl⟩
      · obtain ⟨q, hq, hle⟩ := p6 z hz
        refine ⟨(q.part.pos, q.fit, .pso), q3 (tagged .pso (po.pars.map fun p => (p.part.pos, p.fit))) (by simp) _ ?_, hle⟩
        exact List.mem_map.2 ⟨(q.part.pos, q.fit), List.mem_map.2 ⟨q, hq, rfl⟩, rfl⟩
    refine ⟨hsame3.nw q1, ?_, ?_⟩
    · intro z hz
      obtain ⟨e, he, hle⟩ := hcover z hz
      exact ⟨e, hsame3.mem.2 he, hle⟩
    · refine k3.step hnewlen ⟨⟨b.1, (hmem b hb1).2.2, (hmem b hb1).2.1.symm⟩, ?_⟩
      intro z hz
      obtain ⟨e, he, hle⟩ := hcover z hz
      have := hle.trans (hbmax e he)
      simpa [NotWorse] using this

theorem run_inv {c : Conf K} (hS : c.S.OK) (hn : 2 ≤ c.S.bounds.length) (hmu : 1 ≤ c.mu ∧ c.mu < c.npop) {fit : List K → K}
    {dr : ℕ → GDraw K} (hd : ∀ g, (dr g).OK) {pop0 : List (List K × List K)} (hlen : c.npop ≤ pop0.length)
    (hp : ∀ p ∈ pop0, c.S.Feasible p.1 ∧ p.2.length = c.S.bounds.length) (g : ℕ) {s : State K}
    (h : run c fit dr pop0 g = .ok s) : Inv c fit pop0.length g s := by
  induction g generalizing s with
  | zero => exact init_inv hmu hlen hp h
  | succ g ih =>
    simp only [run] at h
    split at h
    · cases h
    · rename_i s0 hs0
      exact gen_inv hS hn hmu (hd g) (ih hs0) h

end

end Neorl.PESA

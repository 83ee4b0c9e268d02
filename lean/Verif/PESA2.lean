import Verif.PESA
import Verif.Seeded
import Verif.GWO
import Verif.WOA
import Verif.DE

/-!
# PESA2

Model of `neorl/hybrid/pesa2.py`: grey wolves, differential evolution and whales share a prioritised replay memory.  The three methods
`neorl/hybrid/pesacore/gwo.py`, `de.py` and `woa.py` are copies of `evolu/gwo.py`, `evolu/de.py` (without the RL individuals) and
`evolu/woa.py` (without keyword arguments, `a0 = 2`, `b = 1`) that return the last population with its fitness; the models of those files are
reused.  The warmup samples are those of `ESMod.init_pop`, as in `Verif/PESA.lean`.

Lists are values here.  In the code a list that DE returns also sits in the memory, and DE repairs its targets in place; the last section models
that sharing.  Not modelled: worker processes (`PROC`, lines 313-338), grid variables (`Verif/Grid.lean`), printing.
-/

set_option linter.unusedSectionVars false
set_option linter.unusedVariables false

namespace Neorl.PESA2

open ER (Mem Sample Tag objOf tagged addAll greedyOne)

section
variable {K : Type} [Field K] [LinearOrder K] [IsStrictOrderedRing K] [FloorRing K]

/-- Arguments of the constructor and of `evolute`, `neorl/hybrid/pesa2.py` lines 81-86 and 225.  `wolvesArg`, `whalesArg` are the arguments
`nwolves`, `nwhales`; `ngenArg` is the argument `ngen` of `evolute`; `memSize` is the attribute `self.memory_size` (0 for `None`);
`spiral l` is `exp(l) * cos(2 * pi * l)`; `pow a r` is `r ** a`; `stream` are the
uniform numbers of the reseeded generator (`Verif/Seeded.lean`). -/
structure Conf (K : Type) where
  S : Space K
  npop : ℕ
  wolvesArg : ℕ
  whalesArg : ℕ
  rfrac : K
  F : K
  CR : K
  ncores : ℕ
  ngenArg : ℕ
  replay : ℕ
  memSize : ℕ
  alpha0 : K
  alpha1 : K
  spiral : K → K
  pow : K → K → K
  stream : ℕ → K

/-- `self.NWOLVES`, lines 104-108 and 146. -/
def Conf.nwolves (c : Conf K) : ℕ := if 1 < c.ncores ∧ c.npop ≤ c.wolvesArg then c.npop else c.wolvesArg

/-- `self.NWHALES`, lines 110-113 and 151. -/
def Conf.nwhales (c : Conf K) : ℕ := if 1 < c.ncores ∧ c.npop ≤ c.whalesArg then c.npop else c.whalesArg

/-- `self.GWO_gen * replay_every`, lines 116-119 and 344. -/
def Conf.gIn (c : Conf K) : ℕ := max 1 (c.npop / c.nwolves) * c.replay

/-- `self.WOA_gen * replay_every`, lines 117-121 and 346. -/
def Conf.wIn (c : Conf K) : ℕ := max 1 (c.npop / c.nwhales) * c.replay

/-- `int(R_frac * n)`, lines 161-164. -/
def Conf.mu (c : Conf K) (n : ℕ) : ℕ := ⌊c.rfrac * (n : K)⌋.toNat

/-- `self.NGEN`, line 240. -/
def Conf.ngen (c : Conf K) : ℕ := c.ngenArg / c.replay

/-- `self.STEPS`, line 241. -/
def Conf.steps (c : Conf K) : ℕ := c.ngen * c.npop

/-- `self.MEMORY_SIZE`, lines 242-245. -/
def Conf.cap (c : Conf K) : ℕ := if c.memSize ≠ 0 then c.memSize else c.steps * 3 + 1

/-- `GWOmod(...)`, lines 281-282 (`pesacore/gwo.py`: `a` falls from 2 to 0). -/
def Conf.gwo (c : Conf K) : GWO.Conf K := { S := c.S, nwolves := c.nwolves, ngen := c.gIn, a := none }

/-- `DEmod(...)`, lines 284-286. -/
def Conf.de (c : Conf K) : DE.Conf K := { S := c.S, F := c.F, CR := c.CR, npop := c.npop, ngen := c.replay }

/-- `WOAmod(...)`, lines 288-289, with the defaults `a0=2`, `b=1` of `pesacore/woa.py` line 70. -/
def Conf.woa (c : Conf K) : WOA.Conf K :=
  { S := c.S, nwhales := c.nwhales, ngen := c.wIn, a0 := 2, spiral := c.spiral, kwA := none, kwFac := none }

/-- Draws of one generation: those of the three methods.  (The samples drawn from the memory are determined by `Conf.stream`.) -/
structure GDraw (K : Type) where
  gwo : ℕ → GWO.Draw K
  de : ℕ → ℕ → DE.Draw K
  woa : ℕ → ℕ → WOA.Draw K

/-- Ghost record of one generation: where the three methods start, what they evaluate. -/
structure Block (K : Type) where
  gStart : List (List K)
  dStart : List (List K)
  wStart : List (List K)
  gLog : List (List K)
  dLog : List (List K)
  wLog : List (List K)

/-- State between generations; `runs` is a ghost. -/
structure State (K : Type) where
  mem : Mem (Sample K)
  gwo : List (List K)
  de : List (List K)
  woa : List (List K)
  step0 : ℕ
  alpha : K
  best : Option (Sample K)
  hist : List K
  runs : List (Block K)

/-- The initial memory, lines 271-273, and the starting populations, lines 279-299 and `init_guess`, lines 503-519. -/
def init (c : Conf K) (fit : List K → K) (pop0 : List (List K)) : Py (State K) :=
  let all : List (List K × K) := pop0.map fun x => (x, fit x)
  match ER.add (ER.new c.cap) (tagged .na all) with
  | .error e => .error e
  | .ok mem =>
    let sorted := (sortDesc (fun e : List K × K => e.2) all).map fun e => e.1
    .ok { mem := mem, gwo := sorted.take c.nwolves, de := sorted.take c.npop, woa := sorted.take c.nwhales, step0 := 1, alpha := c.alpha0
          best := none, hist := [], runs := [] }

/-- `select`, lines 425-448. -/
def select (k : ℕ) (pop : List (List K × K)) : List (List K × K) := (sortDesc (fun e : List K × K => e.2) pop).take k

/-- `memory_update`, lines 450-461. -/
def memoryUpdate (mem : Mem (Sample K)) (g d w : List (List K × K)) : Py (Mem (Sample K)) :=
  addAll mem [tagged .gwo g, tagged .de d, tagged .woa w]

/-- One of the three blocks of `resample`, lines 463-501: fill the population with `k` prioritised samples. -/
def fill (c : Conf K) (alpha : K) (k : ℕ) (mem : Mem (Sample K)) (pop : List (List K × K)) : Py (Mem (Sample K) × List (List K)) :=
  match ER.sampleSeeded (c.pow alpha) c.stream mem k with
  | .error e => .error e
  | .ok (m, es) => .ok (m, pop.map (fun p => p.1) ++ es.map fun e => e.1)

/-- One generation, lines 304-398. -/
def gen (c : Conf K) (fit : List K → K) (d : GDraw K) (s : State K) : Py (State K) :=
  match GWO.evolute c.gwo false fit d.gwo s.gwo with
  | .error e => .error e
  | .ok g =>
    match DE.evolute c.de false fit d.de (fun _ => []) s.de with
    | .error e => .error e
    | .ok e =>
      match WOA.evolute c.woa false fit d.woa s.woa with
      | .error e => .error e
      | .ok w =>
        let gp := select (c.mu c.nwolves) g.lastPop
        let ep := select (c.mu c.npop) e.lastPop
        let wp := select (c.mu c.nwhales) w.lastPop
        match memoryUpdate s.mem gp ep wp with
        | .error e => .error e
        | .ok m0 =>
          match fill c s.alpha (c.nwolves - c.mu c.nwolves) m0 gp with
          | .error e => .error e
          | .ok (m1, g') =>
            match fill c s.alpha (c.npop - c.mu c.npop) m1 ep with
            | .error e => .error e
            | .ok (m2, e') =>
              match fill c s.alpha (c.nwhales - c.mu c.nwhales) m2 wp with
              | .error e => .error e
              | .ok (m3, w') =>
                match greedyOne m3 with
                | .error e => .error e
                | .ok (m4, b) =>
                  .ok { mem := m4, gwo := g', de := e', woa := w', step0 := s.step0 + c.npop
                        alpha := PESA.linearAnneal (s.step0 + c.npop) c.steps c.alpha0 c.alpha1, best := some b
                        hist := s.hist ++ [b.2.1]
                        runs := s.runs ++ [{ gStart := s.gwo, dStart := s.de, wStart := s.woa, gLog := g.log, dLog := e.log, wLog := w.log }] }

/-- `n` generations. -/
def run (c : Conf K) (fit : List K → K) (dr : ℕ → GDraw K) (pop0 : List (List K)) : ℕ → Py (State K)
  | 0 => init c fit pop0
  | n + 1 =>
    match run c fit dr pop0 n with
    | .error e => .error e
    | .ok s => gen c fit (dr n) s

/-- What `evolute` returns, the attribute `self.memory_size` it leaves behind (line 382), and the ghosts. -/
structure Result (K : Type) where
  x : List K
  y : K
  hist : List K
  memSize : ℕ
  warm : List (List K)
  runs : List (Block K)

/-- Constructor checks of lines 104-121 and 161 (`int(npop/nwolves)` divides by zero for no wolves). -/
def checkArgs (c : Conf K) : Py Unit :=
  if 1 < c.ncores ∧ c.wolvesArg < c.npop ∧ (c.wolvesArg = 0 ∨ ¬ c.wolvesArg ∣ c.npop) then
    (if c.wolvesArg = 0 then .error .zeroDivision else .error .assertion) else
  if 1 < c.ncores ∧ c.whalesArg < c.npop ∧ (c.whalesArg = 0 ∨ ¬ c.whalesArg ∣ c.npop) then
    (if c.whalesArg = 0 then .error .zeroDivision else .error .assertion) else
  if c.nwolves = 0 ∨ c.nwhales = 0 then .error .zeroDivision else
  if ¬ (0 ≤ c.rfrac ∧ c.rfrac ≤ 1) then .error .assertion else .ok ()

/-- `evolute`, lines 225-410.  `m` is `mode == 'min'`; `pop0` holds `x0` or the warmup samples (both need at least `npop`, lines 255 and
263).  `DEmod` asserts `npop > 4` (line 57 of `pesacore/de.py`).  With `NGEN = 0` the attribute `xbest_correct` does not exist. -/
def evolute (c : Conf K) (m : Bool) (userFit : List K → K) (dr : ℕ → GDraw K) (pop0 : List (List K)) : Py (Result K) :=
  match checkArgs c with
  | .error e => .error e
  | .ok _ =>
  if c.ngenArg < 2 then .error .assertion else
  if c.replay = 0 then .error .zeroDivision else
  if pop0.length < c.npop then .error .assertion else
  if c.npop ≤ 4 then .error .assertion else
  match run c (fun x => sgn (!m) (userFit x)) dr pop0 c.ngen with
  | .error e => .error e
  | .ok s =>
    match s.best with
    | none => .error .attributeError
    | some b =>
      .ok { x := b.1, y := sgn (!m) b.2.1, hist := s.hist.map (sgn (!m)), memSize := s.mem.storage.length, warm := pop0, runs := s.runs }

/-! ### Shared lists

In the code the population DE works on is a list of list objects, and the memory holds the same objects: the survivors of `select` are added to the
memory by reference (`memory_update`), and memory samples are put into the population by reference (`resample`).  `ensure_discrete(x_t)` (line 218
of `pesacore/de.py`) writes into the target.  Here `heap` holds the objects, `refs` the population. -/

/-- The loop over the targets, `pesacore/de.py` lines 183-222, as far as it writes to shared objects: target `j` is repaired in place with
`alpha = 1 - j / ngen`.  (Trials are new objects.) -/
def targetsInPlace (S : Space K) (ngen : ℕ) (dr : ℕ → ℕ → K × ℕ) : ℕ → List ℕ → List (List K) → Py (List (List K))
  | _, [], heap => .ok heap
  | j, r :: rs, heap =>
    match heap[r]? with
    | none => .error .indexError
    | some x =>
      match S.disc (1 - (j : K) * (1 / (ngen : K))) (dr j) x with
      | .error e => .error e
      | .ok x' => targetsInPlace S ngen dr (j + 1) rs (heap.set r x')

/-- What a memory entry `(ref, obj)` shows when it is read. -/
def readEntry (heap : List (List K)) (e : ℕ × K) : Option (List K × K) := (heap[e.1]?).map fun x => (x, e.2)

end

end Neorl.PESA2

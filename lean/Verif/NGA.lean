import Verif.Latin
import Verif.Swarm
import Verif.Sort
import Verif.Feasible
import Mathlib.Data.List.Lex
import Mathlib.Data.List.Dedup
import Mathlib.Data.Nat.Sqrt

/-!
# Neural genetic algorithm

Model of `neorl/hybrid/nga.py` with `neorl/hybrid/ngacore/GA.py` and `neorl/hybrid/ngacore/RBFN.py`.  Parameters of the model: the clustering of
`KMeans`, the pseudo-inverse, the norm, the kernel and the real root `x ** (1 / n)`.  The types of the variables do not occur because the code does not read them.
Where numpy divides by zero the code continues with `inf` or `nan`; the crossover handles both cases and so does the model; in the mutation the theorems assume
`lb < ub`.  Not modelled: printing; `nan` predictions (equal cluster centers).
-/

set_option linter.unusedSectionVars false
set_option linter.unusedVariables false

namespace Neorl.NGA

open Swarm (select)

section
variable {K : Type} [Field K] [LinearOrder K] [IsStrictOrderedRing K]

/-- Arguments, `neorl/hybrid/nga.py` lines 48-49 and 78; `nc`, `nm` are fixed to 15 in `neorl/hybrid/ngacore/GA.py` lines 36-37.
`km call k X` are the `k` cluster centers of `KMeans`, `pinv call G Y` is `np.dot(np.linalg.pinv(G), Y)`, `kern sigma dist` the kernel. -/
structure Conf (K : Type) where
  bounds : List (K × K)
  npop : ℕ
  warmups : Option ℕ
  hidden : Option ℕ
  ngen : ℕ
  nc : ℕ
  nm : ℕ
  km : ℕ → ℕ → List (List K) → List (List K)
  pinv : ℕ → List (List K) → List K → List K
  norm : List K → K
  kern : K → K → K
  root : ℕ → K → K

/-- `neorl/hybrid/nga.py` line 69. -/
def Conf.nwarm (c : Conf K) : ℕ := c.warmups.getD (20 * c.bounds.length)
/-- `neorl/hybrid/nga.py` line 70. -/
def Conf.ntrain (c : Conf K) : ℕ := c.nwarm / 3
/-- `neorl/hybrid/nga.py` line 71: `int(np.sqrt(self.traindata))`. -/
def Conf.nhidden (c : Conf K) : ℕ := c.hidden.getD (Nat.sqrt c.ntrain)

/-! ### The network -/

/-- `calsigma`, `neorl/hybrid/ngacore/RBFN.py` lines 58-69: twice the mean distance of the centers; no pair of centers raises. -/
def sigma (c : Conf K) (k : ℕ) (centers : List (List K)) : Py K :=
  let ds := (List.range (k - 1)).flatMap fun i => (List.range' (i + 1) (k - (i + 1))).map fun j =>
    c.norm (List.zipWith (· - ·) (centers.getD i []) (centers.getD j []))
  if ds.length = 0 then .error .zeroDivision else .ok (2 * ds.sum / (ds.length : K))

/-- A row of `_calculate_interpolation_matrix`, `neorl/hybrid/ngacore/RBFN.py` lines 51-56. -/
def features (c : Conf K) (s : K) (centers : List (List K)) (x : List K) : List K :=
  centers.map fun z => c.kern s (c.norm (List.zipWith (· - ·) z x))

/-- `fit`, `neorl/hybrid/ngacore/RBFN.py` lines 71-80, and `predict`, lines 82-85.  `KMeans` raises for no cluster or more clusters than samples. -/
def rbfn (c : Conf K) (call : ℕ) (data : List (List K × K)) : Py (List K → K) :=
  let k := c.nhidden
  if k = 0 ∨ data.length < k then .error .valueError else
  let centers := c.km call k (data.map fun e => e.1)
  match sigma c k centers with
  | .error e => .error e
  | .ok s =>
    let w := c.pinv call (data.map fun e => features c s centers e.1 ++ [1]) (data.map fun e => e.2)
    .ok fun x => (List.zipWith (· * ·) (features c s centers x) (w.take k)).sum + w.getD k 0

/-! ### The genetic algorithm -/

/-- `neorl/hybrid/ngacore/GA.py` lines 63-73 for one coordinate with `p1 ≤ p2`.  For `p1 = p2` numpy computes `x / 0`: `nan`, replaced by 1, if
`x = 0`, else `inf`, so that `alfa = 2`. -/
def alfa (c : Conf K) (b : K × K) (p1 p2 : K) : K :=
  let m := if b.2 - p2 < p1 - b.1 then b.2 - p2 else p1 - b.1
  if p1 = p2 then (if m = 0 then 1 else 2)
  else 2 - (1 / (1 + 2 * m / (p2 - p1))) ^ (c.nc + 1)

/-- `neorl/hybrid/ngacore/GA.py` lines 74-82 (and 84-92): the spread factor. -/
def spread (c : Conf K) (a r : K) : K :=
  if r ≤ 1 / a then c.root (c.nc + 1) (r * a) else c.root (c.nc + 1) (1 / (2 - r * a))

/-- `neorl/hybrid/ngacore/GA.py` line 93 for one coordinate, before clipping. -/
def low (c : Conf K) (b : K × K) (x y r : K) : K :=
  let p1 := min x y
  let p2 := max x y
  let q := spread c (alfa c b p1 p2) r
  1 / 2 * ((1 + q) * p1 + (1 - q) * p2)

/-- `neorl/hybrid/ngacore/GA.py` line 94 for one coordinate, before clipping. -/
def high (c : Conf K) (b : K × K) (x y r : K) : K :=
  let p1 := min x y
  let p2 := max x y
  let q := spread c (alfa c b p1 p2) r
  1 / 2 * ((1 - q) * p1 + (1 + q) * p2)

/-- `neorl/hybrid/ngacore/GA.py` lines 95-98 for one coordinate. -/
def clip (b : K × K) (x : K) : K := min (max x b.1) b.2

/-- The two children of parents `x`, `y`, `neorl/hybrid/ngacore/GA.py` lines 58-98, with the draws `r1`, `r2`. -/
def children (c : Conf K) (x y : List K) (r1 r2 : ℕ → K) : List (List K) :=
  [c.bounds.mapIdx fun j b => clip b (low c b (x.getD j 0) (y.getD j 0) (r1 j)),
   c.bounds.mapIdx fun j b => clip b (high c b (x.getD j 0) (y.getD j 0) (r2 j))]

/-- Draws of the crossover for one individual: the chosen partner and the two vectors of uniform numbers. -/
structure Cross (K : Type) where
  pick : ℕ
  r1 : ℕ → K
  r2 : ℕ → K

/-- `crossover(pc)`, `neorl/hybrid/ngacore/GA.py` lines 51-99, with `pc = 1` (line 34; `random.random() < 1` always holds).  `random.choice` of an empty list raises. -/
def crossover (c : Conf K) (dr : ℕ → Cross K) (pop : List (List K)) : Py (List (List K)) :=
  if pop.length = 1 then .error .indexError else
  .ok (pop ++ (List.range pop.length).flatMap fun i =>
    let others := (List.range pop.length).eraseIdx i
    children c (pop.getD i []) (pop.getD (others.getD ((dr i).pick % others.length) 0) []) (dr i).r1 (dr i).r2)

/-- `neorl/hybrid/ngacore/GA.py` lines 106-116: a mutated gene. -/
def gene (c : Conf K) (b : K × K) (x u : K) : K :=
  let temp := if x - b.1 < b.2 - x then 1 - (x - b.1) / (b.2 - b.1) else 1 - (b.2 - x) / (b.2 - b.1)
  let delta := if u ≤ 1 / 2 then c.root (c.nm + 1) (2 * u + (1 - 2 * u) * temp ^ (c.nm + 1)) - 1
    else 1 - c.root (c.nm + 1) (2 * (1 - u) + (2 * u - 1) * temp ^ (c.nm + 1))
  x + delta * (b.2 - b.1)

/-- `neorl/hybrid/ngacore/GA.py` lines 104-116: every gene mutates with probability `1 / dimension`; `dr j` are the two draws. -/
def mutRow (c : Conf K) (dr : ℕ → K × K) (row : List K) : List K :=
  c.bounds.mapIdx fun j b => if (dr j).1 < 1 / (c.bounds.length : K) then gene c b (row.getD j 0) (dr j).2 else row.getD j 0

/-- `mutation(pm)`, `neorl/hybrid/ngacore/GA.py` lines 101-116: row `i` is copied to the end, then changed in place. -/
def mutation (c : Conf K) (dr : ℕ → ℕ → K × K) : ℕ → List (List K) → Py (List (List K))
  | 0, pop => .ok pop
  | i + 1, pop =>
    match mutation c dr i pop with
    | .error e => .error e
    | .ok p =>
      match p[i]? with
      | none => .error .indexError
      | some row => .ok (p.set i (mutRow c (dr i) row) ++ [row])

/-- `np.unique(pop, axis=0)`, `neorl/hybrid/nga.py` line 108: distinct rows in lexicographic order. -/
def uniqueRows (pop : List (List K)) : List (List K) := (sortAsc (fun x => x) pop).dedup

/-- `selection`, `neorl/hybrid/ngacore/GA.py` lines 44-49: rows sorted by prediction, then by the last coordinate, and so on (`np.lexsort`). -/
def selection (n : ℕ) (sur : List K → K) (pool : List (List K)) : List (List K) :=
  (sortAsc (fun x => sur x :: x.reverse) pool).take n

/-! ### Tri-training -/

/-- The three models. -/
structure Models (K : Type) where
  m0 : List K → K
  m1 : List K → K
  m2 : List K → K

/-- `resetmodel`, `neorl/hybrid/nga.py` lines 191-210, after the shuffle. -/
def reset (c : Conf K) (call : ℕ) (data : List (List K × K)) : Py (Models K) :=
  let t := c.ntrain
  match rbfn c call (data.take t) with
  | .error e => .error e
  | .ok m0 =>
    match rbfn c (call + 1) ((data.drop t).take (2 * t - t)) with
    | .error e => .error e
    | .ok m1 =>
      match rbfn c (call + 2) (data.drop (c.nwarm - t)) with
      | .error e => .error e
      | .ok m2 => .ok { m0 := m0, m1 := m1, m2 := m2 }

/-- One third of `updatemodel`, `neorl/hybrid/nga.py` lines 220-224: the individual on which models `a` and `b` agree most joins the training set, labelled with their mean. -/
def extend (c : Conf K) (call : ℕ) (train : List (List K × K)) (a b : List K → K) (pop : List (List K)) : Py (List K → K) :=
  match select (fun x => |a x - b x|) pop with
  | .error e => .error e
  | .ok h => rbfn c call (train ++ [(h.2, (a h.2 + b h.2) / 2)])

/-- `updatemodel`, `neorl/hybrid/nga.py` lines 212-236, and lines 109-113: the mean prediction. -/
def update (c : Conf K) (call : ℕ) (data : List (List K × K)) (m : Models K) (pop : List (List K)) : Py (List K → K) :=
  let t := c.ntrain
  match extend c call (data.take t) m.m1 m.m2 pop with
  | .error e => .error e
  | .ok p0 =>
    match extend c (call + 1) ((data.drop t).take (2 * t - t)) m.m0 m.m2 pop with
    | .error e => .error e
    | .ok p1 =>
      match extend c (call + 2) (data.drop (c.nwarm - t)) m.m0 m.m1 pop with
      | .error e => .error e
      | .ok p2 => .ok fun x => (p0 x + p1 x + p2 x) / 3

/-! ### The run -/

/-- Ghost record of a generation: its surrogate, the population it started from, the pool selection chose from and the shuffled samples used. -/
structure Block (K : Type) where
  sur : List K → K
  pop : List (List K)
  pool : List (List K)
  data : List (List K × K)

/-- State between generations. -/
structure State (K : Type) where
  pop : List (List K)
  data : List (List K × K)
  models : Models K
  best : List (List K)
  locals : List K
  runs : List (Block K)

/-- Draws of a call; `shuffle r` is the shuffle of the `r`-th `resetmodel`. -/
structure Draws (K : Type) where
  uW : ℕ → ℕ → K
  shW : ℕ → List K → List K
  uP : ℕ → ℕ → K
  shP : ℕ → List K → List K
  shuffle : ℕ → List (List K × K) → List (List K × K)
  cross : ℕ → ℕ → Cross K
  muts : ℕ → ℕ → ℕ → K × K

/-- One generation, `neorl/hybrid/nga.py` lines 105-124.  `min` of no prediction raises. -/
def gen (c : Conf K) (m : Bool) (d : Draws K) (t : ℕ) (s : State K) : Py (State K) :=
  match update c (6 * t + 3) s.data s.models s.pop with
  | .error e => .error e
  | .ok sur =>
    match crossover c (d.cross t) s.pop with
    | .error e => .error e
    | .ok p1 =>
      match mutation c (d.muts t) c.npop p1 with
      | .error e => .error e
      | .ok p2 =>
        let pool := uniqueRows p2
        let pop := selection c.npop sur pool
        match pop.head?, select sur pool with
        | some first, .ok b =>
          let data := d.shuffle (t + 1) s.data
          (match reset c (6 * (t + 1)) data with
          | .error e => .error e
          | .ok ms => .ok { pop := pop, data := data, models := ms, best := s.best ++ [first], locals := s.locals ++ [sgn m b.1]
                            runs := s.runs ++ [{ sur := sur, pop := s.pop, pool := pool, data := s.data }] })
        | _, _ => .error .indexError

/-- `g` generations. -/
def run (c : Conf K) (m : Bool) (d : Draws K) (data : List (List K × K)) (ms : Models K) (pop : List (List K)) : ℕ → Py (State K)
  | 0 => .ok { pop := pop, data := data, models := ms, best := [], locals := [], runs := [] }
  | g + 1 =>
    match run c m d data ms pop g with
    | .error e => .error e
    | .ok s => gen c m d g s

/-- What `evolute` returns, plus ghosts: the points passed to the fitness function and the generations. -/
structure Result (K : Type) where
  best : List (List K)
  locals : List K
  evals : List (List K)
  runs : List (Block K)

/-- Latin design of `n` individuals, `neorl/hybrid/nga.py` lines 144-156 and `neorl/hybrid/ngacore/GA.py` lines 41-42; `None` (a lower bound above its upper bound) is not a sample and the code raises. -/
def design (n : ℕ) (bounds : List (K × K)) (u : ℕ → ℕ → K) (sh : ℕ → List K → List K) : Py (List (List K)) :=
  match Latin.latin n bounds u sh with
  | .error e => .error e
  | .ok none => .error .valueError
  | .ok (some rows) => .ok rows

/-- `evolute`, `neorl/hybrid/nga.py` lines 78-142; `m` is `mode == 'min'`.  The fitness is negated for maximisation (lines 172-177).  The constructor divides by the dimension. -/
def evolute (c : Conf K) (m : Bool) (fit : List K → K) (d : Draws K) : Py (Result K) :=
  if c.bounds.length = 0 then .error .zeroDivision else
  match design c.nwarm c.bounds d.uW d.shW with
  | .error e => .error e
  | .ok warm =>
    let data := d.shuffle 0 (warm.map fun x => (x, sgn m (fit x)))
    match reset c 0 data with
    | .error e => .error e
    | .ok ms =>
      match design c.npop c.bounds d.uP d.shP with
      | .error e => .error e
      | .ok pop =>
        match run c m d data ms pop c.ngen with
        | .error e => .error e
        | .ok s => .ok { best := s.best, locals := s.locals, evals := warm, runs := s.runs }

end

end Neorl.NGA

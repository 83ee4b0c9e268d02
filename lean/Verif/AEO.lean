import Verif.Best
import Verif.Sort
import Mathlib.Data.List.MinMax
import Mathlib.Data.Nat.Choose.Sum
import Mathlib.Algebra.BigOperators.Group.List.Basic

/-!
# Animorphic ensemble optimisation

Model of `neorl/hybrid/aeo.py`: the helper functions (lines 43-267), `Population` (lines 269-439), and `AEO` (lines 442-889).  A population's own
algorithm is called through an evolver, an arbitrary function from the member list to its last population and the points it
evaluated; `Props/AEO.lean` shows that the models of the supported optimisers are such evolvers.  Generators are functions of their arguments with the laws
of `Rng.OK`.  NaN fitness values are `none`.  Not modelled: the xarray log itself (only the size of its rows is checked), `clone_algo_obj` (the
evolver receives the current members), printing.
-/

set_option linter.unusedSectionVars false
set_option linter.unusedVariables false

namespace Neorl.AEO

/-- The algorithms `detect_algo` recognises, lines 76-97. -/
inductive Algo | woa | gwo | pso | mfo | hho | de | es | ssa | jaya
  deriving DecidableEq, Repr

/-- `ncr`, lines 61-65: `reduce(op.mul, range(n, n-r, -1), 1) // reduce(op.mul, range(1, r+1), 1)`. -/
def ncr (n r : ℤ) : ℤ :=
  let r' := min r (n - r)
  let numer := ((List.range r'.toNat).map (fun i : ℕ => n - (i : ℤ))).foldl (· * ·) 1
  let denom := ((List.range r'.toNat).map (fun i : ℕ => (i : ℤ) + 1)).foldl (· * ·) 1
  numer / denom

/-- `get_algo_ngtonevals`, lines 204-225: generations `i` and members `a` to evaluations. -/
def conv : Algo → ℕ → ℕ → ℕ
  | .woa, i, a => a * i
  | .gwo, i, a => a * i
  | .mfo, i, a => a * i
  | .pso, i, a => (i + 1) * a
  | .de, i, a => 2 * i * a
  | .es, i, a => (i + 1) * a
  | .hho, i, a => 2 * i * a
  | .ssa, i, a => (i + 1) * a
  | .jaya, i, a => (i + 1) * a

/-- `eval_algo_popnumber`, lines 227-237; `mu` is `obj.mu` of an evolution strategy. -/
def enough (a : Algo) (mu n : ℕ) : Bool :=
  match a with
  | .woa | .gwo | .pso | .hho | .de | .ssa => decide (5 ≤ n)
  | .mfo | .jaya => decide (4 ≤ n)
  | .es => decide (mu ≤ n)

section
variable {K : Type} [Field K] [LinearOrder K] [IsStrictOrderedRing K]

/-- `np.linspace(a, b, n)`. -/
def linspace (a b : K) (n : ℕ) : List K :=
  if n = 1 then [a] else (List.range n).map (fun j : ℕ => a + (j : K) * ((b - a) / ((n : K) - 1)))

/-- `fracaneal`, lines 240-243. -/
def frac (ncyc Ncyc gpc : ℕ) : Py (List K) :=
  let total := Ncyc * gpc
  if total = 1 then .error .zeroDivision else
  let start : K := ((ncyc : K) - 1) * (gpc : K) / ((total : K) - 1)
  let stop : K := (((ncyc : K) - 1) * (gpc : K) + (gpc : K) - 1) / ((total : K) - 1)
  .ok (linspace start stop gpc)

/-- What `get_algo_annealed_kwargs` reads from the optimiser object, and `np.exp`. -/
structure Opt (K : Type) where
  algo : Algo
  mu : ℕ
  timew : Bool
  wmax : K
  wmin : K
  expf : K → K

/-- `get_algo_annealed_kwargs`, lines 239-266. -/
def annealed (o : Opt K) (ncyc Ncyc gpc : ℕ) : Py (List (String × List K)) :=
  match (frac ncyc Ncyc gpc : Py (List K)) with
  | .error e => .error e
  | .ok fr =>
    .ok (match o.algo with
      | .gwo => [("a", fr.map (fun f => 2 + (0 - 2) * f))]
      | .hho => [("E1", fr.map (fun f => 2 + (0 - 2) * f))]
      | .pso => if o.timew then [("w", fr.map (fun f => o.wmax + (o.wmin - o.wmax) * f))] else []
      | .woa => [("fac", fr.map (fun f => -1 + (-2 - -1) * f)), ("a", fr.map (fun f => 2 + (0 - 2) * f))]
      | .mfo => [("r", fr.map (fun f => -1 + (-2 - -1) * f))]
      | .ssa => [("c1", fr.map (fun f => 2 * o.expf (-(4 * f) ^ 2)))]
      | _ => [])

/-- A schedule option: a float, `'up'` or `'down'`. -/
inductive Sched (K : Type) | num (x : K) | up | down

/-- `get_alphabeta`, lines 623-629. -/
def alphabeta (s : Sched K) (ncyc Ncyc : ℕ) : Py K :=
  match s with
  | .num x => .ok x
  | .up => if Ncyc = 1 then .error .zeroDivision else .ok (((ncyc : K) - 1) / ((Ncyc : K) - 1))
  | .down => if Ncyc = 1 then .error .zeroDivision else .ok (1 - ((ncyc : K) - 1) / ((Ncyc : K) - 1))

/-- `get_q`, lines 631-637. -/
def getQ (s : Sched K) (ncyc Ncyc : ℕ) : Py K :=
  match s with
  | .num x => .ok x
  | .up => if Ncyc = 1 then .error .zeroDivision else .ok (2 / (1 - (Ncyc : K)) * (1 - (ncyc : K)) - 1)
  | .down => if Ncyc = 1 then .error .zeroDivision else .ok (2 / (1 - (Ncyc : K)) * ((ncyc : K) - 1) + 1)

/-- The inner sum of `fill_M`, lines 646-648. -/
def tot (n : ℕ) (h : K) : K :=
  ((List.range (n + 1)).map (fun k : ℕ => (k : K) / (n : K) * ((ncr n k : ℤ) : K) * h ^ k * (1 - h) ^ (n - k))).sum

/-- Entry `log['M'].values[j, i]` written by `fill_M`, lines 639-653. -/
def mEntry (h scale : List K) (nmems : List ℕ) (j i : ℕ) : K :=
  let n := nmems.getD i 0
  let kd : K := if i = j then 1 else 0
  if n = 0 then 1 / (nmems.length : K) else kd + (scale.getD j 0 - kd) * tot n (h.getD i 0)

/-! ### Removing members -/

/-- `[lst.pop(i) for i in is]`: popped values and what is left. -/
def popAll {α : Type} : List ℕ → List α → Py (List α × List α)
  | [], l => .ok ([], l)
  | i :: is, l =>
    match l[i]? with
    | none => .error .indexError
    | some a =>
      match popAll is (l.eraseIdx i) with
      | .error e => .error e
      | .ok (r, l') => .ok (a :: r, l')

/-- The end of `wtd_remove`, line 113: pop the drawn indices from the largest down. -/
def popDesc {α : Type} (idx : List ℕ) (l : List α) : Py (List α × List α) := popAll (sortAsc id idx).reverse l

/-- Weight options of `AEO.__init__`. -/
inductive Wt | log | lin | exp | uni
  deriving DecidableEq, Repr

/-- Order options; `none` is accepted by the constructor (line 581). -/
inductive Order | wb | bw | awb | abw | none
  deriving DecidableEq, Repr

/-- `np.log`, `np.exp`, `np.pi`. -/
structure Trans (K : Type) where
  logf : K → K
  expf : K → K
  pi : K

/-- `raj_logfact`, lines 68-74. -/
def rajLogfact (T : Trans K) (n : K) : K :=
  n * T.logf n + -n + T.logf (n * (1 + 4 * n * (1 + 2 * n))) / 6 + T.logf T.pi / 2

/-- The weights, lines 105-106 (`uni`) and 407-413. -/
def weights (T : Trans K) (wt : Wt) (n : ℕ) : List K :=
  (List.range n).map fun i : ℕ =>
    let s : K := (i : K) + 1
    match wt with
    | .uni => 1 / (n : K)
    | .log => (T.logf s + 1) / ((n : K) + rajLogfact T n)
    | .lin => s / ((n : K) * (1 / 2) + 1 / 2 * (n : K) ^ 2)
    | .exp => T.expf (s - 1) / ((1 - T.expf n) / (1 - T.expf 1))

/-- `wts_checked`, lines 108-109. -/
def checked (w : List K) : List K := w.map (fun a => a / w.sum)

/-- Python's `sorted` on `zip(member_fitnesses, members)` and on `member_fitnesses` (`rev` is `reverse=True`). -/
structure Sorts (K : Type) where
  pairs : Bool → List (Option K × List K) → List (Option K × List K)
  keys : Bool → List (Option K) → List (Option K)

/-- Numeric order of two fitness values, ascending or descending; says nothing about NaN. -/
def KeyLe (rev : Bool) (a b : Option K) : Prop := ∀ x y, a = some x → b = some y → if rev then y ≤ x else x ≤ y

/-- What is known of `sorted`: always a permutation; ordered when no key is NaN. -/
structure Sorts.OK (so : Sorts K) : Prop where
  pairs_perm : ∀ r l, (so.pairs r l).Perm l
  keys_perm : ∀ r l, (so.keys r l).Perm l
  pairs_sorted : ∀ r l, (∀ p ∈ l, p.1 ≠ none) → (so.pairs r l).Pairwise (fun a b => KeyLe r a.1 b.1)
  keys_sorted : ∀ r l, (∀ p ∈ l, p ≠ none) → (so.keys r l).Pairwise (KeyLe r)

/-- The generators: `np.random.binomial`, `np.random.choice(..., replace=False)`, `random.shuffle`, `np.random.multinomial`; the leading
arguments are the cycle and the population index. -/
structure Rng (K : Type) where
  binomial : ℕ → ℕ → ℕ → K → ℕ
  choice : ℕ → ℕ → ℕ → ℕ → List K → List ℕ
  shuffle : ℕ → List (List K) → List (List K)
  multinomial : ℕ → ℕ → List K → List ℕ

/-- The supports of the generators. -/
structure Rng.OK (g : Rng K) : Prop where
  binomial_le : ∀ c j n w, g.binomial c j n w ≤ n
  choice_ok : ∀ c j n k w, k ≤ n → (g.choice c j n k w).Nodup ∧ (g.choice c j n k w).length = k ∧ ∀ i ∈ g.choice c j n k w, i < n
  shuffle_perm : ∀ c l, (g.shuffle c l).Perm l
  multinomial_ok : ∀ c n w, w ≠ [] → (g.multinomial c n w).length = w.length ∧ (g.multinomial c n w).sum = n

/-- `Population`: `members`, `member_fitnesses`, `n`, `fitlog`, `Nc`. -/
structure Pop (K : Type) where
  members : List (List K)
  fits : List (Option K)
  n : ℕ
  fitlog : List K
  nc : ℕ

/-- `Population.__init__`, lines 273-288; `member_fitnesses` and `Nc` do not exist yet. -/
def Pop.init (x0 : List (List K)) : Pop K := { members := x0, fits := [], n := x0.length, fitlog := [], nc := 0 }

/-- `fitness`, lines 290-292.  Only used after `evolute`, which leaves `fitlog` non-empty or raises. -/
def Pop.fitness (p : Pop K) : K := p.fitlog.getLast?.getD 0

/-- `dfitness`, lines 294-299. -/
def Pop.dfitness (p : Pop K) : K :=
  if p.fitlog.length = 1 then p.fitness else p.fitness - (p.fitlog.dropLast.getLast?).getD 0

/-- An algorithm run on given members with given keyword arguments: last population with fitness, and the points evaluated. -/
abbrev Evolver (K : Type) := List (String × List K) → List (List K) → Py (List (List K × K) × List (List K))

/-- `Population.evolute`, lines 301-347.  `rows` is the number of rows of the log tables (`len(x0)`); writing `n` rows into them
fails if they are too short or if the fitness list has another length. -/
def Pop.evolute (o : Opt K) (ev : Evolver K) (gpc ncyc Ncyc rows : ℕ) (p : Pop K) : Py (Pop K × List (List K)) :=
  if enough o.algo o.mu p.members.length = false then
    if p.fitlog = [] then .error .valueError
    else if p.n ≠ 0 ∧ (rows < p.n ∨ p.fits.length ≠ p.n) then .error .valueError
    else .ok ({ p with nc := 0 }, [])
  else
    match annealed o ncyc Ncyc gpc with
    | .error e => .error e
    | .ok kw =>
      match ev kw p.members with
      | .error e => .error e
      | .ok (last, log) =>
        match (last.map Prod.snd).min? with
        | none => .error .valueError
        | some y =>
          if p.n ≠ 0 ∧ (rows < p.n ∨ last.length ≠ p.n) then .error .valueError
          else .ok ({ members := last.map Prod.fst, fits := last.map (fun q => some q.2), n := p.n,
                      fitlog := p.fitlog ++ [y], nc := conv o.algo gpc p.n }, log)

/-- `strength`, lines 349-373. -/
def Pop.strength (improve burden : Bool) (fmax fmin : K) (p : Pop K) : K :=
  let fsel := if improve then p.dfitness else p.fitness
  let normed := (fsel - fmax) / (fmin - fmax)
  if burden then normed / (1 + (p.nc : K)) else normed

/-- The order in force, lines 387-393 (`gfrac` is `i/Ncyc`): `true` for `'wb'`. -/
def orderNow (o : Order) (gfrac : K) : Py Bool :=
  match o with
  | .wb => .ok true
  | .bw => .ok false
  | .awb => .ok (decide (gfrac < 1 / 2))
  | .abw => .ok (!decide (gfrac < 1 / 2))
  | .none => .error .typeError

/-- The sorting part of `export`, lines 396-404. -/
def Pop.sorted (so : Sorts K) (wb : Bool) (p : Pop K) : Pop K :=
  { p with members := (so.pairs wb (List.zip p.fits p.members)).map Prod.snd, fits := so.keys wb p.fits }

/-- Drawing and removing, lines 378-382 and 420-430. -/
def Pop.remove (rng : Rng K) (cyc j ei : ℕ) (w : List K) (p : Pop K) : Py (Pop K × List (List K)) :=
  if p.n = 0 then .ok ({ p with n := p.members.length }, [])
  else if p.members.length < ei then .error .valueError
  else
    let idx := rng.choice cyc j p.members.length ei (checked w)
    match popDesc idx p.members with
    | .error e => .error e
    | .ok (removed, rest) =>
      match popDesc idx p.fits with
      | .error e => .error e
      | .ok (_, frest) => .ok ({ p with members := rest, fits := frest, n := rest.length }, removed)

/-- `export`, lines 375-433. -/
def Pop.export (so : Sorts K) (T : Trans K) (rng : Rng K) (wt : Wt) (order : Order) (gfrac : K) (cyc j ei : ℕ) (p : Pop K) :
    Py (Pop K × List (List K)) :=
  if wt = .uni then p.remove rng cyc j ei (weights T .uni p.members.length)
  else
    match orderNow order gfrac with
    | .error e => .error e
    | .ok wb =>
      let q := p.sorted so wb
      q.remove rng cyc j ei (weights T wt q.members.length)

/-- `receive`, lines 435-439. -/
def Pop.receive (p : Pop K) (inds : List (List K)) : Pop K :=
  { p with members := p.members ++ inds, fits := p.fits ++ inds.map (fun _ => none), n := (p.members ++ inds).length }

/-- Lines 863-865: consecutive slices of the export pool go to the populations. -/
def distribute : List ℕ → List (Pop K) → List (List K) → List (Pop K)
  | a :: as, p :: ps, ex => p.receive (ex.take a) :: distribute as ps (ex.drop a)
  | _, ps, _ => ps

/-! ### The cycle -/

/-- Everything `AEO` is configured with. -/
structure Conf (K : Type) where
  opts : List (Opt K)
  gpc : ℕ
  Ncyc : ℕ
  alpha : Sched K
  beta : Sched K
  gImprove : Bool
  gBurden : Bool
  bImprove : Bool
  bBurden : Bool
  q : Sched K
  wt : Wt
  order : Order
  /-- `s ** alpha` -/
  pow : K → K → K
  T : Trans K
  so : Sorts K
  rng : Rng K
  /-- `evolver j cyc`: population `j` in cycle `cyc` -/
  evolver : ℕ → ℕ → Evolver K

/-- Evolution phase, lines 797-800: every population in turn. -/
def evolveAll (c : Conf K) (rows cyc : ℕ) : ℕ → List (Opt K) → List (Pop K) → Py (List (Pop K) × List (List K))
  | j, o :: os, p :: ps =>
    match p.evolute o (c.evolver j cyc) c.gpc cyc c.Ncyc rows with
    | .error e => .error e
    | .ok (p', l) =>
      match evolveAll c rows cyc (j + 1) os ps with
      | .error e => .error e
      | .ok (ps', l') => .ok (p' :: ps', l ++ l')
  | _, _, _ => .ok ([], [])

/-- The extremes of fitness and improvement, lines 804-807. -/
structure Ext (K : Type) where
  maxf : K
  minf : K
  maxdf : K
  mindf : K

/-- Lines 804-807. -/
def extremes (ps : List (Pop K)) : Py (Ext K) :=
  match (ps.map Pop.fitness).max?, (ps.map Pop.fitness).min?, (ps.map Pop.dfitness).max?, (ps.map Pop.dfitness).min? with
  | some a, some b, some d, some e => .ok ⟨a, b, d, e⟩
  | _, _, _, _ => .error .valueError

/-- The test of lines 809 and 844: all populations are equally fit (or improved equally). -/
def flat (improve : Bool) (e : Ext K) : Prop := if improve then e.maxdf = e.mindf else e.maxf = e.minf

instance (improve : Bool) (e : Ext K) : Decidable (flat improve e) := by unfold flat; infer_instance

/-- Strengths to a power, lines 813-816, 847-850. -/
def strengths (c : Conf K) (improve burden : Bool) (a : K) (e : Ext K) (ps : List (Pop K)) : List K :=
  ps.map (fun p => c.pow (if improve then p.strength improve burden e.maxdf e.mindf
    else p.strength improve burden e.maxf e.minf) a)

/-- `[s/sum(strengths) for s in strengths]`, lines 817, 857. -/
def scaled (s : List K) : Py (List K) := if s.sum = 0 then .error .zeroDivision else .ok (s.map (fun x => x / s.sum))

/-- Export numbers, lines 808-826: `np.random.binomial` refuses a weight outside `[0, 1]`.  The weights are returned as well (zero when nobody is
exported). -/
def exportNumbers (c : Conf K) (cyc : ℕ) (e : Ext K) (ps : List (Pop K)) : Py (List K × List ℕ) :=
  match alphabeta c.alpha cyc c.Ncyc with
  | .error er => .error er
  | .ok a =>
    if flat c.gImprove e then .ok (ps.map (fun _ => 0), ps.map (fun _ => 0))
    else
      match scaled (strengths c c.gImprove c.gBurden a e ps) with
      | .error er => .error er
      | .ok s =>
        match getQ c.q cyc c.Ncyc with
        | .error er => .error er
        | .ok q =>
          let w := s.map (fun x => (1 / 2 - x) * q + 1 / 2)
          if w.all (fun x => decide (0 ≤ x ∧ x ≤ 1)) then
            .ok (w, (List.zip ps w).mapIdx (fun j pw => c.rng.binomial cyc j pw.1.members.length pw.2))
          else .error .valueError

/-- Member selection, line 838: every population exports in turn. -/
def exportAll (c : Conf K) (cyc : ℕ) : ℕ → List ℕ → List (Pop K) → Py (List (Pop K) × List (List K))
  | j, ei :: es, p :: ps =>
    match p.export c.so c.T c.rng c.wt c.order ((cyc : K) / (c.Ncyc : K)) cyc j ei with
    | .error e => .error e
    | .ok (p', x) =>
      match exportAll c cyc (j + 1) es ps with
      | .error e => .error e
      | .ok (ps', xs) => .ok (p' :: ps', x ++ xs)
  | _, _, _ => .ok ([], [])

/-- Destination probabilities, lines 841-857; strengths are taken after the export. -/
def destProbs (c : Conf K) (cyc : ℕ) (e : Ext K) (ps : List (Pop K)) : Py (List K) :=
  match alphabeta c.beta cyc c.Ncyc with
  | .error er => .error er
  | .ok b => scaled (if flat c.bImprove e then ps.map (fun _ => 1) else strengths c c.bImprove c.bBurden b e ps)

/-- Migration, lines 803-865: export weights, destination probabilities and the new populations. -/
def migrate (c : Conf K) (cyc : ℕ) (ps : List (Pop K)) : Py (List K × List K × List (Pop K)) :=
  match extremes ps with
  | .error er => .error er
  | .ok e =>
    match exportNumbers c cyc e ps with
    | .error er => .error er
    | .ok (w, eis) =>
      match exportAll c cyc 0 eis ps with
      | .error er => .error er
      | .ok (ps', ex) =>
        match destProbs c cyc e ps' with
        | .error er => .error er
        | .ok d =>
          let pool := c.rng.shuffle cyc ex
          .ok (w, d, distribute (c.rng.multinomial cyc pool.length d) ps' pool)

/-- State between cycles: the populations, everything evaluated, the number of cycles done, whether `stop_criteria` fired. -/
structure State (K : Type) where
  pops : List (Pop K)
  log : List (List K)
  ncyc : ℕ
  stopped : Bool

/-- One cycle, lines 795-874. -/
def cycle (c : Conf K) (rows : ℕ) (stop : ℕ → Bool) (s : State K) : Py (State K) :=
  if s.stopped then .ok s else
  match evolveAll c rows (s.ncyc + 1) 0 c.opts s.pops with
  | .error e => .error e
  | .ok (ps, l) =>
    match migrate c (s.ncyc + 1) ps with
    | .error e => .error e
    | .ok (_, _, ps') => .ok ⟨ps', s.log ++ l, s.ncyc + 1, stop (s.ncyc + 1)⟩

/-- The loop, lines 795-874, `k` rounds of it. -/
def run (c : Conf K) (rows : ℕ) (stop : ℕ → Bool) (ps : List (Pop K)) : ℕ → Py (State K)
  | 0 => .ok ⟨ps, [], 0, false⟩
  | k + 1 =>
    match run c rows stop ps k with
    | .error e => .error e
    | .ok s => cycle c rows stop s

/-- Lines 687-694: starting positions split by population number. -/
def split (nopt : ℕ) (x0 : List (List K × ℕ)) : List (Pop K) :=
  (List.range nopt).map (fun i => Pop.init ((x0.filter (fun p => p.2 = i)).map Prod.fst))

/-- What `evolute` returns, with the final state. -/
structure Result (K : Type) where
  x : List K
  y : K
  final : State K

/-- `evolute`, lines 655-889: `x0` with its population numbers; the returned pair is the argmin over everything the wrapped fitness
was called with (`np.argmin` of an empty list raises). -/
def evolute (c : Conf K) (fit : List K → K) (stop : ℕ → Bool) (x0 : List (List K × ℕ)) : Py (Result K) :=
  match run c x0.length stop (split c.opts.length x0) c.Ncyc with
  | .error e => .error e
  | .ok s =>
    match s.log.argmin fit with
    | none => .error .valueError
    | some x => .ok ⟨x, fit x, s⟩

end
end Neorl.AEO

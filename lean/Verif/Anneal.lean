import Verif.Py
import Mathlib.Data.List.Basic

/-!
# Annealing from an input file

Model of `neorl/evolu/runners/sa.py` (class `SAAgent`), which runs the card `SA` of an input file.  The values of the card are those delivered by `PARSER.py` (vectors are arrays of floats).  A state of the chain is an array,
here a list of numbers.  `np.random.randint([l], [u])` gives an array with one entry, which is identified with its entry.  Temperatures are the parameter `temp` (their formula is `coolT` below) and `np.exp(-dE/T)` is the
parameter `accP dE T`.  Draws are arbitrary numbers reduced to the range of the call.  `none` means that a `while` loop has not ended when the draws are used up.  Printing, seeding and the plot of the callback are left out; what
is printed at a check is kept as a report, before rounding.  A plain `Exception` is `.runtimeError`.
-/

set_option linter.unusedSectionVars false
set_option linter.unusedVariables false

namespace Neorl.Anneal

section
variable {K : Type} [Field K] [LinearOrder K] [IsStrictOrderedRing K] [FloorRing K]

/-- The swap modes, `neorl/evolu/runners/sa.py` lines 233-245. -/
inductive Swap
  | single | dual | quad | full | kbs | other
  deriving DecidableEq

/-- What the input file says, lines 51-78, as the parser leaves it. `data` is the table read from `kbs_path` (`none`: no such file). -/
structure Card (K : Type) where
  xsize : ℕ
  steps : ℤ
  checkFreq : ℤ
  swap : Swap
  lbound : Option (List K)
  ubound : Option (List K)
  initstate : Option (List K)
  indpb : K
  indpbKbs : K
  data : Option (List (List K))

/-- The agent after its constructor; `ub` holds the bounds plus one. -/
structure Agent (K : Type) where
  xsize : ℕ
  steps : ℤ
  checkFreq : ℤ
  swap : Swap
  lb : List ℤ
  ub : List ℤ
  initstate : Option (List K)
  indpb : K
  indpbKbs : K
  data : List (List K)

/-- `[int(item) for item in bound]`, lines 61-62; iterating over `None` is a TypeError. -/
def ints : Option (List K) → Py (List ℤ)
  | none => .error .typeError
  | some l => .ok (l.map truncZ)

/-- `SAAgent.__init__`, lines 34-82. -/
def construct (c : Card K) : Py (Agent K) := do
  let lb ← ints c.lbound
  let ub ← ints c.ubound
  match c.swap, c.data with
  | .kbs, none => .error .runtimeError
  | _, _ => .ok { xsize := c.xsize, steps := c.steps, checkFreq := c.checkFreq, swap := c.swap, lb := lb, ub := ub.map (· + 1), initstate := c.initstate, indpb := c.indpb, indpbKbs := c.indpbKbs,
                  data := c.data.getD [] }

/-- `len(self.lbound) == 1 and len(self.ubound) == 1`. -/
def Agent.one (a : Agent K) : Bool := a.lb.length == 1 && a.ub.length == 1

/-- The arguments of `randint` for index `i`, e.g. lines 95-98. -/
def Agent.bound (a : Agent K) (i : ℕ) : Py (ℤ × ℤ) :=
  match a.lb[if a.one then 0 else i]?, a.ub[if a.one then 0 else i]? with
  | some l, some u => .ok (l, u)
  | _, _ => .error .indexError

/-- `np.random.randint(l, u)`: from `l` up to but excluding `u`. -/
def randint (b : ℤ × ℤ) (r : ℕ) : Py ℤ := if b.2 ≤ b.1 then .error .valueError else .ok (b.1 + (r : ℤ) % (b.2 - b.1))

/-- `random.sample(self.x_index, 2)`. -/
def twoOf (n a b : ℕ) : Py (ℕ × ℕ) := if n < 2 then .error .valueError else .ok (a % n, (a % n + 1 + b % (n - 1)) % n)

/-- Draws of one move. -/
structure Draw (K : Type) where
  a : ℕ
  b : ℕ
  /-- the pairs of samples drawn by the loops of `singleswap` and `dualswap` -/
  rs : List (ℕ × ℕ)
  /-- `random.random()` per coordinate -/
  u : ℕ → K
  /-- samples per coordinate -/
  r : ℕ → ℕ
  /-- `random.random()` of `kbs` -/
  p : K
  /-- the choice from `ind_list` -/
  k : ℕ

/-- The loop of `singleswap`, lines 95-104: draw until the value changes. -/
def until1 (b : ℤ × ℤ) (x : K) : List (ℕ × ℕ) → Option (Py ℤ)
  | [] => none
  | r :: rs =>
    match randint b r.1 with
    | .error e => some (.error e)
    | .ok s => if x = (s : K) then until1 b x rs else some (.ok s)

/-- `singleswap`, lines 84-108 (the bounds are never `None` after the constructor). -/
def singleswap (a : Agent K) (d : Draw K) (x : List K) : Option (Py (List K)) :=
  match twoOf a.xsize d.a d.b with
  | .error e => some (.error e)
  | .ok (i, _) =>
    match a.bound i with
    | .error e => some (.error e)
    | .ok b =>
      match x[i]? with
      | none => some (.error .indexError)
      | some v => (until1 b v d.rs).map fun o => o.map fun s => x.set i (s : K)

/-- The loop of `dualswap`, lines 120-129: draw both until both values change. -/
def until2 (b1 b2 : ℤ × ℤ) (x1 x2 : K) : List (ℕ × ℕ) → Option (Py (ℤ × ℤ))
  | [] => none
  | r :: rs =>
    match randint b1 r.1 with
    | .error e => some (.error e)
    | .ok s1 =>
      match randint b2 r.2 with
      | .error e => some (.error e)
      | .ok s2 => if x1 = (s1 : K) ∨ x2 = (s2 : K) then until2 b1 b2 x1 x2 rs else some (.ok (s1, s2))

/-- `dualswap`, lines 110-133. -/
def dualswap (a : Agent K) (d : Draw K) (x : List K) : Option (Py (List K)) :=
  match twoOf a.xsize d.a d.b with
  | .error e => some (.error e)
  | .ok (i, j) =>
    match a.bound i, a.bound j with
    | .error e, _ => some (.error e)
    | _, .error e => some (.error e)
    | .ok b1, .ok b2 =>
      match x[i]?, x[j]? with
      | some v, some w => (until2 b1 b2 v w d.rs).map fun o => o.map fun s => (x.set i (s.1 : K)).set j (s.2 : K)
      | _, _ => some (.error .indexError)

/-- `quadswap`, lines 136-155: with one bound for all `self.ubound+1` adds a number to a list; with several bounds neither branch is taken. -/
def quadswap (a : Agent K) (x : List K) : Option (Py (List K)) :=
  if a.xsize < 4 then some (.error .valueError) else if a.one then some (.error .typeError) else some (.ok x)

/-- The loops that redraw each coordinate with probability `indpb`, lines 164-167 and 188-194. -/
def perturb (a : Agent K) (d : Draw K) : ℕ → List K → Py (List K)
  | _, [] => .ok []
  | i, x :: xs => do
    let y ← (if d.u i < a.indpb then do
        let b ← a.bound i
        let z ← randint b (d.r i)
        .ok (z : K)
      else .ok x)
    let ys ← perturb a d (i + 1) xs
    .ok (y :: ys)

/-- `np.random.randint(l, u, n)`. -/
def randints (b : ℤ × ℤ) (r : ℕ → ℕ) (n : ℕ) : Py (List K) :=
  if b.2 ≤ b.1 then .error .valueError else .ok ((List.range n).map fun i => ((b.1 + (r i : ℤ) % (b.2 - b.1) : ℤ) : K))

/-- `fullswap`, lines 157-168. -/
def fullswap (a : Agent K) (d : Draw K) (x : List K) : Py (List K) :=
  if a.one then do
    let b ← a.bound 0
    randints b d.r x.length
  else perturb a d 0 x

/-- `kbs`, lines 170-198: the new vector and `ind_list`, and whether the data set was used.  All errors become a plain exception. -/
def kbs (a : Agent K) (d : Draw K) (inds : List ℕ) (x : List K) : Py (List K × List ℕ × Bool) :=
  if d.p < a.indpbKbs then
    match inds[d.k % inds.length]? with
    | none => .error .runtimeError
    | some i =>
      match a.data[i]? with
      | none => .error .runtimeError
      | some row =>
        let rest := inds.erase i
        .ok (row, if rest.isEmpty then List.range a.data.length else rest, true)
  else
    match perturb a d 0 x with
    | .error _ => .error .runtimeError
    | .ok y => .ok (y, inds, false)

/-- `self.move()`, lines 233-245 and 271. -/
def move (a : Agent K) (d : Draw K) (inds : List ℕ) (x : List K) : Option (Py (List K × List ℕ × Bool)) :=
  let keep : Option (Py (List K)) → Option (Py (List K × List ℕ × Bool)) := fun o => o.map fun y => y.map fun y => (y, inds, false)
  match a.swap with
  | .single => keep (singleswap a d x)
  | .dual => keep (dualswap a d x)
  | .quad => keep (quadswap a x)
  | .full => keep (some (fullswap a d x))
  | .kbs => some (kbs a d inds x)
  | .other => some (.error .runtimeError)

/-- `np.random.randint(self.lbound, self.ubound)` on two lists: broadcast, then one sample per entry (line 214). -/
def randvec (lb ub : List ℤ) (r : ℕ → ℕ) : Py (List K) :=
  let n := max lb.length ub.length
  if (lb.length = n ∨ lb.length = 1) ∧ (ub.length = n ∨ ub.length = 1) then
    let lb := if lb.length = n then lb else List.replicate n (lb.headD 0)
    let ub := if ub.length = n then ub else List.replicate n (ub.headD 0)
    if (List.zip lb ub).any (fun b => b.2 ≤ b.1) then .error .valueError
    else .ok ((List.zip lb ub).mapIdx fun i b => ((b.1 + (r i : ℤ) % (b.2 - b.1) : ℤ) : K))
  else .error .valueError

/-- The first state, lines 207-216.  Comparing an array with `None` gives an array, whose truth value is an error unless it has one entry. -/
def start (a : Agent K) (r : ℕ → ℕ) : Py (List K) :=
  match a.initstate with
  | some v => if v.length = 1 then .ok v else .error .valueError
  | none =>
    if a.one then do
      let b ← a.bound 0
      randints b r a.xsize
    else randvec a.lb a.ub r

/-- What is printed at a check, lines 306-328 (before rounding): the rates are `accepts / trials` and `improves / trials`. -/
structure Report (K : Type) where
  step : ℕ
  trials : ℕ
  accepts : ℕ
  improves : ℕ
  best : List K
  energy : K

/-- Ghost record of a step. -/
structure Entry (K : Type) where
  step : ℕ
  src : List K
  cand : List K
  dst : List K
  accepted : Bool
  used : Bool

/-- Local variables of `build`, lines 205-251, with the reports and the ghost trace. -/
structure State (K : Type) where
  x : List K
  xPrev : List K
  ePrev : K
  xBest : List K
  eBest : K
  inds : List ℕ
  trials : ℕ
  accepts : ℕ
  improves : ℕ
  reports : List (Report K)
  trace : List (Entry K)

/-- Draws of a step: those of the move and `alpha`. -/
structure StepDraw (K : Type) where
  mv : Draw K
  alpha : K

/-- The cooling schedules, lines 260-268. -/
inductive Cooling
  | fast | boltzmann | cauchy

/-- The temperature of a step, lines 260-266; `ex` and `lg` are `np.exp` and `np.log`. -/
def coolT (ex lg : K → K) (tmax tmin : K) (steps : ℤ) : Cooling → ℕ → K
  | .fast, k => tmax * ex (-lg (tmax / tmin) * k / steps)
  | .boltzmann, k => tmax / lg (k + 1)
  | .cauchy, k => tmax / (k + 1)

variable (accP : K → K → K) (temp : ℕ → K) (fit : List K → K)

/-- Accept or reject, lines 273-301. -/
def decideStep (step : ℕ) (alpha : K) (cand : List K) (inds : List ℕ) (used : Bool) (s : State K) : State K :=
  let energy := -fit cand
  let dE := energy - s.ePrev
  if 0 < dE ∧ accP dE (temp step) < alpha then
    { s with x := s.xPrev, inds := inds, trials := s.trials + 1, trace := s.trace ++ [⟨step, s.xPrev, cand, s.xPrev, false, used⟩] }
  else
    { s with x := cand, xPrev := cand, ePrev := energy
             xBest := if energy < s.eBest then cand else s.xBest
             eBest := if energy < s.eBest then energy else s.eBest
             inds := inds, trials := s.trials + 1, accepts := s.accepts + 1
             improves := if dE < 0 then s.improves + 1 else s.improves
             trace := s.trace ++ [⟨step, s.xPrev, cand, cand, true, used⟩] }

/-- The progress check, lines 306-331; `step % 0` is a ZeroDivisionError. -/
def check (a : Agent K) (step : ℕ) (s : State K) : Py (State K) :=
  if a.checkFreq = 0 then .error .zeroDivision
  else if (step : ℤ) % a.checkFreq = 0 ∨ (step : ℤ) = a.steps then
    .ok { s with trials := 0, accepts := 0, improves := 0, reports := s.reports ++ [⟨step, s.trials, s.accepts, s.improves, s.xBest, s.eBest⟩] }
  else .ok s

/-- One turn of the loop, lines 255-331. -/
def turn (a : Agent K) (step : ℕ) (d : StepDraw K) (s : State K) : Option (Py (State K)) :=
  (move a d.mv s.inds s.x).map fun o => do
    let (y, inds, used) ← o
    check a step (decideStep accP temp fit step d.alpha y inds used s)

/-- The state before the loop, lines 218-251. -/
def initial (a : Agent K) (x0 : List K) : State K :=
  { x := x0, xPrev := x0, ePrev := -fit x0, xBest := x0, eBest := -fit x0, inds := List.range a.data.length, trials := 0, accepts := 0, improves := 0, reports := [], trace := [] }

/-- The first `n` turns of the loop. -/
def turns (a : Agent K) (dr : ℕ → StepDraw K) (x0 : List K) : ℕ → Option (Py (State K))
  | 0 => some (.ok (initial fit a x0))
  | n + 1 =>
    match turns a dr x0 n with
    | none => none
    | some (.error e) => some (.error e)
    | some (.ok s) => turn accP temp fit a (n + 1) (dr (n + 1)) s

/-- `build`, lines 200-331: `while step <= self.steps`.  Nothing is returned; the state is kept to speak about it. -/
def build (a : Agent K) (r : ℕ → ℕ) (dr : ℕ → StepDraw K) : Option (Py (State K)) :=
  match start a r with
  | .error e => some (.error e)
  | .ok x0 =>
    match a.swap with
    | .other => some (.error .runtimeError)
    | _ => turns accP temp fit a dr x0 (a.steps + 1).toNat

end

end Neorl.Anneal

import Verif.EDEV

/-!
# The parameter pool of EPSDE

`neorl/hybrid/edev.py` lines 299, 315-325, 491-512 and 569-601: every member of the third sub-population gets a strategy, a crossover rate and a scale, either
fresh or from the pool `PPara` of parameters that were successful before.

`np.random.randint(n)` is `ri n` for an arbitrary function `ri` (below `n` in the theorems, `ValueError` for `n = 0`); which members are successful
(`tempval[i] < val[i]`, line 571) is an arbitrary list of Booleans, the rest of the generation is in `Verif/EDEV.lean`.
-/

set_option linter.unusedSectionVars false
set_option linter.unusedVariables false

namespace Neorl.EPSPool

section
variable {K : Type} [Field K] [LinearOrder K] [IsStrictOrderedRing K]

/-- One row of `Para`: strategy, crossover rate, scale. -/
structure Par (K : Type) where
  strat : ℕ
  cr : K
  scale : K
deriving DecidableEq

/-- `FF`, line 315. -/
def scales : List K := [4 / 10, 5 / 10, 6 / 10, 7 / 10, 8 / 10, 9 / 10]

/-- `CR`, line 316. -/
def rates : List K := [1 / 10, 2 / 10, 3 / 10, 4 / 10, 5 / 10, 6 / 10, 7 / 10, 8 / 10, 9 / 10]

/-- What is kept between generations: `PPara`, `RR`, `rate`, `RATE`. -/
structure Mem (K : Type) where
  pool : List (Par K)
  rr : List ℕ
  hist : List K
  rate : K

/-- Lines 299, 318, 320, 325. -/
def Mem.init (npop : ℕ) : Mem K := ⟨[], List.replicate npop 0, [], 0⟩

/-- The draws for one member: a uniform number and the calls of `randint` in their order. -/
structure Draw (K : Type) where
  u : K
  ri : ℕ → ℕ → ℕ

/-- `np.random.randint(n)`, call number `t`. -/
def randint (d : Draw K) (t n : ℕ) : Py ℕ := if n = 0 then .error .valueError else .ok (d.ri t n)

/-- An entry of an array. -/
def at' {α : Type} (l : List α) (i : ℕ) : Py α :=
  match l[i]? with
  | some a => .ok a
  | none => .error .indexError

/-- Lines 498-500 and 508-512: a fresh row; `sp` is `spara`. -/
def fresh (sp : List ℕ) (d : Draw K) : Py (Par K) := do
  let a ← randint d 0 sp.length
  let s ← at' sp a
  let b ← randint d 1 (rates (K := K)).length
  let c ← at' rates b
  let e ← randint d 2 (scales (K := K)).length
  let f ← at' scales e
  .ok ⟨s, c, f⟩

/-- Lines 504-505: the index that may be deleted later and the row that is used are drawn separately. -/
def reuse (pool : List (Par K)) (d : Draw K) : Py (ℕ × Par K) := do
  let r ← randint d 0 pool.length
  let j ← randint d 1 pool.length
  let p ← at' pool j
  .ok (r, p)

/-- Lines 503-512 for one member. -/
def pick (sp : List ℕ) (NP : ℕ) (m : Mem K) (d : Draw K) : Py (ℕ × Par K) :=
  if (d.u ≤ m.rate ∧ 0 < m.pool.length) ∨ m.rr.length < NP then reuse m.pool d
  else (fresh sp d).map fun p => (0, p)

/-- Lines 497-512: the new `RR` and `Para`. -/
def choose (sp : List ℕ) (g NP : ℕ) (m : Mem K) (d : ℕ → Draw K) : Py (List ℕ × List (Par K)) :=
  if g = 0 then (mapRows (fun i _ => fresh sp (d i)) 0 (List.range NP)).map fun ps => (m.rr, ps)
  else
    match mapRows (fun i _ => pick sp NP m (d i)) 0 (List.range NP) with
    | .error e => .error e
    | .ok l => if m.rr.length < NP then .error .indexError else .ok (l.map (·.1) ++ m.rr.drop NP, l.map (·.2))

/-- The list `RRR`, lines 575-576. -/
def marked (rr : List ℕ) (won : List Bool) : List ℕ := (rr.zip won).filterMap fun p => if p.2 ∧ p.1 ≠ 0 then some p.1 else none

/-- The rows appended in line 574. -/
def winners (ps : List (Par K)) (won : List Bool) : List (Par K) := (ps.zip won).filterMap fun p => if p.2 then some p.1 else none

/-- `np.delete(l, idx, axis=0)`. -/
def delete {α : Type} (l : List α) (idx : List ℕ) : Py (List α) :=
  if idx.all (· < l.length) then .ok ((l.zipIdx.filter fun p => p.2 ∉ idx).map (·.1)) else .error .indexError

/-- `np.mean` (of a list that is not empty). -/
def mean (l : List K) : K := l.sum / l.length

/-- Lines 595-599. -/
def newRate (g : ℕ) (hist : List K) : K := if g > 10 then mean ((hist.take g).drop (g - 10)) else mean hist

/-- Lines 569-599: what is kept after generation `g`; `rr`, `ps` are the choices, `won` the successes. -/
def update (g NP : ℕ) (m : Mem K) (rr : List ℕ) (ps : List (Par K)) (won : List Bool) : Py (Mem K) :=
  match delete (m.pool ++ winners ps won) (marked rr won) with
  | .error e => .error e
  | .ok pool =>
    if NP = 0 then .error .zeroDivision
    else
      let hist := m.hist ++ [(won.count false : K) / NP]
      .ok ⟨pool, rr, hist, newRate g hist⟩

/-- One generation: `NP` members, draws and a rule that says which of them are successful with the parameters they got. -/
structure Gen (K : Type) where
  NP : ℕ
  d : ℕ → Draw K
  win : List (Par K) → List Bool

/-- Generation number `g`; also the rows used and the successes. -/
def step (sp : List ℕ) (g : ℕ) (x : Gen K) (m : Mem K) : Py (Mem K × List (Par K) × List Bool) :=
  match choose sp g x.NP m x.d with
  | .error e => .error e
  | .ok (rr, ps) => (update g x.NP m rr ps (x.win ps)).map fun m' => (m', ps, x.win ps)

/-- The loop, from generation `g` on, with a record of the rows used and the successes. -/
def run (sp : List ℕ) : ℕ → List (Gen K) → Mem K → Py (Mem K × List (List (Par K) × List Bool))
  | _, [], m => .ok (m, [])
  | g, x :: t, m =>
    match step sp g x m with
    | .error e => .error e
    | .ok (m', r) =>
      match run sp (g + 1) t m' with
      | .error e => .error e
      | .ok (m'', rs) => .ok (m'', r :: rs)

end

end Neorl.EPSPool

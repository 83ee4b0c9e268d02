import Verif.EDEVCore
import Verif.Swarm
import Verif.Round

/-!
# Ensemble of differential evolution variants

`neorl/hybrid/edev.py`: one population, cut anew in every generation into three sub-populations which run JADE, CoDE and EPSDE.

`mixPop` and `mixVal` are kept as one list of (individual, value) pairs.  All random numbers of a generation are fields of `Draws`; the sampled
control parameters (`randFCR`, `Para`) and donor indices (`gnR1R2`, `generator`) enter as such, their generators are in `Verif/EDEVCore.lean`.
The EPSDE parameter memory `PPara`, `RATE`, `RR` is in `Verif/EPSPool.lean`; here `Draws.estrat`, `ecr`, `epar` stand for whatever it yields.
-/

set_option linter.unusedSectionVars false
set_option linter.unusedVariables false

namespace Neorl.EDEV

section
variable {K : Type} [Field K] [LinearOrder K] [IsStrictOrderedRing K] [FloorRing K]

/-- An individual with its stored value. -/
abbrev Indv (K : Type) := List K × K

/-- The arguments that matter: space, `npop`, `slice_index`, `ngen`, `ng`. -/
structure Cfg (K : Type) where
  S : Space K
  npop : ℕ
  slice : ℕ
  ngen : ℕ
  ng : ℕ

/-- `__init__` checks, lines 51-54 and 95-97, and the `evolute` assertion, line 217. -/
def configure (S : Space K) (npop ngen ng : ℕ) : Py (Cfg K) :=
  if npop < 70 then .error .assertion
  else if npop / 10 ≤ 6 then .error .valueError
  else if ngen ≤ ng then .error .assertion
  else .ok ⟨S, npop, npop / 10, ngen, ng⟩

/-- Random numbers of one generation. -/
structure Draws (K : Type) where
  /-- line 341 -/
  perm : List ℕ
  /-- lines 374-380 -/
  F : ℕ → K
  CR : ℕ → K
  r1 : ℕ → ℕ
  r2 : ℕ → ℕ
  /-- `np.argsort(valParents)`, line 381 (order of ties unspecified) -/
  argsort : List K → List ℕ
  /-- lines 383, 402, 404 -/
  up : ℕ → K
  mu : ℕ → ℕ → K
  col : ℕ → ℕ
  dJ : ℕ → ℕ → K × ℕ
  /-- archive order and permutation, `helpers.py` 218, 223 -/
  asort : List (Indv K) → List (Indv K)
  apos : ℕ → List ℕ
  /-- `generator`: parameters, donors, crossover numbers for each of the three strategies -/
  cF : ℕ → ℕ → K
  cCR : ℕ → ℕ → K
  don : ℕ → ℕ → ℕ → ℕ
  cw : ℕ → ℕ → K
  cu : ℕ → ℕ → ℕ → K
  cj : ℕ → ℕ → ℕ
  dC : ℕ → ℕ → K × ℕ
  /-- EPSDE: strategy, crossover rate, scaled parameters, permutation, uniform numbers, forced index, reset numbers -/
  estrat : ℕ → ℕ
  ecr : ℕ → K
  epar : ℕ → ℕ → K
  eind : ℕ → ℕ → ℕ
  eu : ℕ → ℕ → K
  ew : ℕ → ℕ → K
  ej : ℕ → ℕ
  ereset : ℕ → ℕ → K
  dE : ℕ → ℕ → K × ℕ

/-- Coordinate `j` of row `i` of a sub-population. -/
def cell (pop : List (Indv K)) (i j : ℕ) : K := ((pop.getD i ([], 0)).1).getD j 0

/-- `ensure_bounds` then `ensure_discrete`, lines 252-254, 303-305, 414-416, 458-460, 563-565. -/
def repair (S : Space K) (a : K) (d : ℕ → ℕ → K × ℕ) : ℕ → List K → Py (List K) := fun i row => S.disc a (d i) (S.clip row)

/-- First minimal pair: `np.min` with `np.argmin`. -/
def minPair : List (Indv K) → Option (Indv K)
  | [] => none
  | p :: l =>
    match minPair l with
    | none => some p
    | some q => if q.2 < p.2 then some q else some p

/-- `if np.min(val) < self.overallBestVal: ...`, lines 428-431, 476-479, 584-587 (`np.min` of nothing raises). -/
def improve (b : K × List K) (sub : List (Indv K)) : Py ((K × List K) × K) :=
  match minPair sub with
  | none => .error .valueError
  | some p => .ok (if p.2 < b.1 then (p.2, p.1) else b, p.2)

/-- `mixPop[idx]`, `mixVal[idx]`, lines 365-366, 442-443, 490-491. -/
def gather (idx : List ℕ) (arr : List (Indv K)) : List (Indv K) := idx.map (fun k => arr.getD k ([], 0))

/-- `mixPop[idx] = sub`, lines 436-437, 484-485, 592-593. -/
def scatter : List ℕ → List (Indv K) → List (Indv K) → List (Indv K)
  | k :: idx, p :: sub, arr => scatter idx sub (arr.set k p)
  | _, _, arr => arr

/-- `np.sum(mixVal[idx] - val)`, lines 435, 483, 591. -/
def gain (old new : List (Indv K)) : K := (List.zipWith (fun p q => p.2 - q.2) old new).sum

/-! ### JADE -/

/-- `pNP`, line 382. -/
def pNP (popsize : ℕ) : ℕ := max (roundHE ((1 / 20 : K) * (popsize : K))).toNat 2

/-- `randindex` for a uniform number, lines 383-385. -/
def randIndex (popsize : ℕ) (u : K) : ℕ := max (⌈u * (pNP (K := K) popsize : K)⌉).toNat 1 - 1

/-- Row `i` of `vi`, lines 387-396. -/
def jadeMutant (S : Space K) (D : Draws K) (pop all : List (Indv K)) (i : ℕ) : List K :=
  let ib := (D.argsort (pop.map (·.2))).getD (randIndex pop.length (D.up i)) 0
  S.clip ((List.range S.bounds.length).map
    (fun j => cell pop i j + D.F i * (cell pop ib j - cell pop i j + cell pop (D.r1 i) j - cell all (D.r2 i) j)))

/-- Is position `(i, j)` set to `False` by `mask[jrand]=False`, lines 403-408?  `sub2ind` (`helpers.py` 135-137) gives `popsize*(cols-1)+rows`,
a column-major number, and `mask` is flattened row by row. -/
def forced (popsize dim : ℕ) (col : ℕ → ℕ) (i j : ℕ) : Bool :=
  (List.range popsize).any (fun r => popsize * col r + r == i * dim + j)

/-- Row `i` of `ui`, lines 402-410. -/
def jadeTrial (S : Space K) (D : Draws K) (pop all : List (Indv K)) (i : ℕ) : List K :=
  (List.range S.bounds.length).map (fun j =>
    if D.CR i < D.mu i j ∧ forced pop.length S.bounds.length D.col i j = false then cell pop i j else (jadeMutant S D pop all i).getD j 0)

/-- Selection of JADE, lines 421-425. -/
def jadeSel (f : List K → K) (p : Indv K) (o : List K) : Indv K := if f o ≤ p.2 then (o, f o) else p

/-- Result of a stage: new sub-population, evaluated points. -/
abbrev Stage (K : Type) := List (Indv K) × List (List K)

/-- JADE on a sub-population, lines 365-425. -/
def jade (S : Space K) (f : List K → K) (a : K) (D : Draws K) (arch pop : List (Indv K)) : Py (Stage K) :=
  match mapRows (repair S a D.dJ) 0 ((List.range pop.length).map (jadeTrial S D pop (pop ++ arch))) with
  | .error e => .error e
  | .ok us => .ok (List.zipWith (jadeSel f) pop us, us.map S.clip)

/-- What JADE hands to the archive, line 424: the replaced parents with the values of their *offspring* (`valParents` was overwritten on line 421). -/
def jadeReplaced (f : List K → K) (pop : List (Indv K)) (us : List (List K)) : List (Indv K) :=
  (List.zipWith (fun p o => if f o ≤ p.2 then [(p.1, f o)] else []) pop us).flatten

/-- The adaptive means of JADE and what feeds them, lines 276-277, 322-324. -/
structure JMem (K : Type) where
  CRm : K
  Fm : K
  FESj : ℕ
  goodCR : List K
  goodF : List K

/-- Lines 276-277 and 322-324. -/
def JMem.init : JMem K := ⟨1 / 2, 1 / 2, 0, [], []⟩

/-- One generation of the means, lines 274, 368-370 and 426-427 (`goodCR` is assigned twice, `goodF` never; `FESj` is never increased). -/
def JMem.step (CRj Fj : List K) (I : List ℕ) (s : JMem K) : JMem K :=
  let c : K := 1 / 10
  let s1 : JMem K :=
    if 1 < s.FESj ∧ 0 < s.goodCR.length ∧ 0 < s.goodF.sum then
      { s with CRm := (1 - c) * s.CRm + c * (s.goodCR.sum / (s.goodCR.length : K)),
               Fm := (1 - c) * s.Fm + c * (s.goodF.map (fun x => x ^ 2)).sum / s.goodF.sum }
    else s
  let s2 : JMem K := { s1 with goodCR := I.map (fun k => CRj.getD k 0) }
  { s2 with goodCR := I.map (fun k => Fj.getD k 0) }

/-! ### CoDE -/

/-- Binomial crossover, `helpers.py` 74-78, 124-128. -/
def binomial (dim : ℕ) (u : ℕ → K) (CR : K) (jr : ℕ) (v w : ℕ → K) : List K :=
  (List.range dim).map (fun j => if u j < CR ∨ j = jr then v j else w j)

/-- The three candidates for individual `i`, `generator`, `helpers.py` 45-133. -/
def codeTrials (S : Space K) (D : Draws K) (pop : List (Indv K)) (i : ℕ) : List (List K) :=
  let dim := S.bounds.length
  let p := fun k j => cell pop (D.don i k j.1) j.2
  let v1 := S.clip ((List.range dim).map (fun j => p 0 (0, j) + D.cF i 0 * (p 0 (1, j) - p 0 (2, j))))
  let v2 := S.clip ((List.range dim).map
    (fun j => cell pop i j + D.cw i 0 * (p 1 (0, j) - cell pop i j) + D.cF i 1 * (p 1 (1, j) - p 1 (2, j))))
  let v3 := S.clip ((List.range dim).map
    (fun j => p 2 (0, j) + D.cw i 1 * (p 2 (1, j) - p 2 (2, j)) + D.cF i 2 * (p 2 (3, j) - p 2 (4, j))))
  [binomial dim (D.cu i 0) (D.cCR i 0) (D.cj i 0) (fun j => v1.getD j 0) (fun j => cell pop i j), v2,
   binomial dim (D.cu i 2) (D.cCR i 2) (D.cj i 2) (fun j => v3.getD j 0) (fun j => cell pop i j)]

/-- Selection of CoDE for individual `i`, lines 463-471. -/
def codeSel (f : List K → K) (us : List (List K)) (i : ℕ) (p : Indv K) : Indv K :=
  match minPair ([us.getD (3 * i) [], us.getD (3 * i + 1) [], us.getD (3 * i + 2) []].map (fun o => (o, f o))) with
  | none => p
  | some b => if b.2 ≤ p.2 then b else p

/-- CoDE on a sub-population, lines 442-474. -/
def code (S : Space K) (f : List K → K) (a : K) (D : Draws K) (pop : List (Indv K)) : Py (Stage K) :=
  match mapRows (repair S a D.dC) 0 ((List.range pop.length).flatMap (codeTrials S D pop)) with
  | .error e => .error e
  | .ok us => .ok (pop.mapIdx (codeSel f us), us.map S.clip)

/-! ### EPSDE -/

/-- `FM_mui`, lines 521-526: where nothing is chosen one index is forced. -/
def epsMask (dim : ℕ) (D : Draws K) (i j : ℕ) : Bool :=
  if (List.range dim).all (fun k => decide (¬ D.eu i k < D.ecr i)) then j == D.ej i else decide (D.eu i j < D.ecr i)

/-- Row `i` of `FM_ui` before the bound check, lines 529-556 (`zeros` for any other strategy number, line 518). -/
def epsRaw (S : Space K) (D : Draws K) (bm : List K) (pop : List (Indv K)) (i : ℕ) : List K :=
  let dim := S.bounds.length
  let p := fun k j => cell pop (D.eind i k) j
  (List.range dim).map (fun j =>
    if D.estrat i = 0 then
      if epsMask dim D i j then bm.getD j 0 + (p 0 j - p 1 j + p 2 j - p 3 j) * D.epar i j else cell pop i j
    else if D.estrat i = 1 then
      if epsMask dim D i j then p 0 j + D.epar i j * (p 1 j - p 2 j) else cell pop i j
    else if D.estrat i = 2 then cell pop i j + D.ew i j * (p 0 j - cell pop i j) + D.epar i j * (p 1 j - p 2 j)
    else 0)

/-- Is the row inside the box, line 558? -/
def inside (bs : List (K × K)) (v : List K) : Bool := (List.zipWith (fun b x => decide (b.1 ≤ x ∧ x ≤ b.2)) bs v).all id

/-- Row `i` of `FM_ui`, lines 520-560. -/
def epsTrial (S : Space K) (D : Draws K) (bm : List K) (pop : List (Indv K)) (i : ℕ) : List K :=
  let v := epsRaw S D bm pop i
  if inside S.bounds v then v else S.bounds.mapIdx (fun j b => b.1 + (b.2 - b.1) * D.ereset i j)

/-- Selection of EPSDE, lines 571-573. -/
def epsSel (f : List K → K) (p : Indv K) (o : List K) : Indv K := if f o < p.2 then (o, f o) else p

/-- `F_bestval` and `FVr_bestmem`, lines 569-580. -/
def epsBest (f : List K → K) : K × List K → List (Indv K) → List (List K) → K × List K
  | b, p :: pop, o :: us => epsBest f (if f o < p.2 ∧ f o < b.1 then (f o, o) else b) pop us
  | b, _, _ => b

/-- EPSDE on a sub-population, lines 490-582; also returns the new `FVr_bestmem`. -/
def eps (S : Space K) (f : List K → K) (a : K) (D : Draws K) (bm : K × List K) (pop : List (Indv K)) : Py (Stage K × (K × List K)) :=
  match mapRows (repair S a D.dE) 0 ((List.range pop.length).map (epsTrial S D bm.2 pop)) with
  | .error e => .error e
  | .ok us => .ok ((List.zipWith (epsSel f) pop us, us.map S.clip), epsBest f bm pop us)

/-! ### The loop -/

/-- `arrayFirst, arraySecond, arrayThird`, lines 342-358. -/
def parts (s idx : ℕ) (perm : List ℕ) : List ℕ × List ℕ × List ℕ :=
  if idx = 0 then (perm.drop (2 * s), (perm.drop s).take s, perm.take s)
  else if idx = 1 then ((perm.drop s).take s, perm.drop (2 * s), perm.take s)
  else (perm.take s, (perm.drop s).take s, perm.drop (2 * s))

/-- `indexBestLN`, lines 333-336: first maximum of the three rates. -/
def rank (change : K × K × K) (n1 n2 n3 : ℕ) : ℕ :=
  let r0 := change.1 / (n1 : K)
  let r1 := change.2.1 / ((n2 * 3 : ℕ) : K)
  let r2 := change.2.2 / (n3 : K)
  if r1 ≤ r0 ∧ r2 ≤ r0 then 0 else if r2 ≤ r1 then 1 else 2

/-- State between generations; `log` lists the evaluated points that competed, `extra` those evaluated again on line 307. -/
structure State (K : Type) where
  arr : List (Indv K)
  best : K × List K
  bm : K × List K
  change : K × K × K
  idx : ℕ
  part : List ℕ × List ℕ × List ℕ
  arch : List (Indv K)
  log : List (List K)
  extra : List (List K)
  hG : List K
  hJ : List K
  hC : List K
  hE : List K

/-- Lines 243-326. -/
def start (C : Cfg K) (f : List K → K) (x0 : List (List K)) (d0 d1 : ℕ → ℕ → K × ℕ) (perm0 : List ℕ) : Py (State K) :=
  match mapRows (repair C.S 1 d0) 0 x0 with
  | .error e => .error e
  | .ok us =>
    match Swarm.select f (us.map C.S.clip) with
    | .error e => .error e
    | .ok b =>
      let part := parts C.slice 0 perm0
      match mapRows (repair C.S 1 d1) 0 (part.2.2.map (fun k => us.getD k [])) with
      | .error e => .error e
      | .ok es =>
        match Swarm.select f (es.map C.S.clip) with
        | .error e => .error e
        | .ok m => .ok ⟨us.map (fun x => (x, f x)), b, m, (1, 1, 1), 0, part, [], us.map C.S.clip, es.map C.S.clip, [], [], [], []⟩

/-- `gen % ng == 0`, lines 332-339. -/
def adjust (C : Cfg K) (k : ℕ) (s : State K) : Py (ℕ × (K × K × K)) :=
  if C.ng = 0 then .error .zeroDivision
  else if k % C.ng = 0 then .ok (rank s.change s.part.1.length s.part.2.1.length s.part.2.2.length, (1, 1, 1))
  else .ok (s.idx, s.change)

/-- One generation, lines 329-622. -/
def gen (C : Cfg K) (f : List K → K) (D : Draws K) (k : ℕ) (s : State K) : Py (State K) :=
  let a : K := 1 - (k : K) * (1 / (C.ngen : K))
  match adjust C k s with
  | .error e => .error e
  | .ok (idx, ch) =>
    let part := parts C.slice idx D.perm
    let p1 := gather part.1 s.arr
    match jade C.S f a D s.arch p1 with
    | .error e => .error e
    | .ok (n1, l1) =>
      match improve s.best n1 with
      | .error e => .error e
      | .ok (b1, h1) =>
        let arr1 := scatter part.1 n1 s.arr
        let p2 := gather part.2.1 arr1
        match code C.S f a D p2 with
        | .error e => .error e
        | .ok (n2, l2) =>
          match improve b1 n2 with
          | .error e => .error e
          | .ok (b2, h2) =>
            let arr2 := scatter part.2.1 n2 arr1
            let p3 := gather part.2.2 arr2
            match eps C.S f a D s.bm p3 with
            | .error e => .error e
            | .ok ((n3, l3), bm) =>
              match improve b2 n3 with
              | .error e => .error e
              | .ok (b3, h3) =>
                let arr3 := scatter part.2.2 n3 arr2
                .ok { arr := arr3, best := b3, bm := bm,
                      change := (ch.1 + gain p1 n1, ch.2.1 + gain p2 n2, ch.2.2 + gain p3 n3),
                      idx := idx, part := part,
                      arch := archive (C.npop - 2 * C.slice) D.asort D.apos s.arch (jadeReplaced f p1 l1),
                      log := s.log ++ l1 ++ l2 ++ l3, extra := s.extra,
                      hG := s.hG ++ [b3.1], hJ := s.hJ ++ [h1], hC := s.hC ++ [h2], hE := s.hE ++ [h3] }

/-- The `while` loop after `k` generations, lines 327-622. -/
def run (C : Cfg K) (f : List K → K) (D : ℕ → Draws K) (s0 : State K) : ℕ → Py (State K)
  | 0 => .ok s0
  | k + 1 =>
    match run C f D s0 k with
    | .error e => .error e
    | .ok s => gen C f (D k) k s

/-- What `evolute` returns; `logged`/`extra` are ghosts. -/
structure Result (K : Type) where
  x : List K
  y : K
  hist : List K
  histJ : List K
  histC : List K
  histE : List K
  lastPop : List (Indv K)
  logged : List (List K)
  extra : List (List K)

/-- `fit_worker` clips, line 166. -/
def worker (S : Space K) (m : Bool) (userFit : List K → K) : List K → K := fun x => sgn m (userFit (S.clip x))

/-- `evolute`, lines 205-663. -/
def evolute (S : Space K) (npop ngen ng : ℕ) (m : Bool) (userFit : List K → K) (x0 : List (List K)) (d0 d1 : ℕ → ℕ → K × ℕ) (perm0 : List ℕ)
    (D : ℕ → Draws K) : Py (Result K) :=
  match configure S npop ngen ng with
  | .error e => .error e
  | .ok C =>
    if x0.length ≠ npop then .error .assertion
    else
      match start C (worker S m userFit) x0 d0 d1 perm0 with
      | .error e => .error e
      | .ok s0 =>
        match run C (worker S m userFit) D s0 ngen with
        | .error e => .error e
        | .ok s =>
          .ok { x := s.best.2, y := sgn m s.best.1, hist := s.hG.map (sgn m), histJ := s.hJ.map (sgn m), histC := s.hC.map (sgn m),
                histE := s.hE.map (sgn m), lastPop := s.arr.map (fun p => (p.1, sgn m p.2)), logged := s.log, extra := s.extra }

/-! ### Lemmas: selection -/

theorem minPair_spec {l : List (Indv K)} {p : Indv K} (h : minPair l = some p) : p ∈ l ∧ ∀ q ∈ l, p.2 ≤ q.2 := by
  induction l generalizing p with
  | nil => cases h
  | cons a l ih =>
    simp only [minPair] at h
    split at h
    · rename_i hn
      cases h
      refine ⟨by simp, ?_⟩
      intro q hq
      rcases List.mem_cons.1 hq with rfl | hq
      · exact le_rfl
      · cases l with
        | nil => cases hq
        | cons b l =>
          simp only [minPair] at hn
          split at hn <;> first | cases hn | (split at hn <;> cases hn)
    · rename_i q hq
      obtain ⟨h1, h2⟩ := ih hq
      split at h <;> cases h
      · rename_i hlt
        refine ⟨by simp [h1], ?_⟩
        intro z hz
        rcases List.mem_cons.1 hz with rfl | hz
        · exact hlt.le
        · exact h2 z hz
      · rename_i hlt
        refine ⟨by simp, ?_⟩
        intro z hz
        rcases List.mem_cons.1 hz with rfl | hz
        · exact le_rfl
        · exact (not_lt.1 hlt).trans (h2 z hz)

theorem minPair_total {l : List (Indv K)} (h : l ≠ []) : ∃ p, minPair l = some p := by
  cases l with
  | nil => exact absurd rfl h
  | cons a l =>
    simp only [minPair]
    split
    · exact ⟨_, rfl⟩
    · split <;> exact ⟨_, rfl⟩

/-- How one individual may change in a stage that evaluated the points `ns`. -/
def Ok (f : List K → K) (ns : List (List K)) (p p' : Indv K) : Prop := p' = p ∨ (p'.1 ∈ ns ∧ p'.2 = f p'.1 ∧ p'.2 ≤ p.2)

/-- What a stage guarantees: every individual changes as allowed, and no evaluated point is better than everything kept. -/
def StageOK (f : List K → K) (pop pop' : List (Indv K)) (ns : List (List K)) : Prop :=
  pop'.length = pop.length ∧ (∀ (i : ℕ) (p p' : Indv K), pop[i]? = some p → pop'[i]? = some p' → Ok f ns p p') ∧
    ∀ z ∈ ns, ∃ p' ∈ pop', p'.2 ≤ f z

theorem zipWith_stage {f : List K → K} {sel : Indv K → List K → Indv K} {pop : List (Indv K)} {us : List (List K)}
    (hl : us.length = pop.length) (hs : ∀ p o, sel p o = p ∧ p.2 ≤ f o ∨ sel p o = (o, f o) ∧ f o ≤ p.2) :
    StageOK f pop (List.zipWith sel pop us) us := by
  refine ⟨by simp [hl], ?_, ?_⟩
  · intro i p p' hp hp'
    rw [List.getElem?_zipWith, hp] at hp'
    cases hu : us[i]? with
    | none => rw [hu] at hp'; cases hp'
    | some o =>
      rw [hu] at hp'
      simp only [Option.some.injEq] at hp'
      rcases hs p o with ⟨h1, h2⟩ | ⟨h1, h2⟩
      · left; rw [← hp', h1]
      · right; rw [← hp', h1]; exact ⟨List.mem_of_getElem? hu, rfl, h2⟩
  · intro z hz
    obtain ⟨i, hi⟩ := List.mem_iff_getElem?.1 hz
    have hi' : i < pop.length := by have := (List.getElem?_eq_some_iff.1 hi).1; omega
    refine ⟨sel pop[i] z, List.mem_of_getElem? (i := i) ?_, ?_⟩
    · rw [List.getElem?_zipWith, hi, List.getElem?_eq_getElem hi']
    · rcases hs pop[i] z with ⟨h1, h2⟩ | ⟨h1, h2⟩
      · rw [h1]; exact h2
      · rw [h1]

theorem code_stage {f : List K → K} {pop : List (Indv K)} {us : List (List K)} (hl : us.length = 3 * pop.length) :
    StageOK f pop (pop.mapIdx (codeSel f us)) us := by
  have hget : ∀ i, i < pop.length → ∀ c, c < 3 → us[3 * i + c]? = some (us.getD (3 * i + c) []) := by
    intro i hi c hc
    have : 3 * i + c < us.length := by omega
    rw [List.getD_eq_getElem?_getD, List.getElem?_eq_getElem this]; rfl
  refine ⟨by simp, ?_, ?_⟩
  · intro i p p' hp hp'
    have hi : i < pop.length := (List.getElem?_eq_some_iff.1 hp).1
    rw [List.getElem?_mapIdx, hp] at hp'
    simp only [Option.map_some, Option.some.injEq] at hp'
    subst hp'
    unfold codeSel
    split
    · exact Or.inl rfl
    · rename_i b hb
      obtain ⟨h1, h2⟩ := minPair_spec hb
      split_ifs with hc
      · right
        obtain ⟨o, ho, rfl⟩ := List.mem_map.1 h1
        refine ⟨?_, rfl, hc⟩
        simp only [List.mem_cons, List.not_mem_nil, or_false] at ho
        rcases ho with rfl | rfl | rfl
        · exact List.mem_of_getElem? (hget i hi 0 (by omega))
        · exact List.mem_of_getElem? (hget i hi 1 (by omega))
        · exact List.mem_of_getElem? (hget i hi 2 (by omega))
      · exact Or.inl rfl
  · intro z hz
    obtain ⟨k, hk⟩ := List.mem_iff_getElem?.1 hz
    have hk' : k < us.length := (List.getElem?_eq_some_iff.1 hk).1
    have hi : k / 3 < pop.length := by omega
    refine ⟨codeSel f us (k / 3) pop[k / 3], List.mem_of_getElem? (i := k / 3) ?_, ?_⟩
    · rw [List.getElem?_mapIdx, List.getElem?_eq_getElem hi]; rfl
    · have hmem : z ∈ [us.getD (3 * (k / 3)) [], us.getD (3 * (k / 3) + 1) [], us.getD (3 * (k / 3) + 2) []] := by
        have hz' : us.getD k [] = z := by rw [List.getD_eq_getElem?_getD, hk]; rfl
        have : k = 3 * (k / 3) ∨ k = 3 * (k / 3) + 1 ∨ k = 3 * (k / 3) + 2 := by omega
        rcases this with h | h | h
        · have : us.getD (3 * (k / 3)) [] = z := by rw [← h]; exact hz'
          simp only [List.mem_cons]; exact Or.inl this.symm
        · have : us.getD (3 * (k / 3) + 1) [] = z := by rw [← h]; exact hz'
          simp only [List.mem_cons]; exact Or.inr (Or.inl this.symm)
        · have : us.getD (3 * (k / 3) + 2) [] = z := by rw [← h]; exact hz'
          simp only [List.mem_cons]; exact Or.inr (Or.inr (Or.inl this.symm))
      unfold codeSel
      split
      · rename_i hn
        exact absurd hn (by simp only [List.map_cons, List.map_nil, minPair]; split <;> (try split) <;> simp)
      · rename_i b hb
        obtain ⟨h1, h2⟩ := minPair_spec hb
        have := h2 (z, f z) (List.mem_map.2 ⟨z, hmem, rfl⟩)
        split_ifs with hc
        · exact this
        · exact (not_le.1 hc).le.trans this

/-! ### Lemmas: gather and scatter -/

theorem length_gather (idx : List ℕ) (arr : List (Indv K)) : (gather idx arr).length = idx.length := by simp [gather]

theorem length_scatter (idx : List ℕ) (sub arr : List (Indv K)) : (scatter idx sub arr).length = arr.length := by
  induction idx generalizing sub arr with
  | nil => simp [scatter]
  | cons k idx ih =>
    cases sub with
    | nil => simp [scatter]
    | cons p sub => simp [scatter, ih]

theorem scatter_not_mem {idx : List ℕ} {sub arr : List (Indv K)} {k : ℕ} (h : k ∉ idx) : (scatter idx sub arr)[k]? = arr[k]? := by
  induction idx generalizing sub arr with
  | nil => simp [scatter]
  | cons a idx ih =>
    cases sub with
    | nil => simp [scatter]
    | cons p sub =>
      simp only [List.mem_cons, not_or] at h
      rw [scatter, ih h.2, List.getElem?_set_ne (Ne.symm h.1)]

theorem scatter_mem {idx : List ℕ} {sub arr : List (Indv K)} (hn : idx.Nodup) (hl : sub.length = idx.length)
    (hb : ∀ k ∈ idx, k < arr.length) {j k : ℕ} (hk : idx[j]? = some k) : (scatter idx sub arr)[k]? = sub[j]? := by
  induction idx generalizing sub arr j with
  | nil => cases hk
  | cons a idx ih =>
    cases sub with
    | nil => simp at hl
    | cons p sub =>
      have hnd := List.nodup_cons.1 hn
      rw [scatter]
      cases j with
      | zero =>
        simp only [List.getElem?_cons_zero, Option.some.injEq] at hk
        subst hk
        rw [scatter_not_mem hnd.1, List.getElem?_set_self (hb a (by simp))]
        rfl
      | succ j =>
        simp only [List.getElem?_cons_succ] at hk ⊢
        exact ih hnd.2 (by simpa using hl) (fun k hk => by simpa using hb k (by simp [hk])) hk

/-- One stage seen from the whole population. -/
theorem scatter_stage {f : List K → K} {ns : List (List K)} {idx : List ℕ} {sub arr : List (Indv K)} (hn : idx.Nodup)
    (hb : ∀ k ∈ idx, k < arr.length) (h : StageOK f (gather idx arr) sub ns) :
    StageOK f arr (scatter idx sub arr) ns ∧ ∀ p ∈ sub, p ∈ scatter idx sub arr := by
  obtain ⟨h1, h2, h3⟩ := h
  rw [length_gather] at h1
  have hmem : ∀ p ∈ sub, p ∈ scatter idx sub arr := by
    intro p hp
    obtain ⟨j, hj⟩ := List.mem_iff_getElem?.1 hp
    have hj' : j < idx.length := by have := (List.getElem?_eq_some_iff.1 hj).1; omega
    have := scatter_mem hn h1 hb (List.getElem?_eq_getElem hj')
    exact List.mem_of_getElem? (this.trans hj)
  refine ⟨⟨length_scatter _ _ _, ?_, fun z hz => ?_⟩, hmem⟩
  · intro i p p' hp hp'
    by_cases hi : i ∈ idx
    · obtain ⟨j, hj⟩ := List.mem_iff_getElem?.1 hi
      rw [scatter_mem hn h1 hb hj] at hp'
      refine h2 j p p' ?_ hp'
      unfold gather
      rw [List.getElem?_map, hj]
      simp [hp]
    · rw [scatter_not_mem hi, hp] at hp'
      left; exact (Option.some.inj hp').symm
  · obtain ⟨p', hp', hle⟩ := h3 z hz
    exact ⟨p', hmem p' hp', hle⟩

/-! ### Lemmas: the invariant -/

/-- The population: stored values are own values of evaluated points; the remembered best is the best evaluated point. -/
structure Good (S : Space K) (f : List K → K) (n : ℕ) (arr : List (Indv K)) (b : K × List K) (log : List (List K)) : Prop where
  size : arr.length = n
  own : ∀ p ∈ arr, p.2 = f p.1
  seen : ∀ p ∈ arr, p.1 ∈ log
  inc : Swarm.Inc f log b
  feas : ∀ p ∈ log, S.Feasible p

theorem Good.stage {S : Space K} {f : List K → K} {n : ℕ} {arr : List (Indv K)} {b b' : K × List K} {h : K} {log ns : List (List K)}
    (g : Good S f n arr b log) {idx : List ℕ} {sub : List (Indv K)} (hn : idx.Nodup) (hb : ∀ k ∈ idx, k < n)
    (hs : StageOK f (gather idx arr) sub ns) (hf : ∀ z ∈ ns, S.Feasible z) (hi : improve b sub = .ok (b', h)) :
    Good S f n (scatter idx sub arr) b' (log ++ ns) ∧ StageOK f arr (scatter idx sub arr) ns ∧ b'.1 ≤ b.1 ∧ b'.1 ≤ h ∧ ∃ p ∈ scatter idx sub arr, p.2 = h := by
  obtain ⟨hst, hmem⟩ := scatter_stage hn (fun k hk => by rw [g.size]; exact hb k hk) hs
  have hback : ∀ p' ∈ scatter idx sub arr, ∃ p ∈ arr, Ok f ns p p' := by
    intro p' hp'
    obtain ⟨i, hi⟩ := List.mem_iff_getElem?.1 hp'
    have hlt : i < arr.length := by have := (List.getElem?_eq_some_iff.1 hi).1; rw [length_scatter] at this; exact this
    exact ⟨arr[i], List.getElem_mem hlt, hst.2.1 i _ _ (List.getElem?_eq_getElem hlt) hi⟩
  have hown : ∀ p' ∈ scatter idx sub arr, p'.2 = f p'.1 := by
    intro p' hp'
    obtain ⟨p, hp, ho⟩ := hback p' hp'
    rcases ho with rfl | ⟨_, h2, _⟩
    · exact g.own _ hp
    · exact h2
  have hseen : ∀ p' ∈ scatter idx sub arr, p'.1 ∈ log ++ ns := by
    intro p' hp'
    obtain ⟨p, hp, ho⟩ := hback p' hp'
    rcases ho with rfl | ⟨h1, _, _⟩
    · exact List.mem_append_left _ (g.seen _ hp)
    · exact List.mem_append_right _ h1
  unfold improve at hi
  split at hi
  · cases hi
  · rename_i q hq
    obtain ⟨q1, q2⟩ := minPair_spec hq
    simp only [Except.ok.injEq, Prod.mk.injEq] at hi
    obtain ⟨hb', hh⟩ := hi
    subst hh
    have hq2 : ∀ z ∈ ns, q.2 ≤ f z := by
      intro z hz
      obtain ⟨p', hp', hle⟩ := hs.2.2 z hz
      exact (q2 p' hp').trans hle
    have hle1 : b'.1 ≤ b.1 := by
      rw [← hb']; split_ifs with hc
      · exact hc.le
      · exact le_rfl
    have hle2 : b'.1 ≤ q.2 := by
      rw [← hb']; split_ifs with hc
      · exact le_rfl
      · exact not_lt.1 hc
    refine ⟨⟨by rw [length_scatter, g.size], hown, hseen, ⟨?_, ?_, ?_⟩, ?_⟩, hst, hle1, hle2, ⟨q, hmem q q1, rfl⟩⟩
    · rw [← hb']; split_ifs with hc
      · exact hseen q (hmem q q1)
      · exact List.mem_append_left _ g.inc.1
    · rw [← hb']; split_ifs with hc
      · exact hown q (hmem q q1)
      · exact g.inc.2.1
    · intro z hz
      rcases List.mem_append.1 hz with hz | hz
      · exact hle1.trans (g.inc.2.2 z hz)
      · exact hle2.trans (hq2 z hz)
    · intro z hz
      rcases List.mem_append.1 hz with hz | hz
      · exact g.feas z hz
      · exact hf z hz

theorem repair_feasible {S : Space K} (hS : S.OK) {a : K} {d : ℕ → ℕ → K × ℕ} {i : ℕ} {row y : List K} (hl : row.length = S.bounds.length)
    (h : repair S a d i row = .ok y) : S.Feasible y := Space.disc_feasible hS (Space.clip_inBox hS hl) h

theorem repair_rows {S : Space K} (hS : S.OK) {a : K} {d : ℕ → ℕ → K × ℕ} {rows us : List (List K)}
    (hl : ∀ r ∈ rows, r.length = S.bounds.length) (h : mapRows (repair S a d) 0 rows = .ok us) :
    us.length = rows.length ∧ (∀ u ∈ us, S.Feasible u) ∧ us.map S.clip = us := by
  have hf := mapRows_forall h hl (fun k x y hx hy => repair_feasible hS hx hy)
  exact ⟨(mapRows_ok h).1, hf, Space.map_clip hf⟩

theorem repair_total {S : Space K} (hS : S.OK) (hm : S.method = .nearestInt) {a : K} {d : ℕ → ℕ → K × ℕ} {rows : List (List K)}
    (hl : ∀ r ∈ rows, r.length = S.bounds.length) : ∃ us, mapRows (repair S a d) 0 rows = .ok us :=
  mapRows_total (P := fun r => r.length = S.bounds.length) hl
    (fun k x hx => Space.disc_nearest_total hS hm a (d k) (Space.length_clip hS hx))

theorem length_jadeTrial (S : Space K) (D : Draws K) (pop all : List (Indv K)) (i : ℕ) : (jadeTrial S D pop all i).length = S.bounds.length := by
  simp [jadeTrial]

theorem length_codeTrials {S : Space K} (hS : S.OK) (D : Draws K) (pop : List (Indv K)) (i : ℕ) :
    (codeTrials S D pop i).length = 3 ∧ ∀ r ∈ codeTrials S D pop i, r.length = S.bounds.length := by
  refine ⟨rfl, ?_⟩
  intro r hr
  simp only [codeTrials, List.mem_cons, List.not_mem_nil, or_false] at hr
  rcases hr with rfl | rfl | rfl
  · simp [binomial]
  · exact Space.length_clip hS (by simp)
  · simp [binomial]

theorem length_epsTrial (S : Space K) (D : Draws K) (bm : List K) (pop : List (Indv K)) (i : ℕ) :
    (epsTrial S D bm pop i).length = S.bounds.length := by
  unfold epsTrial; dsimp only
  split_ifs
  · simp [epsRaw]
  · simp

theorem flatMap_len {S : Space K} (hS : S.OK) (D : Draws K) (pop : List (Indv K)) (n : ℕ) :
    ((List.range n).flatMap (codeTrials S D pop)).length = 3 * n := by
  induction n with
  | zero => simp
  | succ n ih => rw [List.range_succ, List.flatMap_append, List.length_append, ih]; simp [(length_codeTrials hS D pop n).1]; omega

theorem jade_spec {S : Space K} (hS : S.OK) {f : List K → K} {a : K} {D : Draws K} {arch pop n : List (Indv K)} {l : List (List K)}
    (h : jade S f a D arch pop = .ok (n, l)) : StageOK f pop n l ∧ (∀ z ∈ l, S.Feasible z) ∧ l.length = pop.length := by
  unfold jade at h
  split at h
  · cases h
  · rename_i us hus
    obtain ⟨h1, h2, h3⟩ := repair_rows hS (by
      intro r hr; obtain ⟨i, _, rfl⟩ := List.mem_map.1 hr; exact length_jadeTrial _ _ _ _ _) hus
    simp only [Except.ok.injEq, Prod.mk.injEq] at h
    obtain ⟨rfl, rfl⟩ := h
    simp only [List.length_map, List.length_range] at h1
    rw [h3]
    refine ⟨zipWith_stage h1 ?_, h2, h1⟩
    intro p o
    unfold jadeSel
    split_ifs with hc
    · exact Or.inr ⟨rfl, hc⟩
    · exact Or.inl ⟨rfl, (not_le.1 hc).le⟩

theorem code_spec {S : Space K} (hS : S.OK) {f : List K → K} {a : K} {D : Draws K} {pop n : List (Indv K)} {l : List (List K)}
    (h : code S f a D pop = .ok (n, l)) : StageOK f pop n l ∧ (∀ z ∈ l, S.Feasible z) ∧ l.length = 3 * pop.length := by
  unfold code at h
  split at h
  · cases h
  · rename_i us hus
    obtain ⟨h1, h2, h3⟩ := repair_rows hS (by
      intro r hr; obtain ⟨i, _, hr⟩ := List.mem_flatMap.1 hr; exact (length_codeTrials hS _ _ _).2 r hr) hus
    simp only [Except.ok.injEq, Prod.mk.injEq] at h
    obtain ⟨rfl, rfl⟩ := h
    rw [flatMap_len hS] at h1
    rw [h3]
    exact ⟨code_stage h1, h2, h1⟩

theorem eps_spec {S : Space K} (hS : S.OK) {f : List K → K} {a : K} {D : Draws K} {bm bm' : K × List K} {pop n : List (Indv K)} {l : List (List K)}
    (h : eps S f a D bm pop = .ok ((n, l), bm')) : StageOK f pop n l ∧ (∀ z ∈ l, S.Feasible z) ∧ l.length = pop.length := by
  unfold eps at h
  split at h
  · cases h
  · rename_i us hus
    obtain ⟨h1, h2, h3⟩ := repair_rows hS (by
      intro r hr; obtain ⟨i, _, rfl⟩ := List.mem_map.1 hr; exact length_epsTrial _ _ _ _ _) hus
    simp only [Except.ok.injEq, Prod.mk.injEq] at h
    obtain ⟨⟨rfl, rfl⟩, _⟩ := h
    simp only [List.length_map, List.length_range] at h1
    rw [h3]
    refine ⟨zipWith_stage h1 ?_, h2, h1⟩
    intro p o
    unfold epsSel
    split_ifs with hc
    · exact Or.inr ⟨rfl, hc.le⟩
    · exact Or.inl ⟨rfl, not_lt.1 hc⟩

/-- The three index lists together are a rearrangement of the permutation. -/
theorem parts_perm (s idx : ℕ) (perm : List ℕ) : ((parts s idx perm).1 ++ (parts s idx perm).2.1 ++ (parts s idx perm).2.2).Perm perm := by
  have h1 : perm.take s ++ ((perm.drop s).take s ++ perm.drop (2 * s)) = perm := by
    have : perm.drop (2 * s) = (perm.drop s).drop s := by rw [List.drop_drop]; congr 1; omega
    rw [this, List.take_append_drop, List.take_append_drop]
  unfold parts
  split_ifs
  · dsimp only
    conv_rhs => rw [← h1]
    refine List.perm_append_comm.trans ?_
    exact List.Perm.append_left _ List.perm_append_comm
  · dsimp only
    conv_rhs => rw [← h1]
    exact List.perm_append_comm
  · dsimp only
    rw [List.append_assoc, h1]

end
end Neorl.EDEV

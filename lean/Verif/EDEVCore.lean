import Verif.Feasible
import Verif.Best

/-!
# Helpers of the ensemble of differential evolution variants

`neorl/hybrid/edevcore/helpers.py`: donor indices of `generator` (lines 45-133), `gnR1R2` (139-169), `randFCR` (171-192), `ARCHIVE` (201-224).
-/

set_option linter.unusedSectionVars false
set_option linter.unusedVariables false

namespace Neorl.EDEV

section
variable {K : Type} [Field K] [LinearOrder K] [IsStrictOrderedRing K] [FloorRing K]

/-- A Python list index, negative ones counting from the end. -/
def pyGet {α : Type} (l : List α) (t : ℤ) : Option α :=
  if 0 ≤ t then l[t.toNat]? else if 0 ≤ (l.length : ℤ) + t then l[((l.length : ℤ) + t).toNat]? else none

/-- `temp=int(np.floor(np.random.uniform() * (popsize - k)) + 1); index.append(indexSet[temp]); indexSet.remove(indexSet[temp])` for
`k, k+1, ...`, lines 57-63 and 103-115, one draw each. -/
def picks (popsize : ℕ) : ℕ → List K → List ℕ → Py (List ℕ)
  | _, [], _ => .ok []
  | k, u :: us, set =>
    match pyGet set (⌊u * ((popsize : K) - (k : K))⌋ + 1) with
    | none => .error .indexError
    | some x =>
      match picks popsize (k + 1) us (set.erase x) with
      | .error e => .error e
      | .ok l => .ok (x :: l)

/-- The donor indices for individual `i`, lines 52-63 (three draws) and 98-115 (five draws). -/
def donors (popsize i : ℕ) (us : List K) : Py (List ℕ) :=
  if popsize ≤ i then .error .indexError else picks popsize 2 us ((List.range popsize).erase i)

/-- `np.floor(np.random.uniform()*NP) + 1`, lines 149, 151-152. -/
def oneTo (NP : ℕ) (u : K) : ℕ := (⌊u * (NP : K)⌋).toNat + 1

/-- The redraw loops of `gnR1R2`, lines 150-157 and 160-167: entries that clash are drawn again; the exception comes after round 1001 (`fuel`). -/
def settle (NP : ℕ) (clash : ℕ → ℕ → Bool) (draw : ℕ → ℕ → K) : ℕ → ℕ → List ℕ → Py (List ℕ)
  | 0, _, _ => .error .valueError
  | fuel + 1, t, r =>
    if (r.mapIdx (fun i x => clash i x)).any id = false then .ok r
    else settle NP clash draw fuel (t + 1) (r.mapIdx (fun i x => if clash i x then oneTo NP (draw t i) else x))

/-- `gnR1R2(NP1, NP2, r0)`, lines 139-169. -/
def gnR1R2 (NP1 NP2 : ℕ) (r0 : List ℕ) (d1 d2 : ℕ → ℕ → K) : Py (List ℕ × List ℕ) :=
  match settle NP1 (fun i x => x == r0.getD i 0) d1 1001 1 (r0.mapIdx (fun i _ => oneTo NP1 (d1 0 i))) with
  | .error e => .error e
  | .ok r1 =>
    match settle NP2 (fun i x => x == r1.getD i 0 || x == r0.getD i 0) d2 1001 1 (r0.mapIdx (fun i _ => oneTo NP2 (d2 0 i))) with
    | .error e => .error e
    | .ok r2 => .ok (r1, r2)

/-- `randFCR`, lines 171-192: `CR` from normal draws `n`, clipped to [0, 1]; `F` from draws `t k i` of `tan` (line 197) in round `k`, capped at 1 and redrawn while
not positive.  The redraw loop has no bound in the code; `none` means still running after `fuel` rounds. -/
def crs (CRm CRs : K) (n : ℕ → K) (NP : ℕ) : List K := (List.range NP).map (fun i => max 0 (min (CRm + CRs * n i) 1))

/-- The `while` loop, lines 184-190. -/
def fLoop (Fm Fs : K) (t : ℕ → ℕ → K) : ℕ → ℕ → List K → Option (List K)
  | 0, _, _ => none
  | fuel + 1, k, F =>
    if F.all (fun f => decide (0 < f)) then some F
    else fLoop Fm Fs t fuel (k + 1) (F.mapIdx (fun i f => min 1 (if f ≤ 0 then Fm + Fs * t k i else f)))

/-- `F` of `randFCR`, lines 182-190. -/
def fs (Fm Fs : K) (t : ℕ → ℕ → K) (NP fuel : ℕ) : Option (List K) :=
  fLoop Fm Fs t fuel 1 ((List.range NP).map (fun i => min 1 (Fm + Fs * t 0 i)))

/-- `np.unique(..., axis=0, return_index=True)` keeps the first occurrence of every row; `srt` is the order in which it lists the rows. -/
def keepFirst : List (List K × K) → List (List K × K)
  | [] => []
  | p :: l => p :: (keepFirst l).filter (fun q => decide (q.1 ≠ p.1))

/-- `ARCHIVE.UpdateArchive`, lines 213-224: `cap` is `NP`, `pos` is `np.random.permutation(len)`. -/
def archive (cap : ℕ) (srt : List (List K × K) → List (List K × K)) (pos : ℕ → List ℕ) (old new : List (List K × K)) : List (List K × K) :=
  let a := srt (keepFirst (old ++ new))
  if cap < a.length then ((pos a.length).take cap).map (fun k => a.getD k ([], 0)) else a

end
end Neorl.EDEV

import Verif.RescaleACO

/-!
# C138 for the ant colony
-/

set_option linter.unusedSectionVars false
set_option linter.unusedVariables false

namespace Neorl.Rescale

variable {K : Type} [Field K] [LinearOrder K] [IsStrictOrderedRing K] [FloorRing K]

/-- C138: the continuous ant colony does not depend on the units of the variables, scale and zero: in new units the same draws give the same run, every evaluated point and the answer
rewritten, every fitness value as before. -/
theorem C138_ants {a b : ℕ → K} (ha : ∀ j, 0 < a j) (m : Bool) {f f' : List K → K} (hf : ∀ x, f' (pt a b x) = f x) (c : Neorl.ACO.Conf K) (hB : ∀ p ∈ c.bounds, p.1 ≤ p.2)
    (dr : ℕ → ℕ → ℕ → Neorl.ACO.Draw K) (pos0 : List (List K)) (h0 : ∀ p ∈ pos0, p.length = c.bounds.length) :
    Neorl.ACO.evolute { c with bounds := c.bounds.mapIdx fun j p => (a j * p.1 + b j, a j * p.2 + b j) } m f' dr (pos0.map (pt a b))
      = (Neorl.ACO.evolute c m f dr pos0).map fun r =>
        { r with x := pt a b r.x, lastPop := r.lastPop.map fun p => (pt a b p.1, p.2), log := r.log.map (pt a b) } :=
  ACO.evolute_pt ha b hB m hf dr h0

/-! ### A concrete case -/

def exAnts : Neorl.ACO.Conf ℚ := { bounds := [(0, 10)], nants := 2, narchive := 2, ngen := 1, Q := 1, Z := 1, norm := 1, expf := fun _ => 1 }

def exAntsd : ℕ → ℕ → ℕ → Neorl.ACO.Draw ℚ := fun _ i _ => (1 / 4, if i = 0 then 1 / 2 else 5)

/-- Degrees Celsius to Fahrenheit: from 4 and 8 the ants go to 6 and (stopped by the bound) 10, that is, from 39.2 and 46.4 to 42.8 and 50. -/
example : (Neorl.ACO.evolute exAnts true (fun v => v.getD 0 0) exAntsd [[4], [8]]).toOption.map (fun r => (r.x, r.y, r.log)) = some ([4], 4, [[4], [8], [6], [10]]) ∧
    (Neorl.ACO.evolute { exAnts with bounds := [(32, 50)] } true (fun v => (v.getD 0 0 - 32) * 5 / 9) exAntsd [[196 / 5], [232 / 5]]).toOption.map (fun r => (r.x, r.y, r.log)) =
      some ([196 / 5], 4, [[196 / 5], [232 / 5], [214 / 5], [50]]) := by decide +kernel

end Neorl.Rescale

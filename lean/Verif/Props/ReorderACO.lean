import Verif.ReorderACO

/-!
# C141 for the ant colony
-/

set_option linter.unusedSectionVars false
set_option linter.unusedVariables false

namespace Neorl.Reorder

variable {K : Type} [Field K] [LinearOrder K] [IsStrictOrderedRing K] [FloorRing K]

/-- C141: the continuous ant colony does not depend on how the variables are listed: with every variable keeping its draws, a run that completes evaluates in the new listing the same points, rewritten, in
the same order and returns the same point, rewritten, with the same fitness values.  (A run that stops because a roulette number of a variable exceeds the sum of the weights may complete when that
variable is left out.) -/
theorem C141_ants {σ : ℕ → ℕ} {m : ℕ} (b : Bool) {f f' : List K → K} (c : Neorl.ACO.Conf K) (hB : ∀ p ∈ c.bounds, p.1 ≤ p.2) (hσ : ∀ j < m, σ j < c.bounds.length)
    (hf : ∀ x : List K, x.length = c.bounds.length → f' (sel σ m x) = f x) (dr : ℕ → ℕ → ℕ → Neorl.ACO.Draw K) (pos0 : List (List K)) (h0 : ∀ p ∈ pos0, p.length = c.bounds.length)
    {r : Neorl.ACO.Result K} (hr : Neorl.ACO.evolute c b f dr pos0 = .ok r) :
    Neorl.ACO.evolute { c with bounds := sel σ m c.bounds } b f' (fun g i j => dr g i (σ j)) (pos0.map (sel σ m))
      = .ok { r with x := sel σ m r.x, lastPop := r.lastPop.map fun p => (sel σ m p.1, p.2), log := r.log.map (sel σ m) } :=
  ACO.evolute_sel hB hσ b hf dr h0 hr

/-! ### A concrete case -/

def exAnts : Neorl.ACO.Conf ℚ := { bounds := [(0, 10), (-3, 3)], nants := 2, narchive := 2, ngen := 1, Q := 1, Z := 1, norm := 1, expf := fun _ => 1 }

def exAntsd : ℕ → ℕ → ℕ → Neorl.ACO.Draw ℚ := fun _ i j => (if j = 0 then 1 / 4 else 3 / 4, if i = 0 then 1 / 2 else 5)

example : (Neorl.ACO.evolute exAnts true (fun v => v.getD 0 0 + v.getD 1 0) exAntsd [[4, 1], [8, 2]]).toOption.map (fun r => (r.x, r.y, r.log)) = some ([4, 1], 5, [[4, 1], [8, 2], [6, 5 / 2], [10, 3]]) ∧
    (Neorl.ACO.evolute { exAnts with bounds := [(-3, 3), (0, 10)] } true (fun v => v.getD 1 0 + v.getD 0 0) (fun g i j => exAntsd g i (1 - j)) [[1, 4], [2, 8]]).toOption.map (fun r => (r.x, r.y, r.log)) =
      some ([1, 4], 5, [[1, 4], [2, 8], [5 / 2, 6], [3, 10]]) := by decide +kernel

end Neorl.Reorder

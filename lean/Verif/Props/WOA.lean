import Verif.WOA

/-!
# Property theorems C17: whale optimisation
-/

set_option linter.unusedSectionVars false
set_option linter.unusedVariables false

namespace Neorl.WOA

section
variable {K : Type} [Field K] [LinearOrder K] [IsStrictOrderedRing K] [FloorRing K]

/-- **C17.** Whatever the draws: the returned pair is the best of the initial and all later evaluations with its fitness,
`global_fitness` is exactly the best so far, it never gets worse, `local_fitness` is the best of each generation, there are
`nwhales * (ngen + 1)` evaluations, all at feasible points, and the returned last population carries its own fitness. -/
theorem C17_evolute {c : Conf K} (hS : c.S.OK) {m : Bool} {userFit : List K → K} {dr : ℕ → ℕ → Draw K}
    {pos0 : List (List K)} (hf : ∀ p ∈ pos0, c.S.Feasible p) {r : Swarm.Result K}
    (h : evolute c m userFit dr pos0 = .ok r) : Swarm.Contract c.S c.nwhales c.ngen m userFit r :=
  Swarm.evolute_contract (move_ok hS dr) hf h

/-- **C17.** Without keyword arguments, or with both lists of length `ngen`, at least one whale, one generation and
`nearest_int`, the call always returns. -/
theorem C17_total {c : Conf K} (hS : c.S.OK) (hm : c.S.method = .nearestInt) {m : Bool} {userFit : List K → K}
    {dr : ℕ → ℕ → Draw K} {pos0 : List (List K)} (hf : ∀ p ∈ pos0, c.S.Feasible p) (hn : pos0.length = c.nwhales)
    (h0 : 0 < c.nwhales) (hg : 0 < c.ngen)
    (hk : (c.kwA = none ∧ c.kwFac = none) ∨
      ∃ as fs, c.kwA = some as ∧ c.kwFac = some fs ∧ as.length = c.ngen ∧ fs.length = c.ngen) :
    ∃ r, evolute c m userFit dr pos0 = .ok r := by
  refine Swarm.evolute_total (move_ok hS dr) hf hn h0 hg ?_
  intro k b ps hk' hb hps hl
  have hA : ∃ a, coefA c k = .ok a := by
    unfold coefA
    rcases hk with ⟨h1, h2⟩ | ⟨as, fs, h1, h2, h3, h4⟩
    · rw [h1]; exact ⟨_, rfl⟩
    · simp only [h1, h2, h4, if_true]
      rw [List.getElem?_eq_getElem (by omega)]; exact ⟨_, rfl⟩
  have hF : ∃ a, coefFac c k = .ok a := by
    unfold coefFac
    rcases hk with ⟨h1, h2⟩ | ⟨as, fs, h1, h2, h3, h4⟩
    · rw [h2]; exact ⟨_, rfl⟩
    · simp only [h2, h4, if_true]
      rw [List.getElem?_eq_getElem (by omega)]; exact ⟨_, rfl⟩
  obtain ⟨a, ha⟩ := hA
  obtain ⟨fac, hfac⟩ := hF
  unfold move
  simp only [ha, hfac]
  exact moveTo_total hS hm (by omega) hps

/-- **C17 (defect).** Passing the documented keyword `a` without `fac` always raises `KeyError` in a run with at least one
generation: the length check of `a` looks at `fac`. -/
theorem C17_kw_a_alone_raises {c : Conf K} {as : List K} (ha : c.kwA = some as) (hF : c.kwFac = none) {m : Bool}
    {userFit : List K → K} {dr : ℕ → ℕ → Draw K} {pos0 : List (List K)} (hn : pos0.length = c.nwhales)
    (h0 : 0 < c.nwhales) (hg : 0 < c.ngen) : evolute c m userFit dr pos0 = .error .keyError := by
  have hmv : ∀ k b ps, move c dr k b ps = .error .keyError := by
    intro k b ps; simp [move, coefA, ha, hF]
  have h1 : ∀ g, Swarm.run c.S (move c dr) (fun x => sgn m (userFit x)) pos0 (g + 1) = .error .keyError := by
    intro g
    induction g with
    | zero =>
      obtain ⟨b, hb⟩ := Swarm.select_total (f := fun p => sgn m (userFit (c.S.clip p))) (ps := pos0) (by
        intro h; rw [h] at hn; simp at hn; omega)
      simp only [Swarm.run, hb, Swarm.gen, hmv]
    | succ g ih =>
      rw [Swarm.run, ih]
  obtain ⟨g, hg'⟩ : ∃ g, c.ngen = g + 1 := ⟨c.ngen - 1, by omega⟩
  unfold evolute Swarm.evolute
  rw [if_neg (by simpa using hn), hg', h1]

/-! ### A concrete run -/

def exS : Space ℚ := { bounds := [(-5, 5), (0, 3)], types := [.float, .int], method := .nearestInt, expf := fun x => x }
def exC : Conf ℚ := { S := exS, nwhales := 2, ngen := 2, a0 := 2, spiral := fun l => l, kwA := none, kwFac := none }
def exFit : List ℚ → ℚ := fun x => (x.map (fun v => v * v)).sum
def exPos : List (List ℚ) := [[3, 1], [-2, 2]]
def exDr : ℕ → ℕ → Draw ℚ := fun g i =>
  { r1 := 1 / 4, r2 := 1 / 3, rl := 1 / 2, p := (i : ℚ) / 2, pick := fun j => j, disc := fun _ => (0, 0) }

example : exS.OK := Space.ok_of_okB (by decide +kernel)
example : ∀ p ∈ exPos, exS.Feasible p := Space.feasible_all (by decide +kernel)
example : (match evolute exC true exFit exDr exPos with
    | .ok r => decide (r.log.length = 6 ∧ r.y < 8 ∧ r.y = exFit r.x) | _ => false) = true := by decide +kernel

end
end Neorl.WOA

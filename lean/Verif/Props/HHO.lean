import Verif.HHO

/-!
# Property theorems C20: Harris hawks
-/

set_option linter.unusedSectionVars false
set_option linter.unusedVariables false

namespace Neorl.HHO

section
variable {K : Type} [Field K] [LinearOrder K] [IsStrictOrderedRing K] [FloorRing K]

/-- **C20.** What `evolute` returns: the pair is the best of all start-of-generation evaluations; the global history is the exact
best so far over those evaluations and the local history the exact best of each generation; the last population is the last one
evaluated, with its fitness; every evaluated point, dives included, is feasible; there are between `n * ngen` and `3 * n * ngen`
evaluations. -/
theorem C20_evolute {c : Conf K} (hS : c.S.OK) {m : Bool} {userFit : List K → K} {dr : ℕ → ℕ → Draw K}
    {pos0 : List (List K)} (hf : ∀ p ∈ pos0, c.S.Feasible p) {r : Result K} (h : evolute c m userFit dr pos0 = .ok r) :
    IsBest m userFit r.starts r.x r.y ∧
    HistBest m userFit 0 c.nhawks r.starts r.global ∧ r.global.Pairwise (NotWorse m) ∧
    r.global.length = c.ngen ∧ r.locals.length = c.ngen ∧
    (∀ (k : ℕ) (y : K), r.locals[k]? = some y → BestOn m userFit ((r.starts.drop (k * c.nhawks)).take c.nhawks) y) ∧
    (∀ x ∈ r.early ++ r.lastDives, c.S.Feasible x) ∧ r.starts.Sublist r.early ∧
    r.starts.length = c.ngen * c.nhawks ∧
    (r.early ++ r.lastDives).length ≤ 3 * (c.ngen * c.nhawks) ∧
    (c.ngen ≠ 0 → r.lastPop = (r.starts.drop ((c.ngen - 1) * c.nhawks)).map (fun x => (x, userFit x))) := by
  unfold evolute at h
  by_cases hn : pos0.length = c.nhawks
  swap
  · rw [if_pos hn] at h; cases h
  rw [if_neg (by simpa using hn)] at h
  split at h
  · cases h
  rename_i s hs
  have hi := run_inv hS hn hf hs
  split at h
  · cases h
  rename_i y hy
  obtain ⟨y0, hy0, rfl⟩ := outScore_eq_some hy
  have hg : (if m then accMin (if m then s.scores else s.scores.map (fun v => -v))
      else accMax (if m then s.scores else s.scores.map (fun v => -v))) = (accMin s.scores).map (sgn m) := by
    cases m
    · simp only [Bool.false_eq_true, if_false, accMax_neg]; rfl
    · simp only [if_true]
      exact (List.map_id _).symm
  have hl : (if m then s.scores else s.scores.map (fun v => -v)) = s.scores.map (sgn m) := by
    cases m
    · simp only [Bool.false_eq_true, if_false]; rfl
    · simp only [if_true]
      exact (List.map_id _).symm
  cases h
  simp only [hg]
  simp only [hl]
  refine ⟨hi.rabbit.isBest hy0, hi.hist.histBest, hi.hist.histBest.pairwise, ?_, ?_, ?_, ?_, hi.sub, ?_, ?_, ?_⟩
  · simp [length_accMin, hi.nsc]
  · simp [hi.nsc]
  · intro k z hz
    rw [List.getElem?_map] at hz
    cases hk : s.scores[k]? with
    | none => rw [hk] at hz; cases hz
    | some v =>
      rw [hk] at hz; cases hz
      exact (hi.locals k v hk).bestOn
  · intro x hx
    rcases List.mem_append.1 hx with hx | hx
    · exact hi.fearly x hx
    · exact hi.fdives x hx
  · have := hi.hist.1
    rw [length_accMin, hi.nsc] at this
    omega
  · simpa using hi.evals
  · intro h0
    rw [hi.last h0, List.map_map]
    exact List.map_congr_left (fun p _ => by simp)

/-- **C20.** With `nearest_int` repair (or in particular in continuous spaces with that setting) the returned pair is the best of
*all* evaluations, dives included, except the dives of the last generation, which are evaluated and then thrown away. -/
theorem C20_best_but_last_dives {c : Conf K} (hS : c.S.OK) (hm : c.S.method = .nearestInt) {m : Bool} {userFit : List K → K}
    {dr : ℕ → ℕ → Draw K} {pos0 : List (List K)} (hf : ∀ p ∈ pos0, c.S.Feasible p) {r : Result K}
    (h : evolute c m userFit dr pos0 = .ok r) : IsBest m userFit r.early r.x r.y := by
  obtain ⟨⟨b1, b2, b3⟩, -, -, -, -, -, -, hsub, -⟩ := C20_evolute hS hf h
  refine ⟨hsub.subset b1, b2, ?_⟩
  unfold evolute at h
  by_cases hn : pos0.length = c.nhawks
  swap
  · rw [if_pos hn] at h; cases h
  rw [if_neg (by simpa using hn)] at h
  split at h
  · cases h
  rename_i s hs
  have hi := run_inv hS hn hf hs
  split at h
  · cases h
  cases h
  intro z hz
  obtain ⟨w, hw, hle⟩ := hi.exact hm z hz
  exact NotWorse.trans (notWorse_iff.2 hle) (b3 w hw)

/-- **C20.** With `nearest_int`, at least one hawk, one generation and a valid `E1` the call returns. -/
theorem C20_total {c : Conf K} (hS : c.S.OK) (hm : c.S.method = .nearestInt) {m : Bool} {userFit : List K → K}
    {dr : ℕ → ℕ → Draw K} {pos0 : List (List K)} (hf : ∀ p ∈ pos0, c.S.Feasible p) (hn : pos0.length = c.nhawks)
    (h0 : 0 < c.nhawks) (hg : 0 < c.ngen) (hE : ∀ es, c.kwE1 = some es → es.length = c.ngen) :
    ∃ r, evolute c m userFit dr pos0 = .ok r := by
  have hr : ∀ g, g ≤ c.ngen → ∃ s, run c (fun x => sgn m (userFit x)) dr pos0 g = .ok s := by
    intro g
    induction g with
    | zero => intro _; exact ⟨_, rfl⟩
    | succ g ih =>
      intro hg'
      obtain ⟨s, hs⟩ := ih (by omega)
      have hi := run_inv hS hn hf hs
      have hl : ∀ x ∈ s.pos, x.length = c.S.bounds.length := fun x hx => (hi.feas x hx).1.length_eq
      have hC : ∃ a, coefE1 c g = .ok a := by
        unfold coefE1
        cases h : c.kwE1 with
        | none => exact ⟨_, rfl⟩
        | some es =>
          have := hE es h
          simp only [this, if_true]
          rw [List.getElem?_eq_getElem (by omega)]; exact ⟨_, rfl⟩
      obtain ⟨a, ha⟩ := hC
      obtain ⟨b, hb⟩ := Swarm.select_total (f := fun p => sgn m (userFit (c.S.clip p))) (ps := s.pos) (by
        intro h; have := hi.npos; rw [h] at this; simp at this; omega)
      obtain ⟨⟨p, ev⟩, hu⟩ := updTo_total hS hm (fit := fun x => sgn m (userFit x)) (t := g) (E1 := a) (dr := dr g)
        (rabbit := (updAll (fun p => sgn m (userFit (c.S.clip p))) s.rabbit s.pos).2)
        (fits := s.pos.map (fun p => sgn m (userFit (c.S.clip p)))) (i := c.nhawks) hl (by rw [hi.npos]) (by simp)
      obtain ⟨u1, u2, -⟩ := updTo_spec hS hl hu
      obtain ⟨pos', hp⟩ := mapRows_total (i := 0) (f := fun i row => repair c g (dr g i).dF row)
        (P := fun x : List K => x.length = c.S.bounds.length) u2 (fun k x hx => repair_total hS hm _ _ hx)
      cases hfin : run c (fun x => sgn m (userFit x)) dr pos0 (g + 1) with
      | ok s' => exact ⟨s', rfl⟩
      | error e => simp only [run, hs, gen, ha, hb, hu, hp] at hfin; cases hfin
  obtain ⟨s, hs⟩ := hr c.ngen le_rfl
  have hi := run_inv hS hn hf hs
  have hne : s.starts ≠ [] := by
    intro h
    have := hi.hist.1
    rw [h, length_accMin, hi.nsc] at this
    have h2 : 0 < c.ngen * c.nhawks := Nat.mul_pos hg h0
    simp at this
    rcases this with h | h <;> omega
  obtain ⟨v, hv, -⟩ := hi.rabbit.ne_top hne
  unfold evolute
  rw [if_neg (by simpa using hn), hs]
  simp only [hv, outScore_coe]
  exact ⟨_, rfl⟩

/-! ### Concrete runs -/

def exS : Space ℚ := { bounds := [(-5, 5), (0, 3)], types := [.float, .int], method := .nearestInt, expf := fun x => x }
def exC : Conf ℚ := { S := exS, nhawks := 2, ngen := 2, kwE1 := none }
def exFit : List ℚ → ℚ := fun x => (x.map (fun v => v * v)).sum
def exPos : List (List ℚ) := [[3, 1], [-2, 2]]
/-- Every hawk dives: `E = E1/2`, `r = 0`. -/
def exDr : ℕ → ℕ → Draw ℚ := fun g i =>
  { e0 := 2 / 3, q := 0, hawk := i + 1, u1 := 1 / 2, u2 := 1 / 3, r := if g = 0 ∧ i = 0 then 1 / 2 else 0, uJ := 1 / 2, jump := fun _ => 1 / 5,
    dY := fun _ => (0, 0), dZ := fun _ => (0, 0), dF := fun _ => (0, 0) }

example : exS.OK := Space.ok_of_okB (by decide +kernel)
example : ∀ p ∈ exPos, exS.Feasible p := Space.feasible_all (by decide +kernel)

def exRes : Result ℚ :=
  { x := [-9 / 5, 2], y := 181 / 25, global := [8, 181 / 25], locals := [8, 181 / 25],
    lastPop := [([-5, 0], 25), ([-9 / 5, 2], 181 / 25)],
    starts := [[3, 1], [-2, 2], [-5, 0], [-9 / 5, 2]],
    early := [[3, 1], [-2, 2], [-2, 2], [-9 / 5, 2], [-5, 0], [-9 / 5, 2]],
    lastDives := [[-7 / 3, 1], [-17 / 9, 1]] }

deriving instance DecidableEq for Result

theorem exRun : evolute exC true exFit exDr exPos = .ok exRes := by decide +kernel

/-- **C20, defect.** Two hawks, two generations: the dive to `[-17/9, 1]` in the last generation is evaluated and strictly better than
the returned solution, which therefore is not the best of everything evaluated. -/
theorem C20_last_dives_lost : ∃ (c : Conf ℚ) (dr : ℕ → ℕ → Draw ℚ) (pos0 : List (List ℚ)) (r : Result ℚ), c.S.OK ∧
    (∀ p ∈ pos0, c.S.Feasible p) ∧ evolute c true exFit dr pos0 = .ok r ∧ ∃ z ∈ r.lastDives, exFit z < r.y :=
  ⟨exC, exDr, exPos, exRes, Space.ok_of_okB (by decide +kernel), Space.feasible_all (by decide +kernel), exRun,
    [-17 / 9, 1], by decide +kernel, by decide +kernel⟩

end
end Neorl.HHO

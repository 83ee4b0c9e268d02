import Verif.Swarm

/-!
# Whale optimisation

Model of `neorl/evolu/woa.py`: the main loop is `Verif/Swarm.lean`, the move is below.
-/

set_option linter.unusedSectionVars false
set_option linter.unusedVariables false

namespace Neorl.WOA

section
variable {K : Type} [Field K] [LinearOrder K] [IsStrictOrderedRing K] [FloorRing K]

/-- Arguments, `neorl/evolu/woa.py` lines 45-93 and 225.  `spiral l` stands for `math.exp(b*l) * math.cos(2*pi*l)` (line 218), an
arbitrary function. `kwA`, `kwFac` are the keyword arguments `a` and `fac`. -/
structure Conf (K : Type) where
  S : Space K
  nwhales : ℕ
  ngen : ℕ
  a0 : K
  spiral : K → K
  kwA : Option (List K)
  kwFac : Option (List K)

/-- Draws of whale `i` in one generation (lines 198-209 and the discrete repair of line 222); `pick j` is the draw behind
`r_index`, reduced modulo `nwhales`. -/
structure Draw (K : Type) where
  r1 : K
  r2 : K
  rl : K
  p : K
  pick : ℕ → ℕ
  disc : ℕ → K × ℕ

/-- Lines 260-265: note that the assertion looks at `kwargs["fac"]`, so `a` without `fac` raises `KeyError`. -/
def coefA (c : Conf K) (k : ℕ) : Py K :=
  match c.kwA with
  | none => .ok (c.a0 - (k : K) * (c.a0 / (c.ngen : K)))
  | some as =>
    match c.kwFac with
    | none => .error .keyError
    | some fs =>
      if fs.length = c.ngen then
        match as[k]? with
        | some a => .ok a
        | none => .error .indexError
      else .error .assertion

/-- Lines 268-274. -/
def coefFac (c : Conf K) (k : ℕ) : Py K :=
  match c.kwFac with
  | none => .ok (-1 + (k : K) * (-1 / (c.ngen : K)))
  | some fs =>
    if fs.length = c.ngen then
      match fs[k]? with
      | some a => .ok a
      | none => .error .indexError
    else .error .assertion

/-- New value of one coordinate, lines 207-219.  `xr` is `X_rand[j]`, `bj` is `best_position[j]`, `x` the old value. -/
def coord (c : Conf K) (a fac : K) (d : Draw K) (xr bj x : K) : K :=
  let A := 2 * a * d.r1 - a
  let C := 2 * d.r2
  let l := (fac - 1) * d.rl + 1
  if d.p < 1 / 2 then
    if |A| ≥ 1 then xr - A * |C * xr - x|
    else bj - A * |C * bj - x|
  else |bj - x| * c.spiral l + bj

/-- Lines 205-219 for one whale.  `X_rand` is a view of a row; its entry `j` is read before column `j` of row `i` is written,
so the population at the start of the row update is the right one to read. -/
def moveRow (c : Conf K) (a fac : K) (d : Draw K) (best : List K) (pop : List (List K)) (row : List K) : List K :=
  row.mapIdx fun j x => coord c a fac d ((pop.getD (d.pick j % c.nwhales) []).getD j 0) (best.getD j 0) x

/-- Lines 197-222 for whales `0 .. i-1`, in place. -/
def moveTo (c : Conf K) (k : ℕ) (a fac : K) (dr : ℕ → Draw K) (best : List K) : ℕ → List (List K) → Py (List (List K))
  | 0, pop => .ok pop
  | i + 1, pop =>
    match moveTo c k a fac dr best i pop with
    | .error e => .error e
    | .ok p =>
      match p[i]? with
      | none => .error .indexError
      | some row =>
        match c.S.disc (1 - (k : K) * (1 / (c.ngen : K))) (dr i).disc (c.S.clip (moveRow c a fac (dr i) best p row)) with
        | .error e => .error e
        | .ok row' => .ok (p.set i row')

/-- `UpdateWhales` in generation `k`, lines 256-278. -/
def move (c : Conf K) (dr : ℕ → ℕ → Draw K) : Swarm.Move K := fun k best pop =>
  match coefA c k with
  | .error e => .error e
  | .ok a =>
    match coefFac c k with
    | .error e => .error e
    | .ok fac => moveTo c k a fac (dr k) best c.nwhales pop

/-- `evolute`, lines 225-344. -/
def evolute (c : Conf K) (m : Bool) (userFit : List K → K) (dr : ℕ → ℕ → Draw K) (pos0 : List (List K)) :
    Py (Swarm.Result K) :=
  Swarm.evolute c.S c.nwhales c.ngen (move c dr) m userFit pos0

theorem moveTo_ok {c : Conf K} (hS : c.S.OK) {k : ℕ} {a fac : K} {dr : ℕ → Draw K} {best : List K} {i : ℕ}
    {pop pop' : List (List K)} (h : moveTo c k a fac dr best i pop = .ok pop') (hp : ∀ p ∈ pop, c.S.Feasible p) :
    pop'.length = pop.length ∧ ∀ p ∈ pop', c.S.Feasible p := by
  induction i generalizing pop' with
  | zero => cases h; exact ⟨rfl, hp⟩
  | succ i ih =>
    simp only [moveTo] at h
    split at h
    · cases h
    · rename_i q hq
      obtain ⟨h1, h2⟩ := ih hq
      split at h
      · cases h
      · rename_i row hrow
        split at h
        · cases h
        · rename_i row' hr
          cases h
          refine ⟨by simp [h1], ?_⟩
          intro p hp'
          rcases List.mem_or_eq_of_mem_set hp' with hh | hh
          · exact h2 p hh
          · subst hh
            have := h2 row (List.mem_of_getElem? hrow)
            exact Space.disc_feasible hS (c.S.clip_inBox hS (by simp [moveRow, this.1.length_eq])) hr

theorem move_ok {c : Conf K} (hS : c.S.OK) (dr : ℕ → ℕ → Draw K) : Swarm.MoveOK c.S c.nwhales (move c dr) := by
  intro k b ps ps' hb hps _ h
  unfold move at h
  split at h
  · cases h
  · split at h
    · cases h
    · exact moveTo_ok hS h hps

theorem moveTo_total {c : Conf K} (hS : c.S.OK) (hm : c.S.method = .nearestInt) {k : ℕ} {a fac : K} {dr : ℕ → Draw K}
    {best : List K} {i : ℕ} {pop : List (List K)} (hi : i ≤ pop.length) (hp : ∀ p ∈ pop, c.S.Feasible p) :
    ∃ pop', moveTo c k a fac dr best i pop = .ok pop' := by
  induction i with
  | zero => exact ⟨_, rfl⟩
  | succ i ih =>
    obtain ⟨q, hq⟩ := ih (by omega)
    obtain ⟨h1, h2⟩ := moveTo_ok hS hq hp
    have hlt : i < q.length := by omega
    simp only [moveTo, hq, List.getElem?_eq_getElem hlt]
    have hf := h2 _ (List.getElem_mem hlt)
    obtain ⟨row', hr⟩ := Space.disc_nearest_total hS hm (1 - (k : K) * (1 / (c.ngen : K))) (dr i).disc
      (v := c.S.clip (moveRow c a fac (dr i) best q q[i]))
      (by rw [Space.length_clip hS (by simp [moveRow, hf.1.length_eq])])
    rw [hr]
    exact ⟨_, rfl⟩

end
end Neorl.WOA

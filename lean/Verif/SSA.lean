import Verif.Swarm

/-!
# Salp swarm

Model of `neorl/evolu/ssa.py`: the main loop is `Verif/Swarm.lean`, the move is below.
-/

set_option linter.unusedSectionVars false
set_option linter.unusedVariables false

namespace Neorl.SSA

section
variable {K : Type} [Field K] [LinearOrder K] [IsStrictOrderedRing K] [FloorRing K]

/-- The argument `c1` (lines 258-266): missing, a scalar or a list. -/
inductive C1 (K : Type)
  | default
  | scalar (c : K)
  | list (cs : List K)

/-- Arguments, `neorl/evolu/ssa.py` lines 45-88 and 220.  `c1fun l ngen` stands for `2*math.exp(-((4*l/ngen)**2))`. -/
structure Conf (K : Type) where
  S : Space K
  nsalps : ℕ
  ngen : ℕ
  c1 : C1 K
  c1fun : ℕ → ℕ → K

/-- Draws of salp `i` in one generation (lines 201-202 per dimension, and the discrete repair of line 215). -/
structure Draw (K : Type) where
  c2 : ℕ → K
  c3 : ℕ → K
  disc : ℕ → K × ℕ

/-- Lines 258-266 with `l = k + 1`. -/
def coefC1 (c : Conf K) (k : ℕ) : Py K :=
  match c.c1 with
  | .default => .ok (c.c1fun (k + 1) c.ngen)
  | .scalar x => .ok x
  | .list cs =>
    if cs.length = c.ngen then
      match cs[k]? with
      | some a => .ok a
      | none => .error .indexError
    else .error .assertion

/-- Leader update, lines 200-206. -/
def leader (c : Conf K) (c1 : K) (d : Draw K) (best row : List K) : List K :=
  row.mapIdx fun j _ =>
    let b := c.S.bounds.getD j (0, 0)
    let w := c1 * ((b.2 - b.1) * d.c2 j + b.1)
    if d.c3 j < 1 / 2 then best.getD j 0 + w else best.getD j 0 - w

/-- Follower update, lines 209-212: mean of the salp and its (already updated) predecessor. -/
def follower (prev row : List K) : List K := List.zipWith (fun b a => (b + a) / 2) row prev

/-- Clamp and discrete repair, lines 214-215, with `self.a = 1 - l/ngen`, `l = k+1` (line 256). -/
def repair (c : Conf K) (k : ℕ) (d : Draw K) (v : List K) : Py (List K) :=
  c.S.disc (1 - ((k + 1 : ℕ) : K) * (1 / (c.ngen : K))) d.disc (c.S.clip v)

/-- Lines 195-217 for the salps `i, i+1, ...` (given as a list), `prev` being the updated row `i-1`.  For `i = 0` the leader branch is
always taken (`0 < nsalps/2`), so `prev` is not used. `i < nsalps/2` is `2*i < nsalps`. -/
def moveFrom (c : Conf K) (k : ℕ) (c1 : K) (dr : ℕ → Draw K) (best : List K) : ℕ → List K → List (List K) → Py (List (List K))
  | _, _, [] => .ok []
  | i, prev, row :: rows =>
    match repair c k (dr i) (if 2 * i < c.nsalps then leader c c1 (dr i) best row else follower prev row) with
    | .error e => .error e
    | .ok row' =>
      match moveFrom c k c1 dr best (i + 1) row' rows with
      | .error e => .error e
      | .ok rows' => .ok (row' :: rows')

/-- `UpdateSalps` in generation `k`, lines 255-271. -/
def move (c : Conf K) (dr : ℕ → ℕ → Draw K) : Swarm.Move K := fun k best pop =>
  match coefC1 c k with
  | .error e => .error e
  | .ok c1 => moveFrom c k c1 (dr k) best 0 [] pop

/-- `evolute`, lines 220-333. -/
def evolute (c : Conf K) (m : Bool) (userFit : List K → K) (dr : ℕ → ℕ → Draw K) (pos0 : List (List K)) :
    Py (Swarm.Result K) :=
  Swarm.evolute c.S c.nsalps c.ngen (move c dr) m userFit pos0

theorem moveFrom_ok {c : Conf K} (hS : c.S.OK) {k : ℕ} {c1 : K} {dr : ℕ → Draw K} {best : List K} {i : ℕ} {prev : List K}
    {pop pop' : List (List K)} (h : moveFrom c k c1 dr best i prev pop = .ok pop') (hp : ∀ p ∈ pop, c.S.Feasible p)
    (hprev : (i = 0 ∧ pop.length = c.nsalps) ∨ prev.length = c.S.bounds.length) :
    pop'.length = pop.length ∧ ∀ p ∈ pop', c.S.Feasible p := by
  induction pop generalizing i prev pop' with
  | nil => cases h; exact ⟨rfl, by simp⟩
  | cons row rows ih =>
    simp only [moveFrom] at h
    split at h
    · cases h
    · rename_i row' hr
      have hrow : c.S.Feasible row' := by
        refine Space.disc_feasible hS (c.S.clip_inBox hS ?_) hr
        have hl := (hp row (by simp)).1.length_eq
        split_ifs with hc
        · simp [leader, hl]
        · rcases hprev with ⟨h0, h1⟩ | hprev
          · subst h0; simp at hc h1; omega
          · simp [follower, hl, hprev]
      split at h
      · cases h
      · rename_i rows' hrs
        cases h
        obtain ⟨h1, h2⟩ := ih hrs (fun p hp' => hp p (by simp [hp'])) (Or.inr hrow.1.length_eq)
        refine ⟨by simp [h1], ?_⟩
        intro p hp'
        rcases List.mem_cons.1 hp' with rfl | hp'
        · exact hrow
        · exact h2 p hp'

theorem moveFrom_total {c : Conf K} (hS : c.S.OK) (hm : c.S.method = .nearestInt) {k : ℕ} {c1 : K} {dr : ℕ → Draw K}
    {best : List K} {i : ℕ} {prev : List K} {pop : List (List K)} (hp : ∀ p ∈ pop, c.S.Feasible p)
    (hprev : (i = 0 ∧ pop.length = c.nsalps) ∨ prev.length = c.S.bounds.length) :
    ∃ pop', moveFrom c k c1 dr best i prev pop = .ok pop' := by
  induction pop generalizing i prev with
  | nil => exact ⟨_, rfl⟩
  | cons row rows ih =>
    have hl := (hp row (by simp)).1.length_eq
    have hv : (if 2 * i < c.nsalps then leader c c1 (dr i) best row else follower prev row).length = c.S.bounds.length := by
      split_ifs with hc
      · simp [leader, hl]
      · rcases hprev with ⟨h0, h1⟩ | hprev
        · subst h0; simp at hc h1; omega
        · simp [follower, hl, hprev]
    obtain ⟨row', hr⟩ := Space.disc_nearest_total hS hm (1 - ((k + 1 : ℕ) : K) * (1 / (c.ngen : K))) (dr i).disc
      (v := c.S.clip (if 2 * i < c.nsalps then leader c c1 (dr i) best row else follower prev row))
      (by rw [Space.length_clip hS hv])
    have hrow := Space.disc_feasible hS (c.S.clip_inBox hS hv) hr
    obtain ⟨rows', hrs⟩ := ih (i := i + 1) (prev := row') (fun p hp' => hp p (by simp [hp'])) (Or.inr hrow.1.length_eq)
    have hr' : repair c k (dr i) (if 2 * i < c.nsalps then leader c c1 (dr i) best row else follower prev row) = .ok row' := hr
    simp only [moveFrom, hr', hrs]
    exact ⟨_, rfl⟩

/-- A move that keeps the population size; the size must be `nsalps` as in the code. -/
theorem move_ok {c : Conf K} (hS : c.S.OK) (dr : ℕ → ℕ → Draw K) {k : ℕ} {b : List K} {ps ps' : List (List K)}
    (hps : ∀ p ∈ ps, c.S.Feasible p) (hn : ps.length = c.nsalps) (h : move c dr k b ps = .ok ps') :
    ps'.length = ps.length ∧ ∀ p ∈ ps', c.S.Feasible p := by
  unfold move at h
  split at h
  · cases h
  · exact moveFrom_ok hS h hps (Or.inl ⟨rfl, hn⟩)

end
end Neorl.SSA

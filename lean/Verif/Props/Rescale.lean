import Verif.RescaleMore
import Verif.InitPop
import Verif.HHO

/-!
# C138: the units of the variables

A user who writes the same problem in other units (`x_j ↦ a_j x_j + b_j`: metres or millimetres, Celsius or Kelvin) expects the same search.
-/

set_option linter.unusedSectionVars false
set_option linter.unusedVariables false

namespace Neorl.Rescale

section
variable {K : Type} [Field K] [LinearOrder K] [IsStrictOrderedRing K] [FloorRing K]

/-- The same point in the old units. -/
def back (a b : ℕ → K) (v : List K) : List K := v.mapIdx fun j y => (y - b j) / a j

theorem back_pt {a b : ℕ → K} (ha : ∀ j, 0 < a j) (v : List K) : back a b (pt a b v) = v := by
  apply List.ext_getElem?
  intro j
  have := (ha j).ne'
  rw [back, List.getElem?_mapIdx, pt_get]
  cases v[j]? with
  | none => rfl
  | some x => simp [this]

theorem pt_back {a b : ℕ → K} (ha : ∀ j, 0 < a j) (v : List K) : pt a b (back a b v) = v := by
  apply List.ext_getElem?
  intro j
  have := (ha j).ne'
  rw [pt_get, back, List.getElem?_mapIdx]
  cases v[j]? with
  | none => rfl
  | some x => simp only [Option.map_some, Option.some.injEq]; field_simp; ring

/-- C138: the objective in the new units exists and is unique; the box in the new units holds exactly the points of the old box. -/
theorem C138_same_problem {a b : ℕ → K} (ha : ∀ j, 0 < a j) (S : Space K) (f : List K → K) :
    (∃! f' : List K → K, ∀ x, f' (pt a b x) = f x) ∧ (∀ v, InBox (space a b S).bounds (pt a b v) ↔ InBox S.bounds v) ∧
      ∀ w, InBox (space a b S).bounds w → ∃ v, InBox S.bounds v ∧ w = pt a b v := by
  have box : ∀ v, InBox (space a b S).bounds (pt a b v) ↔ InBox S.bounds v := by
    intro v
    simp only [InBox, List.forall₂_iff_get, space, List.length_mapIdx, pt_length]
    refine and_congr_right fun hlen => forall_congr' fun j => ?_
    constructor
    · intro h h1 h2
      have := h h1 h2
      have e : (pt a b v).get ⟨j, by simpa using h2⟩ = a j * v.get ⟨j, h2⟩ + b j := by simp [pt, Units.tr, Units.aff]
      simp only [List.get_eq_getElem, List.getElem_mapIdx] at this e ⊢
      rw [e] at this
      exact ⟨le_of_mul_le_mul_left (by linarith [this.1]) (ha j), le_of_mul_le_mul_left (by linarith [this.2]) (ha j)⟩
    · intro h h1 h2
      have := h h1 (by simpa using h2)
      have e : (pt a b v).get ⟨j, by simpa using h2⟩ = a j * v.get ⟨j, by simpa using h2⟩ + b j := by simp [pt, Units.tr, Units.aff]
      simp only [List.get_eq_getElem, List.getElem_mapIdx] at this e ⊢
      rw [e]
      have h3 := mul_le_mul_of_nonneg_left this.1 (ha j).le
      have h4 := mul_le_mul_of_nonneg_left this.2 (ha j).le
      exact ⟨by linarith, by linarith⟩
  refine ⟨⟨fun y => f (back a b y), fun x => by simp only [back_pt ha], ?_⟩, box, ?_⟩
  · intro g hg
    funext y
    rw [← hg, pt_back ha]
  · intro w hw
    refine ⟨back a b w, ?_, (pt_back ha w).symm⟩
    rw [← box, pt_back ha]
    exact hw

/-- C138: differential evolution, moth-flame optimisation and cuckoo search do not depend on the units of continuous variables: in new units the same draws give the
same run, every evaluated point and the answer rewritten, every fitness value as before. -/
theorem C138_affine {a b : ℕ → K} (ha : ∀ j, 0 < a j) (m : Bool) {f f' : List K → K} (hf : ∀ x, f' (pt a b x) = f x) (pos0 : List (List K)) :
    (∀ (c : Neorl.DE.Conf K) (dr : ℕ → ℕ → Neorl.DE.Draw K) (rl : ℕ → List (ℕ × List K)), c.S.OK → Cont c.S →
      Neorl.DE.evolute { c with S := space a b c.S } m f' dr (fun g => (rl g).map fun r => (r.1, pt a b r.2)) (pos0.map (pt a b))
        = (Neorl.DE.evolute c m f dr rl pos0).map fun r =>
          { r with x := pt a b r.x, lastPop := r.lastPop.map fun p => (pt a b p.1, p.2), log := r.log.map (pt a b) }) ∧
    (∀ (c : Neorl.MFO.Conf K) (dr : ℕ → ℕ → Neorl.MFO.Draw K), c.S.OK → Cont c.S → Neorl.MFO.SortOK c.srt → MFO.SortFit c.srt →
      (∀ p ∈ pos0, p.length = c.S.bounds.length) →
      Neorl.MFO.evolute { c with S := space a b c.S } m f' dr (pos0.map (pt a b))
        = (Neorl.MFO.evolute c m f dr pos0).map fun r =>
          { r with x := pt a b r.x, lastPop := r.lastPop.map fun p => (pt a b p.1, p.2), log := r.log.map (pt a b) }) ∧
    (∀ (c : Neorl.CS.Conf K) (dr : ℕ → Neorl.CS.Draw K), c.S.OK → Cont c.S → (∀ p ∈ pos0, p.length = c.S.bounds.length) →
      Neorl.CS.evolute { c with S := space a b c.S } m f' dr (pos0.map (pt a b))
        = (Neorl.CS.evolute c m f dr pos0).map fun r =>
          { r with x := pt a b r.x, lastPop := r.lastPop.map fun p => (pt a b p.1, p.2), log := r.log.map (pt a b) }) :=
  ⟨fun c dr rl hS hc => DE.evolute_pt ha hS hc m hf dr rl pos0, fun c dr hS hc ho hs h0 => MFO.evolute_pt ha hS hc ho hs m hf dr h0,
   fun c dr hS hc h0 => CS.evolute_pt ha hS hc m hf dr h0⟩

/-- C138: grey wolf, whale, salp swarm, JAYA and particle swarm do not depend on the scale of continuous variables (`b = 0`). -/
theorem C138_scale {a : ℕ → K} (ha : ∀ j, 0 < a j) (m : Bool) {f f' : List K → K} (hf : ∀ x, f' (pt a z0 x) = f x) (pos0 : List (List K)) :
    (∀ (c : Neorl.GWO.Conf K) (dr : ℕ → Neorl.GWO.Draw K), c.S.OK → Cont c.S →
      Neorl.GWO.evolute { c with S := space a z0 c.S } m f' dr (pos0.map (pt a z0))
        = (Neorl.GWO.evolute c m f dr pos0).map fun r =>
          { r with x := pt a z0 r.x, lastPop := r.lastPop.map fun p => (pt a z0 p.1, p.2), log := r.log.map (pt a z0) }) ∧
    (∀ (c : Neorl.WOA.Conf K) (dr : ℕ → ℕ → Neorl.WOA.Draw K), c.S.OK → Cont c.S →
      Neorl.WOA.evolute { c with S := space a z0 c.S } m f' dr (pos0.map (pt a z0))
        = (Neorl.WOA.evolute c m f dr pos0).map fun r =>
          { r with x := pt a z0 r.x, lastPop := r.lastPop.map fun p => (pt a z0 p.1, p.2), log := r.log.map (pt a z0) }) ∧
    (∀ (c : Neorl.SSA.Conf K) (dr : ℕ → ℕ → Neorl.SSA.Draw K), c.S.OK → Cont c.S →
      Neorl.SSA.evolute { c with S := space a z0 c.S } m f' dr (pos0.map (pt a z0))
        = (Neorl.SSA.evolute c m f dr pos0).map fun r =>
          { r with x := pt a z0 r.x, lastPop := r.lastPop.map fun p => (pt a z0 p.1, p.2), log := r.log.map (pt a z0) }) ∧
    (∀ (c : Neorl.JAYA.Conf K) (dr : ℕ → ℕ → Neorl.JAYA.Draw K), c.S.OK → Cont c.S →
      Neorl.JAYA.evolute { c with S := space a z0 c.S } m f' dr (pos0.map (pt a z0))
        = (Neorl.JAYA.evolute c m f dr pos0).map fun r =>
          { r with x := pt a z0 r.x, lastPop := r.lastPop.map fun p => (pt a z0 p.1, p.2), log := r.log.map (pt a z0) }) ∧
    (∀ (c : Neorl.PSO.Conf K) (dr : ℕ → ℕ → Neorl.PSO.Draw K), c.S.OK → Cont c.S →
      Neorl.PSO.evolute { c with S := space a z0 c.S } m f' dr (pos0.map (pt a z0))
        = (Neorl.PSO.evolute c m f dr pos0).map fun r =>
          { r with x := pt a z0 r.x, lastPop := r.lastPop.map fun p => (pt a z0 p.1, p.2), log := r.log.map (pt a z0) }) :=
  ⟨fun c dr hS hc => GWO.evolute_scale ha hS hc m hf dr pos0, fun c dr hS hc => WOA.evolute_scale ha hS hc m hf dr pos0,
   fun c dr hS hc => SSA.evolute_scale ha hS hc m hf dr pos0, fun c dr hS hc => JAYA.evolute_scale ha hS hc m hf dr pos0,
   fun c dr hS hc => PSO.evolute_scale ha hS hc m hf dr pos0⟩

/-- C138: the bat algorithm does not depend on where zero is (`a = 1`). -/
theorem C138_shift {b : ℕ → K} (m : Bool) {f f' : List K → K} (hf : ∀ x, f' (pt o1 b x) = f x) (pos0 : List (List K)) (c : Neorl.BAT.Conf K)
    (dr : ℕ → ℕ → Neorl.BAT.Draw K) (hS : c.S.OK) (hc : Cont c.S) :
    Neorl.BAT.evolute { c with S := space o1 b c.S } m f' dr (pos0.map (pt o1 b))
      = (Neorl.BAT.evolute c m f dr pos0).map fun r =>
        { r with x := pt o1 b r.x, lastPop := r.lastPop.map fun p => (pt o1 b p.1, p.2), log0 := r.log0.map (pt o1 b), log := r.log.map (pt o1 b) } :=
  BAT.evolute_shift hS hc m hf dr pos0

/-- The variables of a box. -/
def boxKinds (bs : List (K × K)) : List (InitPop.Kind K) := bs.map fun p => .known (.float p.1 p.2)

theorem genIndv_box (g : InitPop.Gen) (a b : ℕ → K) (bs : List (K × K)) (d : ℕ → InitPop.Draw K) :
    ∃ v : List K, v.length = bs.length ∧ InitPop.genIndv g (boxKinds bs) d = .ok (v.map .float) ∧
      InitPop.genIndv g (boxKinds (bs.mapIdx fun j p => (a j * p.1 + b j, a j * p.2 + b j))) d = .ok ((pt a b v).map .float) := by
  induction bs generalizing a b d with
  | nil => exact ⟨[], rfl, rfl, rfl⟩
  | cons p bs ih =>
    obtain ⟨v, h0, h1, h2⟩ := ih (fun j => a (j + 1)) (fun j => b (j + 1)) (fun j => d (j + 1))
    refine ⟨(p.1 + (p.2 - p.1) * (d 0).u) :: v, by simp [h0], ?_, ?_⟩
    · simp only [boxKinds, List.map_cons] at h1 ⊢
      simp only [InitPop.genIndv, InitPop.genVar, h1, InitPop.uniform, List.cons_append, List.nil_append]
    · simp only [boxKinds, List.mapIdx_cons, List.map_cons] at h2 ⊢
      simp only [InitPop.genIndv, InitPop.genVar, h2, InitPop.uniform, List.cons_append, List.nil_append, pt, Units.tr_cons, List.map_cons, Except.ok.injEq,
        List.cons.injEq, Val.float.injEq, Units.aff]
      exact ⟨by ring, rfl⟩

/-- C138: the random starting population in the new units is the starting population of the old units rewritten. -/
theorem C138_start (a b : ℕ → K) (S : Space K) (g : InitPop.Gen) (dr : ℕ → ℕ → InitPop.Draw K) (n : ℕ) :
    ∃ pop : List (List K), pop.length = n ∧ (∀ p ∈ pop, p.length = S.bounds.length) ∧
      InitPop.genPop g (boxKinds S.bounds) dr n = .ok (pop.map (List.map .float)) ∧
      InitPop.genPop g (boxKinds (space a b S).bounds) dr n = .ok ((pop.map (pt a b)).map (List.map .float)) := by
  have key : ∀ (l : List ℕ) (k : ℕ), ∃ pop : List (List K), pop.length = l.length ∧ (∀ p ∈ pop, p.length = S.bounds.length) ∧
      mapRows (fun _ i => InitPop.genIndv g (boxKinds S.bounds) (dr i)) k l = .ok (pop.map (List.map .float)) ∧
      mapRows (fun _ i => InitPop.genIndv g (boxKinds (space a b S).bounds) (dr i)) k l = .ok ((pop.map (pt a b)).map (List.map .float)) := by
    intro l
    induction l with
    | nil => exact fun _ => ⟨[], rfl, by simp, rfl, rfl⟩
    | cons i l ih =>
      intro k
      obtain ⟨v, h0, h1, h2⟩ := genIndv_box g a b S.bounds (dr i)
      obtain ⟨pop, g0, g1, g2, g3⟩ := ih (k + 1)
      have h2' : InitPop.genIndv g (boxKinds (space a b S).bounds) (dr i) = .ok ((pt a b v).map .float) := h2
      refine ⟨v :: pop, by simp [g0], ?_, ?_, ?_⟩
      · intro p hp
        rcases List.mem_cons.1 hp with rfl | hp
        · exact h0
        · exact g1 p hp
      · simp only [mapRows, h1, g2, List.map_cons]
      · simp only [mapRows, h2', g3, List.map_cons]
  obtain ⟨pop, h0, h1, h2, h3⟩ := key (List.range n) 0
  exact ⟨pop, by simpa using h0, h1, h2, h3⟩

end

/-! ### What does depend on the units -/

/-- One continuous variable between 0 and 10. -/
def exS : Space ℚ := { bounds := [(0, 10)], types := [.float], method := .nearestInt, expf := fun _ => 1 }

theorem exS_ok : exS.OK := Space.ok_of_okB (by decide +kernel)

theorem exS_cont : Cont exS := by
  intro t ht
  simpa [exS] using ht

/-- The objective in the old units. -/
def exF (v : List ℚ) : ℚ := v.getD 0 0

/-- Zero is moved by 100. -/
def exShift : ℕ → ℚ := fun _ => 100

/-- Zero is moved the other way. -/
def exDown : ℕ → ℚ := fun _ => -100

/-- Ten times smaller units. -/
def exTen : ℕ → ℚ := fun _ => 10

/-- Points evaluated in the new units, and the points evaluated in the old units rewritten. -/
def logs {R : Type} (φ : List ℚ → List ℚ) (lg : R → List (List ℚ)) (new old : Py R) : Option (List (List ℚ)) × Option (List (List ℚ)) :=
  (new.toOption.map lg, old.toOption.map fun r => (lg r).map φ)

def exGWO : Neorl.GWO.Conf ℚ := { S := exS, nwolves := 3, ngen := 2, a := none }
def exGWOd : ℕ → Neorl.GWO.Draw ℚ := fun _ => { r := fun _ _ k => if k % 2 = 0 then 3 / 4 else 0, disc := fun _ _ => (0, 0) }

def exWOA : Neorl.WOA.Conf ℚ := { S := exS, nwhales := 2, ngen := 1, a0 := 2, spiral := fun _ => 1, kwA := none, kwFac := none }
def exWOAd : ℕ → ℕ → Neorl.WOA.Draw ℚ := fun _ _ => { r1 := 5 / 8, r2 := 0, rl := 0, p := 0, pick := fun _ => 0, disc := fun _ => (0, 0) }

def exSSA : Neorl.SSA.Conf ℚ := { S := exS, nsalps := 2, ngen := 1, c1 := .scalar (1 / 10), c1fun := fun _ _ => 1 }
def exSSAd : ℕ → ℕ → Neorl.SSA.Draw ℚ := fun _ _ => { c2 := fun _ => 1 / 2, c3 := fun _ => 0, disc := fun _ => (0, 0) }

def exJAYA : Neorl.JAYA.Conf ℚ := { S := exS, npop := 2, ngen := 1 }
def exJAYAd : ℕ → ℕ → Neorl.JAYA.Draw ℚ := fun _ _ => { r1 := fun _ => 1 / 2, r2 := fun _ => 1 / 4, disc := fun _ => (0, 0) }

def exPSO : Neorl.PSO.Conf ℚ :=
  { S := exS, npar := 2, ngen := 1, c1 := 2, c2 := 2, mech := .constric, w0 := 1 / 2, wmin := 0, wmax := 1, kwW := none, sig := fun _ => 0, intArr := false }
def exPSOd : ℕ → ℕ → Neorl.PSO.Draw ℚ := fun _ _ => { r1 := fun _ => 0, r2 := fun _ => 0, wr := fun _ => 0, u := fun _ => 0, pick := fun _ => 0 }

def exBAT : Neorl.BAT.Conf ℚ :=
  { S := exS, nbats := 2, ngen := 1, fmin := 0, fmax := 1, A := 1 / 2, alpha := 1, r0 := 1 / 2, pulse := fun _ => 1, levy := false }
def exBATd : ℕ → ℕ → Neorl.BAT.Draw ℚ := fun _ _ =>
  { jump := fun _ => 0, u1 := 0, b0 := 0, b1 := 1, t2 := 1, w2 := fun _ => 1, t3 := 1, w3 := fun _ => 0, d1 := fun _ => (0, 0), d2 := fun _ => (0, 0), d3 := fun _ => (0, 0) }

def exHHO : Neorl.HHO.Conf ℚ := { S := exS, nhawks := 2, ngen := 2, kwE1 := none }
def exHHOd (e0 : ℚ) (r : ℚ) : ℕ → ℕ → Neorl.HHO.Draw ℚ := fun _ _ =>
  { e0 := e0, q := 0, hawk := 0, u1 := 1 / 2, u2 := 1 / 4, r := r, uJ := 1 / 2, jump := fun _ => 1, dY := fun _ => (0, 0), dZ := fun _ => (0, 0), dF := fun _ => (0, 0) }

/-- C138 (defect): the moves of the grey wolf, whale, salp swarm, JAYA and Harris hawks optimizers and the initial speeds of PSO depend on where zero is.  The box
`[0, 10]` and the same box moved by 100 (by -100 for JAYA), with the same objective and the same draws: the runs evaluate different points. -/
theorem C138_origin :
    (Neorl.GWO.evolute exGWO true exF exGWOd [[2], [4], [6]]).toOption.map (fun r => r.log) = some [[2], [4], [6], [2], [0], [0]] ∧
    (Neorl.GWO.evolute { exGWO with S := space o1 exShift exS } true (fun y => exF (back o1 exShift y)) exGWOd [[102], [104], [106]]).toOption.map (fun r => r.log)
      = some [[102], [104], [106], [100], [100], [100]] ∧
    (Neorl.WOA.evolute exWOA true exF exWOAd [[4], [6]]).toOption.map (fun r => r.log) = some [[4], [6], [2], [1]] ∧
    (Neorl.WOA.evolute { exWOA with S := space o1 exShift exS } true (fun y => exF (back o1 exShift y)) exWOAd [[104], [106]]).toOption.map (fun r => r.log)
      = some [[104], [106], [100], [100]] ∧
    (Neorl.SSA.evolute exSSA true exF exSSAd [[4], [6]]).toOption.map (fun r => r.log) = some [[4], [6], [9 / 2], [21 / 4]] ∧
    (Neorl.SSA.evolute { exSSA with S := space o1 exShift exS } true (fun y => exF (back o1 exShift y)) exSSAd [[104], [106]]).toOption.map (fun r => r.log)
      = some [[104], [106], [110], [108]] ∧
    (Neorl.JAYA.evolute exJAYA true exF exJAYAd [[4], [6]]).toOption.map (fun r => r.log) = some [[4], [6], [7 / 2], [5]] ∧
    (Neorl.JAYA.evolute { exJAYA with S := space o1 exDown exS } true (fun y => exF (back o1 exDown y)) exJAYAd [[-96], [-94]]).toOption.map (fun r => r.log)
      = some [[-96], [-94], [-100], [-100]] ∧
    (Neorl.PSO.evolute exPSO true exF exPSOd [[4], [6]]).toOption.map (fun r => r.log) = some [[4], [6], [21 / 5], [63 / 10]] ∧
    (Neorl.PSO.evolute { exPSO with S := space o1 exShift exS } true (fun y => exF (back o1 exShift y)) exPSOd [[104], [106]]).toOption.map (fun r => r.log)
      = some [[104], [106], [546 / 5], [110]] ∧
    (Neorl.HHO.evolute exHHO true exF (exHHOd 1 1) [[4], [6]]).toOption.map (fun r => r.starts) = some [[4], [6], [3], [3]] ∧
    (Neorl.HHO.evolute { exHHO with S := space o1 exShift exS } true (fun y => exF (back o1 exShift y)) (exHHOd 1 1) [[104], [106]]).toOption.map (fun r => r.starts)
      = some [[104], [106], [100], [100]] := by
  refine ⟨?_, ?_, ?_, ?_, ?_, ?_, ?_, ?_, ?_, ?_, ?_, ?_⟩ <;> decide +kernel

/-- C138 (defect): the random walks of the bat algorithm and the Lévy jumps of Harris hawks have a fixed size in the user's units: in units ten times smaller the steps are
ten times smaller. -/
theorem C138_step_size :
    (Neorl.BAT.evolute exBAT true exF exBATd [[4], [6]]).toOption.map (fun r => r.log) = some [[4], [4], [9 / 2], [9 / 2], [9 / 2], [9 / 2]] ∧
    (Neorl.BAT.evolute { exBAT with S := space exTen z0 exS } true (fun y => exF (back exTen z0 y)) exBATd [[40], [60]]).toOption.map (fun r => r.log)
      = some [[40], [40], [81 / 2], [81 / 2], [81 / 2], [81 / 2]] ∧
    (Neorl.HHO.evolute exHHO false exF (exHHOd (3 / 5) 0) [[4], [6]]).toOption.map (fun r => r.early)
      = some [[4], [6], [28 / 5], [148 / 25], [173 / 25], [28 / 5], [173 / 25]] ∧
    (Neorl.HHO.evolute { exHHO with S := space exTen z0 exS } false (fun y => exF (back exTen z0 y)) (exHHOd (3 / 5) 0) [[40], [60]]).toOption.map (fun r => r.early)
      = some [[40], [60], [56], [296 / 5], [301 / 5], [56], [301 / 5]] := by
  refine ⟨?_, ?_, ?_, ?_⟩ <;> decide +kernel

/-! ### The hypotheses are met -/

example : exS.OK ∧ Cont exS ∧ (∀ j, 0 < exTen j) ∧ (∀ x, (fun y => exF (back exTen exShift y)) (pt exTen exShift x) = exF x) :=
  ⟨exS_ok, exS_cont, fun j => by simp [exTen], fun x => by simp only [back_pt (a := exTen) (b := exShift) (fun j => by simp [exTen])]⟩

example : MFO.SortFit (sortAsc fun a : List ℚ × ℚ => a.2) ∧ Neorl.MFO.SortOK (sortAsc fun a : List ℚ × ℚ => a.2) :=
  ⟨MFO.sortFit_stable, fun l => ⟨sortAsc_perm _ l, sortAsc_sorted _ l⟩⟩

def exDE : Neorl.DE.Conf ℚ := { S := exS, F := 1 / 2, CR := 1 / 2, npop := 4, ngen := 1 }
def exDEd : ℕ → ℕ → Neorl.DE.Draw ℚ := fun _ j =>
  { i1 := (j + 1) % 4, i2 := (j + 2) % 4, i3 := (j + 3) % 4, cross := fun _ => 1 / 4, discT := fun _ => (0, 0), discV := fun _ => (0, 0) }

/-- Differential evolution minimising in degrees Celsius between 0 and 10 and, with the same draws, in a unit ten times smaller whose zero is 100 lower. -/
example : (Neorl.DE.evolute exDE true exF exDEd (fun _ => []) [[2], [4], [6], [9]]).toOption.map (fun r => (r.x, r.y)) = some ([1], 1) ∧
    (Neorl.DE.evolute { exDE with S := space exTen exShift exS } true (fun y => exF (back exTen exShift y)) exDEd (fun _ => []) [[120], [140], [160], [190]]).toOption.map
      (fun r => (r.x, r.y)) = some ([110], 1) := by
  constructor <;> decide +kernel

end Neorl.Rescale

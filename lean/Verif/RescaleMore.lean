import Verif.Rescale

/-!
# Units of the variables, continued

JAYA and PSO (change of scale), BAT (shift), MFO and CS (both), for C138.  No new code is modelled here.
-/

set_option linter.unusedSectionVars false
set_option linter.unusedVariables false
set_option linter.unusedSimpArgs false

namespace Neorl.Rescale

section
variable {K : Type} [Field K] [LinearOrder K] [IsStrictOrderedRing K] [FloorRing K]

/-- No change of scale: a shift only. -/
def o1 : ℕ → K := fun _ => 1

theorem o1_pos (j : ℕ) : (0 : K) < o1 j := by simp [o1]

/-! ### JAYA: change of scale -/

namespace JAYA
open Neorl.JAYA

def conf (a b : ℕ → K) (c : Conf K) : Conf K := { c with S := space a b c.S }

def mapState (a b : ℕ → K) (s : State K) : State K :=
  { s with pos := s.pos.map (pt a b), last := s.last.map (p1 a b), log := s.log.map (pt a b) }

/-- The answer in the new units. -/
def mapResult (a b : ℕ → K) (r : Result K) : Result K :=
  { r with x := pt a b r.x, lastPop := r.lastPop.map (p1 a b), log := r.log.map (pt a b) }

theorem trial_scale {a : ℕ → K} (ha : ∀ j, 0 < a j) (best worst : List K) (d : Draw K) (row : List K) :
    trial (pt a z0 best) (pt a z0 worst) d (pt a z0 row) = pt a z0 (trial best worst d row) := by
  unfold trial
  apply pt_mapIdx
  intro j x _
  simp only [z0_app, add_zero, pt_getD0, abs_mul, abs_of_pos (ha j)]
  ring

theorem greedy_pt (a b : ℕ → K) (ps : List (List K)) (fs : List K) (qs : List (List K)) (gs : List K) :
    greedy (ps.map (pt a b)) fs (qs.map (pt a b)) gs = ((greedy ps fs qs gs).1.map (pt a b), (greedy ps fs qs gs).2) := by
  induction ps generalizing fs qs gs with
  | nil => cases fs <;> cases qs <;> cases gs <;> simp [greedy]
  | cons p ps ih =>
    cases fs with
    | nil => cases qs <;> cases gs <;> simp [greedy]
    | cons f fs =>
      cases qs with
      | nil => cases gs <;> simp [greedy]
      | cons q qs =>
        cases gs with
        | nil => simp [greedy]
        | cons g gs =>
          simp only [List.map_cons, greedy, ih]
          by_cases h : g > f <;> simp [h]

theorem gen_scale {a : ℕ → K} (ha : ∀ j, 0 < a j) {c : Conf K} (hS : c.S.OK) (hc : Cont c.S) {f f' : List K → K} (hf : ∀ x, f' (pt a z0 x) = f x)
    (g : ℕ) (dr : ℕ → Draw K) (s : State K) : gen (conf a z0 c) f' g dr (mapState a z0 s) = (gen c f g dr s).map (mapState a z0) := by
  unfold gen
  simp only [mapState, List.getElem?_map]
  cases s.pos[s.best.2]? with
  | none => rfl
  | some b =>
    cases s.pos[s.worst.2]? with
    | none => rfl
    | some w =>
      have hm : ∀ i, ∀ x ∈ s.pos, repair (conf a z0 c) g (dr i) (trial (pt a z0 b) (pt a z0 w) (dr i) (pt a z0 x))
          = (repair c g (dr i) (trial b w (dr i) x)).map (pt a z0) := by
        intro i x _
        rw [trial_scale ha]
        exact repair_pt ha hS hc _ _ _
      simp only [Option.map_some]
      rw [mapRows_pt (f := fun i row => repair c g (dr i) (trial b w (dr i) row)) hm]
      cases mapRows (fun i row => repair c g (dr i) (trial b w (dr i) row)) 0 s.pos with
      | error e => rfl
      | ok new =>
        have e : (new.map (pt a z0)).map f' = new.map f := by simp [Function.comp_def, hf]
        simp only [Except.map, e, greedy_pt]
        cases listMax (new.map f) with
        | error e => rfl
        | ok mx => simp [mapState, p1, Function.comp_def, hf]

theorem run_scale {a : ℕ → K} (ha : ∀ j, 0 < a j) {c : Conf K} (hS : c.S.OK) (hc : Cont c.S) {f f' : List K → K} (hf : ∀ x, f' (pt a z0 x) = f x)
    (dr : ℕ → ℕ → Draw K) (pos0 : List (List K)) (g : ℕ) :
    run (conf a z0 c) f' dr (pos0.map (pt a z0)) g = (run c f dr pos0 g).map (mapState a z0) := by
  induction g with
  | zero =>
    have e : (pos0.map (pt a z0)).map f' = pos0.map f := by simp [Function.comp_def, hf]
    simp only [run, init, e]
    cases pos0.map f <;> rfl
  | succ g ih =>
    simp only [run, ih]
    cases run c f dr pos0 g with
    | error e => rfl
    | ok s => exact gen_scale ha hS hc hf g (dr g) s

theorem evolute_scale {a : ℕ → K} (ha : ∀ j, 0 < a j) {c : Conf K} (hS : c.S.OK) (hc : Cont c.S) (m : Bool) {f f' : List K → K}
    (hf : ∀ x, f' (pt a z0 x) = f x) (dr : ℕ → ℕ → Draw K) (pos0 : List (List K)) :
    evolute (conf a z0 c) m f' dr (pos0.map (pt a z0)) = (evolute c m f dr pos0).map (mapResult a z0) := by
  unfold evolute
  have e1 : (conf a z0 c).npop = c.npop := rfl
  have e2 : (conf a z0 c).ngen = c.ngen := rfl
  rw [List.length_map, e1, e2]
  by_cases h1 : pos0.length ≠ c.npop
  · simp only [if_pos h1]; rfl
  simp only [if_neg h1, run_scale ha hS hc (f' := fun x => sgn (!m) (f' x)) (f := fun x => sgn (!m) (f x)) (fun x => by rw [hf])]
  cases run c (fun x => sgn (!m) (f x)) dr pos0 c.ngen with
  | error e => rfl
  | ok s =>
    simp only [Except.map, mapState]
    by_cases h2 : c.ngen = 0
    · simp only [if_pos h2]
    simp only [if_neg h2, List.getElem?_map]
    cases s.pos[s.best.2]? with
    | none => rfl
    | some x => simp [mapResult, p1, Function.comp_def]

end JAYA

/-! ### PSO: change of scale -/

namespace PSO
open Neorl.PSO

def conf (a b : ℕ → K) (c : Conf K) : Conf K := { c with S := space a b c.S }

def mapPart (a : ℕ → K) (p : Neorl.PSO.Part K) : Neorl.PSO.Part K := { pos := pt a z0 p.pos, vel := pt a z0 p.vel }

def mapState (a : ℕ → K) (s : State K) : State K :=
  { s with swarm := s.swarm.map (mapPart a), mem := s.mem.map (p1 a z0), swm := p1 a z0 s.swm, log := s.log.map (pt a z0) }

/-- The answer in the new units. -/
def mapResult (a b : ℕ → K) (r : Result K) : Result K :=
  { r with x := pt a b r.x, lastPop := r.lastPop.map (p1 a b), log := r.log.map (pt a b) }

theorem newVel_scale (a b : ℕ → K) (c : Conf K) (t w sf lf : K) (d : Draw K) (i : ℕ) (x v lp sp : K) :
    newVel (conf a b c) w sf lf d i (t * x) (t * v) (t * lp) (t * sp) = t * newVel c w sf lf d i x v lp sp := by
  unfold newVel
  have e : (conf a b c).mech = c.mech := rfl
  rw [e]
  cases c.mech <;> simp only [conf] <;> ring

theorem newPos_scale {a : ℕ → K} (ha : ∀ j, 0 < a j) {c : Conf K} (hc : Cont c.S) (d : Draw K) (i : ℕ) (x v : K) :
    newPos (conf a z0 c) d i (a i * x) (a i * v) = (newPos c d i x v).map fun y => a i * y := by
  unfold newPos
  have e1 : (conf a z0 c).S.types[i]? = c.S.types[i]? := rfl
  have e2 : (conf a z0 c).S.bounds[i]? = (c.S.bounds[i]?).map fun p => (a i * p.1, a i * p.2) := by
    simp [conf, space, z0]
  rw [e1, e2]
  cases ht : c.S.types[i]? with
  | none => rfl
  | some t =>
    rw [hc t (List.mem_of_getElem? ht)]
    cases c.S.bounds[i]? with
    | none => rfl
    | some b =>
      simp only [Option.map_some, Except.map, ← mul_add, gt_iff_lt, mul_lt_mul_iff_right₀ (ha i)]
      congr 1
      by_cases h1 : b.2 < x + v
      · simp only [if_pos h1, mul_lt_mul_iff_right₀ (ha i)]
        split_ifs <;> rfl
      · simp only [if_neg h1, mul_lt_mul_iff_right₀ (ha i)]
        split_ifs <;> rfl

theorem mapRows_idx_pt {a : ℕ → K} {f g : ℕ → K → Py K} : ∀ {xs : List K} (i : ℕ) (h : ∀ j x, xs[j]? = some x → g (i + j) (a (i + j) * x) = (f (i + j) x).map fun y => a (i + j) * y),
    mapRows g i (pt (fun j => a (i + j)) z0 xs) = (mapRows f i xs).map (pt (fun j => a (i + j)) z0)
  | [], i, h => rfl
  | x :: xs, i, h => by
    have e : pt (fun j => a (i + j)) z0 (x :: xs) = (a i * x) :: pt (fun j => a (i + 1 + j)) z0 xs := by
      simp only [pt, Units.tr_cons]
      congr 1
      · simp [Units.aff, z0]
      · congr 1
        funext j y
        simp [Units.aff, z0, Nat.add_assoc, Nat.add_comm 1 j]
    have h0 := h 0 x rfl
    rw [add_zero] at h0
    have hi := mapRows_idx_pt (a := a) (f := f) (g := g) (xs := xs) (i + 1) (fun j y hy => by
      have := h (j + 1) y (by simpa using hy)
      rw [show i + (j + 1) = i + 1 + j by ring] at this
      exact this)
    rw [e]
    simp only [mapRows, h0, hi]
    cases f i x with
    | error e => rfl
    | ok y =>
      simp only [Except.map]
      cases mapRows f (i + 1) xs with
      | error e => rfl
      | ok ys =>
        simp only [Except.ok.injEq]
        have e' : pt (fun j => a (i + j)) z0 (y :: ys) = (a i * y) :: pt (fun j => a (i + 1 + j)) z0 ys := by
          simp only [pt, Units.tr_cons]
          congr 1
          · simp [Units.aff, z0]
          · congr 1
            funext j y
            simp [Units.aff, z0, Nat.add_assoc, Nat.add_comm 1 j]
        rw [e']

theorem updateParticle_scale {a : ℕ → K} (ha : ∀ j, 0 < a j) {c : Conf K} (hc : Cont c.S) (w : K) (swm : List K × K) (d : Draw K) (p : Neorl.PSO.Part K) (l : List K × K) :
    updateParticle (conf a z0 c) w (p1 a z0 swm) d (mapPart a p) (p1 a z0 l) = (updateParticle c w swm d p l).map (mapPart a) := by
  unfold updateParticle
  have ev : ((mapPart a p).vel.mapIdx fun i v => newVel (conf a z0 c) w (p1 a z0 swm).2 (p1 a z0 l).2 d i ((mapPart a p).pos.getD i 0) v
        ((p1 a z0 l).1.getD i 0) ((p1 a z0 swm).1.getD i 0))
      = pt a z0 (p.vel.mapIdx fun i v => newVel c w swm.2 l.2 d i (p.pos.getD i 0) v (l.1.getD i 0) (swm.1.getD i 0)) := by
    apply pt_mapIdx
    intro j x _
    simp only [mapPart, p1, pt_getD0, z0_app, add_zero, newVel_scale]
  simp only [ev]
  generalize (p.vel.mapIdx fun i v => newVel c w swm.2 l.2 d i (p.pos.getD i 0) v (l.1.getD i 0) (swm.1.getD i 0)) = vel
  have hp := mapRows_idx_pt (a := a) (f := fun i x => newPos c d i x (vel.getD i 0)) (g := fun i x => newPos (conf a z0 c) d i x ((pt a z0 vel).getD i 0))
    (xs := p.pos) 0 (fun j x _ => by
      simp only [pt_getD0]
      exact newPos_scale ha hc d _ x _)
  simp only [zero_add] at hp
  have em : (mapPart a p).pos = pt a z0 p.pos := rfl
  rw [em, show pt a z0 p.pos = pt (fun j => a j) z0 p.pos from rfl, hp]
  cases mapRows (fun i x => newPos c d i x (vel.getD i 0)) 0 p.pos <;> rfl

theorem evalLoop_pt {a b : ℕ → K} {f f' : List K → K} (hf : ∀ x, f' (pt a b x) = f x) (ps : List (List K)) (ls : List (List K × K)) (g : List K × K) :
    evalLoop f' (ps.map (pt a b)) (ls.map (p1 a b)) (p1 a b g) = ((evalLoop f ps ls g).1.map (p1 a b), p1 a b (evalLoop f ps ls g).2) := by
  induction ps generalizing ls g with
  | nil => rfl
  | cons p ps ih =>
    cases ls with
    | nil => rfl
    | cons l ls =>
      simp only [List.map_cons, evalLoop, hf]
      have e : (p1 a b l).2 = l.2 := rfl
      have e' : (p1 a b g).2 = g.2 := rfl
      have eg : (if f p > g.2 then (pt a b p, f p) else p1 a b g) = p1 a b (if f p > g.2 then (p, f p) else g) := by
        split_ifs <;> rfl
      rw [e, e', eg]
      by_cases h : f p > l.2
      · simp only [if_pos h, ih]; simp [p1]
      · simp only [if_neg h, ih]; simp [p1]

theorem gen_scale {a : ℕ → K} (ha : ∀ j, 0 < a j) {c : Conf K} (hS : c.S.OK) (hc : Cont c.S) {f f' : List K → K} (hf : ∀ x, f' (pt a z0 x) = f x)
    (g : ℕ) (dr : ℕ → Draw K) (s : State K) : gen (conf a z0 c) f' g dr (mapState a s) = (gen c f g dr s).map (mapState a) := by
  have hs : ∀ x, f' ((conf a z0 c).S.clip (pt a z0 x)) = f (c.S.clip x) := fun x => by
    show f' ((space a z0 c.S).clip (pt a z0 x)) = _
    rw [clip_pt ha hS, hf]
  have hl : ∀ l : List (List K), (l.map (pt a z0)).map (conf a z0 c).S.clip = (l.map c.S.clip).map (pt a z0) := fun l => by
    simp only [List.map_map]
    exact List.map_congr_left fun x _ => clip_pt ha hS x
  unfold gen
  simp only [mapState, genSwarm]
  have ez : (s.swarm.map (mapPart a)).zip (s.mem.map (p1 a z0)) = (s.swarm.zip s.mem).map (fun q => (mapPart a q.1, p1 a z0 q.2)) := by
    rw [List.zip_map]; rfl
  rw [ez, mapRows_pt (f := fun i pl => updateParticle c s.w s.swm (dr i) pl.1 pl.2) (ψ := mapPart a)
    (fun i x _ => updateParticle_scale ha hc s.w s.swm (dr i) x.1 x.2)]
  cases mapRows (fun i pl => updateParticle c s.w s.swm (dr i) pl.1 pl.2) 0 (s.swarm.zip s.mem) with
  | error e => rfl
  | ok off =>
    have ex : (off.map (mapPart a)).map (fun p => p.pos) = (off.map fun p => p.pos).map (pt a z0) := by simp [Function.comp_def, mapPart]
    have ef : ((off.map fun p => p.pos).map (pt a z0)).map (fun p => f' ((conf a z0 c).S.clip p)) = (off.map fun p => p.pos).map (fun p => f (c.S.clip p)) := by
      simp [Function.comp_def, hs]
    simp only [Except.map, ex, evalLoop_pt (f' := fun x => f' ((conf a z0 c).S.clip x)) (f := fun x => f (c.S.clip x)) hs, ef, hl]
    have en : nextW (conf a z0 c) g s.w = nextW c g s.w := rfl
    rw [en]
    cases nextW c g s.w with
    | error e => rfl
    | ok w =>
      simp only
      cases listMax ((off.map fun p => p.pos).map fun p => f (c.S.clip p)) with
      | error e => rfl
      | ok mx => simp [mapState]

theorem run_scale {a : ℕ → K} (ha : ∀ j, 0 < a j) {c : Conf K} (hS : c.S.OK) (hc : Cont c.S) {f f' : List K → K} (hf : ∀ x, f' (pt a z0 x) = f x)
    (dr : ℕ → ℕ → Draw K) (pos0 : List (List K)) (g : ℕ) :
    run (conf a z0 c) f' dr (pos0.map (pt a z0)) g = (run c f dr pos0 g).map (mapState a) := by
  induction g with
  | zero =>
    have hs : ∀ x, f' ((conf a z0 c).S.clip (pt a z0 x)) = f (c.S.clip x) := fun x => by
      show f' ((space a z0 c.S).clip (pt a z0 x)) = _
      rw [clip_pt ha hS, hf]
    have hl : (pos0.map (pt a z0)).map (conf a z0 c).S.clip = (pos0.map c.S.clip).map (pt a z0) := by
      simp only [List.map_map]
      exact List.map_congr_left fun x _ => clip_pt ha hS x
    have em : ((pos0.map (pt a z0)).map fun p => (p, f' ((conf a z0 c).S.clip p))) = (pos0.map fun p => (p, f (c.S.clip p))).map (p1 a z0) := by
      simp [Function.comp_def, hs, p1]
    have ev : ∀ x : List K, (pt a z0 x).map (fun y => 1 / 10 * y) = pt a z0 (x.map fun y => 1 / 10 * y) := by
      intro x
      apply List.ext_getElem?
      intro j
      rw [List.getElem?_map, pt_get, pt_get, List.getElem?_map]
      cases x[j]? with
      | none => rfl
      | some y => simp [z0]; ring
    simp only [run, init, hl, em]
    rw [Compare.sortDesc_map (φ := p1 a z0) (fun _ _ => Iff.rfl), List.head?_map]
    cases (sortDesc (fun e : List K × K => e.2) (pos0.map fun p => (p, f (c.S.clip p)))).head? with
    | none => rfl
    | some b => simp [Except.map, mapState, mapPart, Function.comp_def, p1, conf]; intro x _; simpa using ev x
  | succ g ih =>
    simp only [run, ih]
    cases run c f dr pos0 g with
    | error e => rfl
    | ok s => exact gen_scale ha hS hc hf g (dr g) s

theorem evolute_scale {a : ℕ → K} (ha : ∀ j, 0 < a j) {c : Conf K} (hS : c.S.OK) (hc : Cont c.S) (m : Bool) {f f' : List K → K}
    (hf : ∀ x, f' (pt a z0 x) = f x) (dr : ℕ → ℕ → Draw K) (pos0 : List (List K)) :
    evolute (conf a z0 c) m f' dr (pos0.map (pt a z0)) = (evolute c m f dr pos0).map (mapResult a z0) := by
  have hs : ∀ x, f' ((conf a z0 c).S.clip (pt a z0 x)) = f (c.S.clip x) := fun x => by
    show f' ((space a z0 c.S).clip (pt a z0 x)) = _
    rw [clip_pt ha hS, hf]
  unfold evolute
  have e1 : (conf a z0 c).npar = c.npar := rfl
  have e2 : (conf a z0 c).ngen = c.ngen := rfl
  rw [List.length_map, e1, e2]
  by_cases h1 : pos0.length ≠ c.npar
  · simp only [if_pos h1]; rfl
  simp only [if_neg h1, run_scale ha hS hc (f' := fun x => sgn (!m) (f' x)) (f := fun x => sgn (!m) (f x)) (fun x => by rw [hf])]
  cases run c (fun x => sgn (!m) (f x)) dr pos0 c.ngen with
  | error e => rfl
  | ok s =>
    simp only [Except.map, mapState]
    by_cases h2 : c.ngen = 0
    · simp only [if_pos h2]
    simp only [if_neg h2]
    have em : ((s.swarm.map (mapPart a)).map fun p => (p.pos, sgn (!m) (f' ((conf a z0 c).S.clip p.pos))))
        = (s.swarm.map fun p => (p.pos, sgn (!m) (f (c.S.clip p.pos)))).map (p1 a z0) := by
      simp [Function.comp_def, mapPart, p1, hs]
    rw [em, Compare.sortDesc_map (φ := p1 a z0) (fun _ _ => Iff.rfl), ← List.map_take]
    simp [mapResult, p1, Function.comp_def]

end PSO

/-! ### BAT: shift -/

namespace BAT
open Neorl.BAT
open Neorl.Swarm (select)

def conf (a b : ℕ → K) (c : Conf K) : Conf K := { c with S := space a b c.S }

def mapState (a b : ℕ → K) (s : State K) : State K :=
  { s with pos := s.pos.map (pt a b), best := p2 a b s.best, log0 := s.log0.map (pt a b), log := s.log.map (pt a b) }

/-- The answer in the new units. -/
def mapResult (a b : ℕ → K) (r : Result K) : Result K :=
  { r with x := pt a b r.x, lastPop := r.lastPop.map (p1 a b), log0 := r.log0.map (pt a b), log := r.log.map (pt a b) }

theorem repair_shift {b : ℕ → K} {c : Conf K} (hS : c.S.OK) (hc : Cont c.S) (l : ℕ) (d : ℕ → K × ℕ) (v : List K) :
    repair (conf o1 b c) l d (pt o1 b v) = (repair c l d v).map (pt o1 b) := repair_pt o1_pos hS hc _ _ _

theorem stage1_shift {b : ℕ → K} {c : Conf K} (hS : c.S.OK) (hc : Cont c.S) (l : ℕ) (dr : ℕ → Draw K) (xb : List K) (i : ℕ) (pop : List (List K)) (row : List K) :
    stage1 (conf o1 b c) l dr (pt o1 b xb) i (pop.map (pt o1 b)) (pt o1 b row) = (stage1 c l dr xb i pop row).map (pt o1 b) := by
  unfold stage1
  have e1 : (conf o1 b c).levy = c.levy := rfl
  have e2 : (if (conf o1 b c).levy then (pop.map (pt o1 b)).set i ((pt o1 b row).mapIdx fun j x => x + (dr i).jump j) else pop.map (pt o1 b))
      = (if c.levy then pop.set i (row.mapIdx fun j x => x + (dr i).jump j) else pop).map (pt o1 b) := by
    rw [e1, pt_mapIdx (h := fun j x => x + (dr i).jump j) (fun j x _ => by simp [o1]; ring), ← List.map_set]
    split_ifs <;> rfl
  simp only [e2]
  generalize (if c.levy then pop.set i (row.mapIdx fun j x => x + (dr i).jump j) else pop) = q
  simp only [List.getElem?_map]
  cases q[(dr i).b0]? with
  | none => rfl
  | some u =>
    cases q[(dr i).b1]? with
    | none => rfl
    | some v =>
      simp only [Option.map_some]
      rw [← repair_shift hS hc]
      congr 1
      apply List.ext_getElem?
      intro j
      simp only [List.getElem?_zipWith, pt_get]
      cases xb[j]? <;> cases u[j]? <;> cases v[j]? <;> simp [o1, conf]
      ring

theorem stage2_shift {b : ℕ → K} {c : Conf K} (hS : c.S.OK) (hc : Cont c.S) (l : ℕ) (A r : K) (dr : ℕ → Draw K) (xb : List K) (i : ℕ) (pop : List (List K)) (row : List K) :
    stage2 (conf o1 b c) l A r dr (pt o1 b xb) i (pop.map (pt o1 b)) (pt o1 b row) = (stage2 c l A r dr xb i pop row).map (pt o1 b) := by
  unfold stage2
  dsimp only
  rw [pt_mapIdx (h := fun j x => x + A * (dr i).w2 j) (fun j x _ => by simp [o1]; ring), ← apply_ite (pt o1 b)]
  exact repair_shift hS hc _ _ _

theorem stage3_shift {b : ℕ → K} {c : Conf K} (hS : c.S.OK) (hc : Cont c.S) (l : ℕ) (A r : K) (dr : ℕ → Draw K) (xb : List K) (i : ℕ) (pop : List (List K)) (row : List K) :
    stage3 (conf o1 b c) l A r dr (pt o1 b xb) i (pop.map (pt o1 b)) (pt o1 b row) = (stage3 c l A r dr xb i pop row).map (pt o1 b) := by
  unfold stage3
  dsimp only
  rw [pt_mapIdx (h := fun j x => x + r * (dr i).w3 j) (fun j x _ => by simp [o1]; ring), ← apply_ite (pt o1 b)]
  exact repair_shift hS hc _ _ _

theorem accept_pt (a b : ℕ → K) (s : K × List K) (q : WithTop K × List K) : accept (p2 a b s) (p2 a b q) = p2 a b (accept s q) := by
  by_cases h : (s.1 : WithTop K) ≤ q.1 <;> simp [accept, p2, h]

theorem stage_shift {b : ℕ → K} {c : Conf K} (hS : c.S.OK) (hc : Cont c.S) {f f' : List K → K} (hf : ∀ x, f' (pt o1 b x) = f x)
    {mv mv' : List K → ℕ → List (List K) → List K → Py (List K)}
    (hm : ∀ xb i pop row, mv' (pt o1 b xb) i (pop.map (pt o1 b)) (pt o1 b row) = (mv xb i pop row).map (pt o1 b)) (pos : List (List K)) (best : WithTop K × List K) :
    stage (conf o1 b c) f' mv' (pos.map (pt o1 b)) (p2 o1 b best)
      = (stage c f mv pos best).map fun r => (r.1.map (pt o1 b), p2 o1 b r.2.1, p2 o1 b r.2.2) := by
  have hs : ∀ x, f' ((conf o1 b c).S.clip (pt o1 b x)) = f (c.S.clip x) := fun x => by
    show f' ((space o1 b c.S).clip (pt o1 b x)) = _
    rw [clip_pt o1_pos hS, hf]
  unfold stage
  have en : (conf o1 b c).nbats = c.nbats := rfl
  have eb : (p2 o1 b best).2 = pt o1 b best.2 := rfl
  rw [en, eb, sweep_pt (f := mv best.2) (fun i ps x => hm best.2 i ps x)]
  cases sweep (mv best.2) c.nbats pos with
  | error e => rfl
  | ok pos' =>
    simp only [Except.map, Swarm.select_pt (f' := fun x => f' ((conf o1 b c).S.clip x)) (f := fun x => f (c.S.clip x)) hs]
    cases select (fun p => f (c.S.clip p)) pos' with
    | error e => rfl
    | ok s => simp only [Except.map, accept_pt]

theorem gen_shift {b : ℕ → K} {c : Conf K} (hS : c.S.OK) (hc : Cont c.S) {f f' : List K → K} (hf : ∀ x, f' (pt o1 b x) = f x)
    (l : ℕ) (dr : ℕ → Draw K) (s : State K) : gen (conf o1 b c) f' l dr (mapState o1 b s) = (gen c f l dr s).map (mapState o1 b) := by
  have hl : ∀ l : List (List K), (l.map (pt o1 b)).map (conf o1 b c).S.clip = (l.map c.S.clip).map (pt o1 b) := fun l => by
    simp only [List.map_map]
    exact List.map_congr_left fun x _ => clip_pt o1_pos hS x
  unfold gen
  simp only [mapState]
  rw [stage_shift hS hc hf (mv := stage1 c l dr) (fun xb i pop row => stage1_shift hS hc l dr xb i pop row)]
  rcases stage c f (stage1 c l dr) s.pos s.best with e | ⟨q1, s1, b1⟩
  · rfl
  simp only [Except.map]
  rw [stage_shift hS hc hf (mv := stage2 c l s.A s.r dr) (fun xb i pop row => stage2_shift hS hc l s.A s.r dr xb i pop row)]
  rcases stage c f (stage2 c l s.A s.r dr) q1 b1 with e | ⟨q2, s2, b2⟩
  · rfl
  simp only [Except.map]
  rw [stage_shift hS hc hf (mv := stage3 c l s.A s.r dr) (fun xb i pop row => stage3_shift hS hc l s.A s.r dr xb i pop row)]
  rcases stage c f (stage3 c l s.A s.r dr) q2 b2 with e | ⟨q3, s3, b3⟩
  · rfl
  have ea : (conf o1 b c).alpha = c.alpha := rfl
  have er : (conf o1 b c).r0 = c.r0 := rfl
  have ep : (conf o1 b c).pulse = c.pulse := rfl
  simp only [Except.map, hl, ea, er, ep, mapState, p2, List.map_append]

theorem run_shift {b : ℕ → K} {c : Conf K} (hS : c.S.OK) (hc : Cont c.S) {f f' : List K → K} (hf : ∀ x, f' (pt o1 b x) = f x)
    (dr : ℕ → ℕ → Draw K) (pos0 : List (List K)) (g : ℕ) :
    run (conf o1 b c) f' dr (pos0.map (pt o1 b)) g = (run c f dr pos0 g).map (mapState o1 b) := by
  induction g with
  | zero =>
    have hs : ∀ x, f' ((conf o1 b c).S.clip (pt o1 b x)) = f (c.S.clip x) := fun x => by
      show f' ((space o1 b c.S).clip (pt o1 b x)) = _
      rw [clip_pt o1_pos hS, hf]
    have hl : (pos0.map (pt o1 b)).map (conf o1 b c).S.clip = (pos0.map c.S.clip).map (pt o1 b) := by
      simp only [List.map_map]
      exact List.map_congr_left fun x _ => clip_pt o1_pos hS x
    simp only [run, Swarm.select_pt (f' := fun x => f' ((conf o1 b c).S.clip x)) (f := fun x => f (c.S.clip x)) hs, hl]
    cases select (fun p => f (c.S.clip p)) pos0 <;> rfl
  | succ g ih =>
    simp only [run, ih]
    cases run c f dr pos0 g with
    | error e => rfl
    | ok s => exact gen_shift hS hc hf g (dr g) s

theorem evolute_shift {b : ℕ → K} {c : Conf K} (hS : c.S.OK) (hc : Cont c.S) (m : Bool) {f f' : List K → K}
    (hf : ∀ x, f' (pt o1 b x) = f x) (dr : ℕ → ℕ → Draw K) (pos0 : List (List K)) :
    evolute (conf o1 b c) m f' dr (pos0.map (pt o1 b)) = (evolute c m f dr pos0).map (mapResult o1 b) := by
  have hs : ∀ x, f' ((conf o1 b c).S.clip (pt o1 b x)) = f (c.S.clip x) := fun x => by
    show f' ((space o1 b c.S).clip (pt o1 b x)) = _
    rw [clip_pt o1_pos hS, hf]
  unfold evolute
  have e1 : (conf o1 b c).nbats = c.nbats := rfl
  have e2 : (conf o1 b c).ngen = c.ngen := rfl
  rw [List.length_map, e1, e2]
  by_cases h1 : pos0.length ≠ c.nbats
  · simp only [if_pos h1]; rfl
  simp only [if_neg h1, run_shift hS hc (f' := fun x => sgn m (f' x)) (f := fun x => sgn m (f x)) (fun x => by rw [hf])]
  cases run c (fun x => sgn m (f x)) dr pos0 c.ngen with
  | error e => rfl
  | ok s =>
    simp only [Except.map, mapState, p2]
    cases outScore m s.best.1 with
    | none => rfl
    | some y => simp [mapResult, p1, Function.comp_def, hs]

end BAT

/-! ### MFO: shift and change of scale -/

namespace MFO
open Neorl.MFO

/-- What is assumed of the sort beyond `SortOK`: it does not look at the points. -/
def SortFit (srt : List (List K × K) → List (List K × K)) : Prop :=
  ∀ (φ : List K → List K) l, srt (l.map fun p => (φ p.1, p.2)) = (srt l).map fun p => (φ p.1, p.2)

theorem sortFit_stable : SortFit (sortAsc fun a : List K × K => a.2) := by
  intro φ l
  exact Compare.sortAsc_map (K := K) (key := fun a : List K × K => a.2) (φ := fun p : List K × K => (φ p.1, p.2)) (fun a b => Iff.rfl) l

def conf (a b : ℕ → K) (c : Conf K) : Conf K := { c with S := space a b c.S }

def mapState (a b : ℕ → K) (s : State K) : State K :=
  { s with pos := s.pos.map (pt a b), best := p2 a b s.best, flames := s.flames.map (p1 a b), prev := s.prev.map (p1 a b), log := s.log.map (pt a b) }

/-- The answer in the new units. -/
def mapResult (a b : ℕ → K) (r : Result K) : Result K :=
  { r with x := pt a b r.x, lastPop := r.lastPop.map (p1 a b), log := r.log.map (pt a b) }

/-- All rows have one entry per variable. -/
def Full (n : ℕ) (s : State K) : Prop := (∀ p ∈ s.pos, p.length = n) ∧ (∀ p ∈ s.flames, p.1.length = n) ∧ ∀ p ∈ s.prev, p.1.length = n

theorem moveMoth_pt {a b : ℕ → K} (ha : ∀ j, 0 < a j) {c : Conf K} (hS : c.S.OK) (hc : Cont c.S) (g : ℕ) (r : K) {flames : List (List K × K)}
    (hfl : ∀ p ∈ flames, p.1.length = c.S.bounds.length) (dr : ℕ → Draw K) (i : ℕ) {row : List K} (hr : row.length = c.S.bounds.length) :
    moveMoth (conf a b c) g r (flames.map (p1 a b)) dr i (pt a b row) = (moveMoth c g r flames dr i row).map (pt a b) := by
  unfold moveMoth
  have e1 : flameIdx (conf a b c).nmoths (conf a b c).ngen g i = flameIdx c.nmoths c.ngen g i := rfl
  rw [e1, List.getElem?_map]
  cases hq : flames[flameIdx c.nmoths c.ngen g i]? with
  | none => rfl
  | some fl =>
    have hl := hfl fl (List.mem_of_getElem? hq)
    have e2 : ((pt a b row).mapIdx fun j x => |(p1 a b fl).1.getD j 0 - x| * (conf a b c).spiral ((r - 1) * (dr i).u j + 1) + (p1 a b fl).1.getD j 0)
        = pt a b (row.mapIdx fun j x => |fl.1.getD j 0 - x| * c.spiral ((r - 1) * (dr i).u j + 1) + fl.1.getD j 0) := by
      apply pt_mapIdx
      intro j x hx
      have hj : j < fl.1.length := by
        have := (List.getElem?_eq_some_iff.1 hx).1
        omega
      simp only [p1, pt_getD a b hj]
      rw [show a j * fl.1.getD j 0 + b j - (a j * x + b j) = a j * (fl.1.getD j 0 - x) by ring, abs_mul, abs_of_pos (ha j)]
      show a j * _ * c.spiral _ + _ = _
      ring
    simp only [Option.map_some, e2]
    exact repair_pt ha hS hc _ _ _

theorem gen_pt {a b : ℕ → K} (ha : ∀ j, 0 < a j) {c : Conf K} (hS : c.S.OK) (hc : Cont c.S) (ho : SortOK c.srt) (hs : SortFit c.srt) {f f' : List K → K}
    (hf : ∀ x, f' (pt a b x) = f x) (g : ℕ) (dr : ℕ → Draw K) {s : State K} (hF : Full c.S.bounds.length s) :
    gen (conf a b c) f' g dr (mapState a b s) = (gen c f g dr s).map (mapState a b) ∧ ∀ t, gen c f g dr s = .ok t → Full c.S.bounds.length t := by
  have hsc : ∀ x, f' ((conf a b c).S.clip (pt a b x)) = f (c.S.clip x) := fun x => by
    show f' ((space a b c.S).clip (pt a b x)) = _
    rw [clip_pt ha hS, hf]
  have hl : (s.pos.map (pt a b)).map (conf a b c).S.clip = (s.pos.map c.S.clip).map (pt a b) := by
    simp only [List.map_map]
    exact List.map_congr_left fun x _ => clip_pt ha hS x
  obtain ⟨h1, h2, h3⟩ := hF
  unfold gen
  have ec : ((s.pos.map (pt a b)).map fun p => (p, f' ((conf a b c).S.clip p))) = (s.pos.map fun p => (p, f (c.S.clip p))).map (p1 a b) := by
    simp [Function.comp_def, p1, hsc]
  have esrt : (conf a b c).srt = c.srt := rfl
  have enm : (conf a b c).nmoths = c.nmoths := rfl
  have e2 : (if g = 0 then c.srt ((s.pos.map fun p => (p, f (c.S.clip p))).map (p1 a b))
        else (c.srt (s.prev.map (p1 a b) ++ s.flames.map (p1 a b))).take c.nmoths)
      = (if g = 0 then c.srt (s.pos.map fun p => (p, f (c.S.clip p))) else (c.srt (s.prev ++ s.flames)).take c.nmoths).map (p1 a b) := by
    split_ifs
    · exact hs (pt a b) _
    · have e := hs (pt a b) (s.prev ++ s.flames)
      have e' : c.srt ((s.prev ++ s.flames).map (p1 a b)) = (c.srt (s.prev ++ s.flames)).map (p1 a b) := e
      rw [← List.map_append, e', List.map_take]
  have hfl : ∀ p ∈ (if g = 0 then c.srt (s.pos.map fun p => (p, f (c.S.clip p))) else (c.srt (s.prev ++ s.flames)).take c.nmoths), p.1.length = c.S.bounds.length := by
    intro p hp
    split_ifs at hp
    · have := (ho _).1.mem_iff.1 hp
      obtain ⟨q, hq, rfl⟩ := List.mem_map.1 this
      exact h1 q hq
    · have := (ho _).1.mem_iff.1 (List.mem_of_mem_take hp)
      rcases List.mem_append.1 this with h | h
      · exact h3 p h
      · exact h2 p h
  simp only [mapState, ec, esrt, enm, e2, hl, updAll_pt (f' := fun x => f' ((conf a b c).S.clip x)) (f := fun x => f (c.S.clip x)) hsc]
  generalize (if g = 0 then c.srt (s.pos.map fun p => (p, f (c.S.clip p))) else (c.srt (s.prev ++ s.flames)).take c.nmoths) = fl at hfl ⊢
  rw [List.getElem?_map]
  cases fl[0]? with
  | none => exact ⟨rfl, fun t h => by cases h⟩
  | some top =>
    have eR : coefR (conf a b c) g = coefR c g := rfl
    simp only [Option.map_some, eR]
    cases coefR c g with
    | error e => exact ⟨rfl, fun t h => by cases h⟩
    | ok r =>
      simp only
      rw [mapRows_pt (f := moveMoth c g r fl dr) (ψ := pt a b) (fun i x hx => moveMoth_pt ha hS hc g r hfl dr i (h1 x hx))]
      cases hmv : mapRows (moveMoth c g r fl dr) 0 s.pos with
      | error e => exact ⟨rfl, fun t h => by cases h⟩
      | ok pos =>
        refine ⟨by simp only [Except.map, mapState, List.map_append]; rfl, ?_⟩
        intro t ht
        cases ht
        refine ⟨?_, hfl, ?_⟩
        · refine mapRows_forall (Q := fun p => p.length = c.S.bounds.length) hmv h1 ?_
          intro i x y hx hy
          unfold moveMoth at hy
          split at hy
          · cases hy
          · rw [disc_cont hc] at hy
            cases hy
            exact Space.length_clip hS (by simpa using hx)
        · intro p hp
          obtain ⟨q, hq, rfl⟩ := List.mem_map.1 hp
          exact h1 q hq

theorem run_pt {a b : ℕ → K} (ha : ∀ j, 0 < a j) {c : Conf K} (hS : c.S.OK) (hc : Cont c.S) (ho : SortOK c.srt) (hs : SortFit c.srt) {f f' : List K → K}
    (hf : ∀ x, f' (pt a b x) = f x) (dr : ℕ → ℕ → Draw K) {pos0 : List (List K)} (h0 : ∀ p ∈ pos0, p.length = c.S.bounds.length) (g : ℕ) :
    run (conf a b c) f' dr (pos0.map (pt a b)) g = (run c f dr pos0 g).map (mapState a b) ∧ ∀ t, run c f dr pos0 g = .ok t → Full c.S.bounds.length t := by
  induction g with
  | zero => exact ⟨rfl, fun t ht => by cases ht; exact ⟨h0, by simp, by simp⟩⟩
  | succ g ih =>
    simp only [run, ih.1]
    cases hr : run c f dr pos0 g with
    | error e => exact ⟨rfl, fun t ht => by cases ht⟩
    | ok s => exact gen_pt ha hS hc ho hs hf g (dr g) (ih.2 s hr)

theorem evolute_pt {a b : ℕ → K} (ha : ∀ j, 0 < a j) {c : Conf K} (hS : c.S.OK) (hc : Cont c.S) (ho : SortOK c.srt) (hs : SortFit c.srt) (m : Bool)
    {f f' : List K → K} (hf : ∀ x, f' (pt a b x) = f x) (dr : ℕ → ℕ → Draw K) {pos0 : List (List K)} (h0 : ∀ p ∈ pos0, p.length = c.S.bounds.length) :
    evolute (conf a b c) m f' dr (pos0.map (pt a b)) = (evolute c m f dr pos0).map (mapResult a b) := by
  unfold evolute
  have e1 : (conf a b c).nmoths = c.nmoths := rfl
  have e2 : (conf a b c).ngen = c.ngen := rfl
  rw [List.length_map, e1, e2]
  by_cases h1 : pos0.length ≠ c.nmoths
  · simp only [if_pos h1]; rfl
  simp only [if_neg h1, (run_pt ha hS hc ho hs (f' := fun x => sgn m (f' x)) (f := fun x => sgn m (f x)) (fun x => by rw [hf]) dr h0 c.ngen).1]
  cases run c (fun x => sgn m (f x)) dr pos0 c.ngen with
  | error e => rfl
  | ok s =>
    simp only [Except.map, mapState, p2]
    cases outScore m s.best.1 with
    | none => rfl
    | some y => simp [mapResult, p1, Function.comp_def]

end MFO

/-! ### CS: shift and change of scale -/

namespace CS
open Neorl.CS

def conf (a b : ℕ → K) (c : Conf K) : Conf K := { c with S := space a b c.S }

def mapState (a b : ℕ → K) (s : State K) : State K :=
  { s with nests := s.nests.map (p1 a b), best := p2 a b s.best, log := s.log.map (pt a b) }

/-- The answer in the new units. -/
def mapResult (a b : ℕ → K) (r : Result K) : Result K :=
  { r with x := pt a b r.x, lastPop := r.lastPop.map (p1 a b), log := r.log.map (pt a b) }

/-- One row per cuckoo, one entry per variable. -/
def Full (n k : ℕ) (s : State K) : Prop := s.nests.length = k ∧ (∀ q ∈ s.nests, q.1.length = n) ∧ s.best.2.length = n

theorem accept_pt {a b : ℕ → K} {f f' : List K → K} (hf : ∀ x, f' (pt a b x) = f x) (qs : List (List K × K)) (ps : List (List K)) :
    accept f' (qs.map (p1 a b)) (ps.map (pt a b)) = (accept f qs ps).map (p1 a b) := by
  induction qs generalizing ps with
  | nil => cases ps <;> rfl
  | cons q qs ih =>
    cases ps with
    | nil => rfl
    | cons p ps =>
      simp only [List.map_cons, accept, ih, hf]
      by_cases h : f p ≤ q.2 <;> simp [p1, h]

theorem accept_full {f : List K → K} {n : ℕ} {qs : List (List K × K)} {ps : List (List K)} (hq : ∀ q ∈ qs, q.1.length = n) (hp : ∀ p ∈ ps, p.length = n) :
    (accept f qs ps).length = qs.length ∧ ∀ q ∈ accept f qs ps, q.1.length = n := by
  induction qs generalizing ps with
  | nil => cases ps <;> simp [accept]
  | cons q qs ih =>
    cases ps with
    | nil => exact ⟨rfl, hq⟩
    | cons p ps =>
      obtain ⟨i1, i2⟩ := ih (ps := ps) (fun q h => hq q (by simp [h])) (fun p h => hp p (by simp [h]))
      refine ⟨by simp [accept, i1], ?_⟩
      intro r hr
      rcases List.mem_cons.1 hr with rfl | hr
      · split_ifs
        · exact hp p (by simp)
        · exact hq q (by simp)
      · exact i2 r hr

theorem scan_pt (a b : ℕ → K) (qs : List (List K × K)) (s : K × List K) : scan (p2 a b s) (qs.map (p1 a b)) = p2 a b (scan s qs) := by
  induction qs generalizing s with
  | nil => rfl
  | cons q qs ih =>
    simp only [List.map_cons, scan]
    rw [← ih]
    congr 1
    by_cases h : q.2 < s.1 <;> simp [p1, p2, h]

theorem scan_full {n : ℕ} {qs : List (List K × K)} (hq : ∀ q ∈ qs, q.1.length = n) {s : K × List K} (hs : s.2.length = n) : (scan s qs).2.length = n := by
  induction qs generalizing s with
  | nil => exact hs
  | cons q qs ih =>
    simp only [scan]
    apply ih (fun q h => hq q (by simp [h]))
    split_ifs
    · exact hq q (by simp)
    · exact hs

theorem levyRow_pt {a b : ℕ → K} {c : Conf K} (hc : Cont c.S) (g : ℕ) (d : Draw K) {best : List K} (i : ℕ) {s : List K} (h : s.length = best.length) :
    levyRow (conf a b c) g d (pt a b best) i (pt a b s) = (levyRow c g d best i s).map (pt a b) := by
  unfold levyRow
  have e : (conf a b c).S = space a b c.S := rfl
  rw [e, disc_cont hc, disc_cont (cont_space hc), pt_mapIdx (h := fun j x => x + d.levy i j * (x - best.getD j 0))]
  · rfl
  · intro j x hx
    have hj : j < best.length := by rw [← h]; exact (List.getElem?_eq_some_iff.1 hx).1
    rw [pt_getD a b hj]
    ring

theorem discoverRow_pt {a b : ℕ → K} (ha : ∀ j, 0 < a j) {c : Conf K} (hS : c.S.OK) (hc : Cont c.S) (g : ℕ) (d : Draw K) {new : List (List K)}
    (hn : new.length = c.ncuckoos) (hl : ∀ p ∈ new, p.length = c.S.bounds.length) (i : ℕ) {s : List K} (hs : s ∈ new) :
    discoverRow (conf a b c) g d (new.map (pt a b)) i (pt a b s) = (discoverRow c g d new i s).map (pt a b) := by
  unfold discoverRow
  have hpos : 0 < c.ncuckoos := by rw [← hn]; exact List.length_pos_of_mem hs
  have row : ∀ (k j : ℕ), j < s.length → ((new.map (pt a b)).getD (k % c.ncuckoos) []).getD j 0 = a j * (new.getD (k % c.ncuckoos) []).getD j 0 + b j := by
    intro k j hj
    have hk : k % c.ncuckoos < new.length := by rw [hn]; exact Nat.mod_lt _ hpos
    have e1 : (new.map (pt a b)).getD (k % c.ncuckoos) [] = pt a b (new.getD (k % c.ncuckoos) []) := by
      simp only [List.getD_eq_getElem?_getD, List.getElem?_map, List.getElem?_eq_getElem hk]
      rfl
    rw [e1]
    apply pt_getD
    have e2 : new.getD (k % c.ncuckoos) [] = new[k % c.ncuckoos] := by
      rw [List.getD_eq_getElem?_getD, List.getElem?_eq_getElem hk]; rfl
    rw [e2, hl _ (List.getElem_mem hk), ← hl s hs]
    exact hj
  have e : ((pt a b s).mapIdx fun j x => x + d.scale * (((new.map (pt a b)).getD (d.perm1 i % (conf a b c).ncuckoos) []).getD j 0
        - ((new.map (pt a b)).getD (d.perm2 i % (conf a b c).ncuckoos) []).getD j 0) * (if d.u i j > (conf a b c).pa then 1 else 0))
      = pt a b (s.mapIdx fun j x => x + d.scale * ((new.getD (d.perm1 i % c.ncuckoos) []).getD j 0 - (new.getD (d.perm2 i % c.ncuckoos) []).getD j 0)
        * (if d.u i j > c.pa then 1 else 0)) := by
    apply pt_mapIdx
    intro j x hx
    have hj := (List.getElem?_eq_some_iff.1 hx).1
    have e1 : (conf a b c).ncuckoos = c.ncuckoos := rfl
    have e2 : (conf a b c).pa = c.pa := rfl
    rw [e1, e2, row _ j hj, row _ j hj]
    ring
  rw [e]
  exact repair_pt ha hS hc _ _ _

theorem gen_pt {a b : ℕ → K} (ha : ∀ j, 0 < a j) {c : Conf K} (hS : c.S.OK) (hc : Cont c.S) {f f' : List K → K} (hf : ∀ x, f' (pt a b x) = f x)
    (g : ℕ) (d : Draw K) {s : State K} (hF : Full c.S.bounds.length c.ncuckoos s) :
    gen (conf a b c) f' g d (mapState a b s) = (gen c f g d s).map (mapState a b) ∧ ∀ t, gen c f g d s = .ok t → Full c.S.bounds.length c.ncuckoos t := by
  have hsc : ∀ x, f' ((conf a b c).S.clip (pt a b x)) = f (c.S.clip x) := fun x => by
    show f' ((space a b c.S).clip (pt a b x)) = _
    rw [clip_pt ha hS, hf]
  have hl : ∀ l : List (List K), (l.map (pt a b)).map (conf a b c).S.clip = (l.map c.S.clip).map (pt a b) := fun l => by
    simp only [List.map_map]
    exact List.map_congr_left fun x _ => clip_pt ha hS x
  obtain ⟨h1, h2, h3⟩ := hF
  unfold gen
  have en : ((s.nests.map (p1 a b)).map fun q => q.1) = (s.nests.map fun q => q.1).map (pt a b) := by simp [Function.comp_def, p1]
  have hrow : ∀ x ∈ s.nests.map (fun q => q.1), x.length = c.S.bounds.length := by
    intro x hx
    obtain ⟨q, hq, rfl⟩ := List.mem_map.1 hx
    exact h2 q hq
  simp only [mapState, en]
  have eb : (p2 a b s.best).2 = pt a b s.best.2 := rfl
  rw [eb, mapRows_pt (f := levyRow c g d s.best.2) (ψ := pt a b) (fun i x hx => levyRow_pt hc g d i (by rw [hrow x hx, h3]))]
  cases hm1 : mapRows (levyRow c g d s.best.2) 0 (s.nests.map fun q => q.1) with
  | error e => exact ⟨rfl, fun t ht => by cases ht⟩
  | ok new1 =>
    have hn1 : new1.length = c.ncuckoos := by
      rw [← h1]
      simpa using (mapRows_ok hm1).1
    have hl1 : ∀ p ∈ new1, p.length = c.S.bounds.length := by
      refine mapRows_forall (Q := fun p => p.length = c.S.bounds.length) hm1 hrow ?_
      intro i x y hx hy
      unfold levyRow at hy
      rw [disc_cont hc] at hy
      cases hy
      simpa using hx
    simp only [Except.map, accept_pt (f' := fun x => f' ((conf a b c).S.clip x)) (f := fun x => f (c.S.clip x)) hsc]
    rw [mapRows_pt (f := discoverRow c g d new1) (ψ := pt a b) (fun i x hx => discoverRow_pt ha hS hc g d hn1 hl1 i hx)]
    cases hm2 : mapRows (discoverRow c g d new1) 0 new1 with
    | error e => exact ⟨rfl, fun t ht => by cases ht⟩
    | ok new2 =>
      have hl2 : ∀ p ∈ new2, p.length = c.S.bounds.length := by
        refine mapRows_forall (Q := fun p => p.length = c.S.bounds.length) hm2 hl1 ?_
        intro i x y hx hy
        unfold discoverRow at hy
        rw [disc_cont hc] at hy
        cases hy
        exact Space.length_clip hS (by simpa using hx)
      obtain ⟨a1, a2⟩ := accept_full (f := fun x => f (c.S.clip x)) h2 hl1
      obtain ⟨a3, a4⟩ := accept_full (f := fun x => f (c.S.clip x)) a2 hl2
      simp only [Except.map, accept_pt (f' := fun x => f' ((conf a b c).S.clip x)) (f := fun x => f (c.S.clip x)) hsc, scan_pt, hl]
      generalize hN : accept (fun x => f (c.S.clip x)) (accept (fun x => f (c.S.clip x)) s.nests new1) new2 = N at a3 a4 ⊢
      cases N with
      | nil => exact ⟨rfl, fun t ht => by cases ht⟩
      | cons q qs =>
        have es : scan ((p1 a b q).2, (p1 a b q).1) (qs.map (p1 a b)) = p2 a b (scan (q.2, q.1) qs) := scan_pt a b qs (q.2, q.1)
        refine ⟨?_, ?_⟩
        · simp only [List.map_cons, es, mapState, List.map_append]
          rfl
        · intro t ht
          cases ht
          exact ⟨by rw [a3, a1, h1], a4, scan_full a4 h3⟩

theorem run_pt {a b : ℕ → K} (ha : ∀ j, 0 < a j) {c : Conf K} (hS : c.S.OK) (hc : Cont c.S) {f f' : List K → K} (hf : ∀ x, f' (pt a b x) = f x)
    (dr : ℕ → Draw K) {pos0 : List (List K)} (hn : pos0.length = c.ncuckoos) (h0 : ∀ p ∈ pos0, p.length = c.S.bounds.length) (g : ℕ) :
    run (conf a b c) f' dr (pos0.map (pt a b)) g = (run c f dr pos0 g).map (mapState a b)
      ∧ ∀ t, run c f dr pos0 g = .ok t → Full c.S.bounds.length c.ncuckoos t := by
  induction g with
  | zero =>
    have hsc : ∀ x, f' ((conf a b c).S.clip (pt a b x)) = f (c.S.clip x) := fun x => by
      show f' ((space a b c.S).clip (pt a b x)) = _
      rw [clip_pt ha hS, hf]
    have hl : (pos0.map (pt a b)).map (conf a b c).S.clip = (pos0.map c.S.clip).map (pt a b) := by
      simp only [List.map_map]
      exact List.map_congr_left fun x _ => clip_pt ha hS x
    have ec : ((pos0.map (pt a b)).map fun p => (p, f' ((conf a b c).S.clip p))) = (pos0.map fun p => (p, f (c.S.clip p))).map (p1 a b) := by
      simp [Function.comp_def, p1, hsc]
    have hlen : (pos0.map fun p => (p, f (c.S.clip p))).length = c.ncuckoos := by simpa using hn
    have hrow : ∀ q ∈ pos0.map (fun p => (p, f (c.S.clip p))), q.1.length = c.S.bounds.length := by
      intro q hq
      obtain ⟨p, hp, rfl⟩ := List.mem_map.1 hq
      exact h0 p hp
    simp only [run, hl, ec]
    generalize (pos0.map fun p => (p, f (c.S.clip p))) = N at hlen hrow ⊢
    cases N with
    | nil => exact ⟨rfl, fun t ht => by cases ht⟩
    | cons q qs =>
      have es : scan ((p1 a b q).2, (p1 a b q).1) (qs.map (p1 a b)) = p2 a b (scan (q.2, q.1) qs) := scan_pt a b qs (q.2, q.1)
      refine ⟨by simp only [List.map_cons, es, Except.map, mapState], ?_⟩
      intro t ht
      cases ht
      exact ⟨hlen, hrow, scan_full (fun r hr => hrow r (by simp [hr])) (hrow q (by simp))⟩
  | succ g ih =>
    simp only [run, ih.1]
    cases hr : run c f dr pos0 g with
    | error e => exact ⟨rfl, fun t ht => by cases ht⟩
    | ok s => exact gen_pt ha hS hc hf g (dr g) (ih.2 s hr)

theorem evolute_pt {a b : ℕ → K} (ha : ∀ j, 0 < a j) {c : Conf K} (hS : c.S.OK) (hc : Cont c.S) (m : Bool)
    {f f' : List K → K} (hf : ∀ x, f' (pt a b x) = f x) (dr : ℕ → Draw K) {pos0 : List (List K)} (h0 : ∀ p ∈ pos0, p.length = c.S.bounds.length) :
    evolute (conf a b c) m f' dr (pos0.map (pt a b)) = (evolute c m f dr pos0).map (mapResult a b) := by
  unfold evolute
  have e1 : (conf a b c).ncuckoos = c.ncuckoos := rfl
  have e2 : (conf a b c).ngen = c.ngen := rfl
  rw [List.length_map, e1, e2]
  by_cases h1 : pos0.length ≠ c.ncuckoos
  · simp only [if_pos h1]; rfl
  simp only [if_neg h1, (run_pt ha hS hc (f' := fun x => sgn m (f' x)) (f := fun x => sgn m (f x)) (fun x => by rw [hf]) dr (not_not.1 h1) h0 c.ngen).1]
  cases run c (fun x => sgn m (f x)) dr pos0 c.ngen with
  | error e => rfl
  | ok s =>
    simp only [Except.map, mapState]
    by_cases h2 : c.ngen = 0
    · simp only [if_pos h2]
    simp only [if_neg h2]
    simp [mapResult, p1, p2, Function.comp_def]

end CS

end
end Neorl.Rescale

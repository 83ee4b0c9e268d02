import Verif.Units
import Verif.Swarm

/-!
# Units of the variables

Lemmas behind C138: the optimizers on a continuous search space under a change of units `x_j ↦ a_j * x_j + b_j` (`a_j > 0`) of every variable.
No new code is modelled here.
-/

set_option linter.unusedSectionVars false
set_option linter.unusedVariables false
set_option linter.unusedSimpArgs false

namespace Neorl.Rescale

open Neorl.Units (tr tr_length tr_nil tr_cons tr_get tr_getD aff aff_mono)

section
variable {K : Type} [Field K] [LinearOrder K] [IsStrictOrderedRing K] [FloorRing K]

/-- A point written in the new units: entry `j` becomes `a j * x + b j`. -/
def pt (a b : ℕ → K) (v : List K) : List K := tr (aff a b) v

/-- No shift: a change of scale only. -/
def z0 : ℕ → K := fun _ => 0

theorem z0_app (j : ℕ) : (z0 j : K) = 0 := rfl

/-- The search space written in the new units. -/
def space (a b : ℕ → K) (S : Space K) : Space K :=
  { S with bounds := S.bounds.mapIdx fun j p => (a j * p.1 + b j, a j * p.2 + b j) }

/-- Every variable is continuous. -/
def Cont (S : Space K) : Prop := ∀ t ∈ S.types, t = VType.float

/-- A pair whose first entry is a point. -/
def p1 {Y : Type} (a b : ℕ → K) (p : List K × Y) : List K × Y := (pt a b p.1, p.2)

/-- A pair whose second entry is a point. -/
def p2 {Y : Type} (a b : ℕ → K) (p : Y × List K) : Y × List K := (p.1, pt a b p.2)

@[simp] theorem pt_length (a b : ℕ → K) (v : List K) : (pt a b v).length = v.length := tr_length _ _

@[simp] theorem pt_nil (a b : ℕ → K) : pt a b [] = [] := rfl

theorem pt_get (a b : ℕ → K) (v : List K) (j : ℕ) : (pt a b v)[j]? = (v[j]?).map fun x => a j * x + b j := tr_get _ _ _

theorem pt_getD (a b : ℕ → K) {v : List K} {j : ℕ} (h : j < v.length) : (pt a b v).getD j 0 = a j * v.getD j 0 + b j := tr_getD _ h

/-- Without a shift, missing entries (read as zero) cause no trouble. -/
theorem pt_getD0 (a : ℕ → K) (v : List K) (j : ℕ) : (pt a z0 v).getD j 0 = a j * v.getD j 0 := by
  by_cases h : j < v.length
  · rw [pt_getD a _ h, z0_app, add_zero]
  · have h' : v[j]? = none := List.getElem?_eq_none (not_lt.1 h)
    rw [List.getD_eq_getElem?_getD, List.getD_eq_getElem?_getD, pt_get, h']
    simp

theorem pt_mapIdx {a b : ℕ → K} {v : List K} {g h : ℕ → K → K} (e : ∀ j x, v[j]? = some x → g j (a j * x + b j) = a j * h j x + b j) :
    (pt a b v).mapIdx g = pt a b (v.mapIdx h) := by
  apply List.ext_getElem?
  intro j
  rw [List.getElem?_mapIdx, pt_get, pt_get, List.getElem?_mapIdx]
  cases hv : v[j]? with
  | none => rfl
  | some x => simp [e j x hv]

theorem pt_zipWith {a b : ℕ → K} {v w : List K} {g : K → K → K} (e : ∀ j x y, v[j]? = some x → w[j]? = some y → g (a j * x + b j) (a j * y + b j) = a j * g x y + b j) :
    List.zipWith g (pt a b v) (pt a b w) = pt a b (List.zipWith g v w) := by
  apply List.ext_getElem?
  intro j
  rw [List.getElem?_zipWith, pt_get, pt_get, pt_get, List.getElem?_zipWith]
  cases hv : v[j]? with
  | none => rfl
  | some x =>
    cases hw : w[j]? with
    | none => rfl
    | some y => simp [e j x y hv hw]

theorem pt_replicate (a : ℕ → K) (n : ℕ) : pt a z0 (List.replicate n 0) = List.replicate n 0 := by
  apply List.ext_getElem?
  intro j
  rw [pt_get]
  by_cases h : j < n
  · simp [h, z0]
  · simp [h, z0]

theorem clip_pt {a b : ℕ → K} (ha : ∀ j, 0 < a j) {S : Space K} (hS : S.OK) (v : List K) :
    (space a b S).clip (pt a b v) = pt a b (S.clip v) := by
  have hB := hS.ordered
  have hB' : BoundsOK (space a b S).bounds := by
    intro q hq
    simp only [space] at hq
    obtain ⟨j, hj, rfl⟩ := List.mem_mapIdx.1 hq
    have := hB _ (List.getElem_mem hj)
    have := (ha j).le
    simp only
    nlinarith
  unfold Space.clip
  rw [ensureBounds_eq_zipWith hB, ensureBounds_eq_zipWith hB']
  apply List.ext_getElem?
  intro j
  rw [List.getElem?_zipWith, pt_get, pt_get, List.getElem?_zipWith]
  simp only [space, List.getElem?_mapIdx]
  cases hb : S.bounds[j]? with
  | none => rfl
  | some q =>
    cases hv : v[j]? with
    | none => rfl
    | some x =>
      simp only [Option.map_some, clamp]
      have hm : Monotone fun z : K => a j * z + b j := fun y z h => by
        have := mul_le_mul_of_nonneg_left h (ha j).le
        simp only; linarith
      rw [← hm.map_min, ← hm.map_max]

theorem disc_cont {S : Space K} (h : Cont S) (al : K) (d : ℕ → K × ℕ) (v : List K) : S.disc al d v = .ok v := by
  have key : ∀ n, ensureDiscrete S.expf S.types S.bounds al S.method d n v = .ok v := by
    intro n
    induction n with
    | zero => rfl
    | succ n ih =>
      simp only [ensureDiscrete, ih, bind, Except.bind, discStep]
      cases ht : S.types[n]? with
      | none => rfl
      | some t => rw [h t (List.mem_of_getElem? ht)]; rfl
  exact key _

theorem cont_space {a b : ℕ → K} {S : Space K} (h : Cont S) : Cont (space a b S) := h

theorem repair_pt {a b : ℕ → K} (ha : ∀ j, 0 < a j) {S : Space K} (hS : S.OK) (hc : Cont S) (al : K) (d : ℕ → K × ℕ) (v : List K) :
    (space a b S).disc al d ((space a b S).clip (pt a b v)) = (S.disc al d (S.clip v)).map (pt a b) := by
  rw [disc_cont hc, disc_cont (cont_space hc), clip_pt ha hS]
  rfl

theorem length_clip' {S : Space K} (hS : S.OK) {v : List K} (h : v.length = S.bounds.length) : (S.clip v).length = S.bounds.length :=
  Space.length_clip hS h

/-! ### Containers -/

theorem upd_pt {a b : ℕ → K} (s : WithTop K × List K) (v : K) (x : List K) : upd (p2 a b s) v (pt a b x) = p2 a b (upd s v x) := by
  by_cases h : (v : WithTop K) < s.1 <;> simp [upd, p2, h]

theorem updAll_pt {a b : ℕ → K} {f f' : List K → K} (hf : ∀ x, f' (pt a b x) = f x) (xs : List (List K)) (s : WithTop K × List K) :
    updAll f' (p2 a b s) (xs.map (pt a b)) = p2 a b (updAll f s xs) := by
  induction xs generalizing s with
  | nil => rfl
  | cons x xs ih => simp only [List.map_cons, updAll, hf, upd_pt, ih]

theorem mapRows_pt {X Y : Type} {φ : X → X} {ψ : Y → Y} {f g : ℕ → X → Py Y} {xs : List X} (h : ∀ i, ∀ x ∈ xs, g i (φ x) = (f i x).map ψ) (i : ℕ) :
    mapRows g i (xs.map φ) = (mapRows f i xs).map (List.map ψ) := by
  induction xs generalizing i with
  | nil => rfl
  | cons x xs ih =>
    simp only [List.map_cons, mapRows, h i x (by simp), ih (fun i y hy => h i y (by simp [hy])) (i + 1)]
    cases f i x with
    | error e => rfl
    | ok y =>
      simp only [Except.map]
      cases mapRows f (i + 1) xs <;> rfl

theorem sweep_pt {X : Type} {φ : X → X} {f g : ℕ → List X → X → Py X} (h : ∀ i ps x, g i (ps.map φ) (φ x) = (f i ps x).map φ) (n : ℕ) (ps : List X) :
    Neorl.sweep g n (ps.map φ) = (Neorl.sweep f n ps).map (List.map φ) := by
  induction n with
  | zero => rfl
  | succ n ih =>
    simp only [Neorl.sweep, ih]
    cases Neorl.sweep f n ps with
    | error e => rfl
    | ok p =>
      simp only [Except.map, List.getElem?_map]
      cases p[n]? with
      | none => rfl
      | some row =>
        simp only [Option.map_some, h]
        cases f n p row with
        | error e => rfl
        | ok r => simp [Except.map, List.map_set]

end

/-! ### Differential evolution -/

section
variable {K : Type} [Field K] [LinearOrder K] [IsStrictOrderedRing K] [FloorRing K]

namespace DE
open Neorl.DE

def conf (a b : ℕ → K) (c : Conf K) : Conf K := { c with S := space a b c.S }

def mapState (a b : ℕ → K) (s : State K) : State K :=
  { s with pop := s.pop.map (pt a b), sel := s.sel.map (p1 a b), last := s.last.map (p1 a b), log := s.log.map (pt a b) }

/-- The answer in the new units: points rewritten, fitness values as they were. -/
def mapResult (a b : ℕ → K) (r : Result K) : Result K :=
  { r with x := pt a b r.x, lastPop := r.lastPop.map (p1 a b), log := r.log.map (pt a b) }

theorem donor_pt (a b : ℕ → K) (F : K) (x y z : List K) : donor F (pt a b x) (pt a b y) (pt a b z) = pt a b (donor F x y z) := by
  apply List.ext_getElem?
  intro j
  simp only [donor, List.getElem?_zipWith, pt_get]
  cases x[j]? <;> cases y[j]? <;> cases z[j]? <;> simp
  ring

theorem recombine_pt (CR : K) : ∀ (a b cr : ℕ → K) (d x : List K), recombine CR cr (pt a b d) (pt a b x) = pt a b (recombine CR cr d x)
  | a, b, cr, d :: ds, x :: xs => by
    have := recombine_pt CR (fun j => a (j + 1)) (fun j => b (j + 1)) (fun k => cr (k + 1)) ds xs
    simp only [pt] at this ⊢
    have e : (fun i => aff a b (i + 1)) = aff (fun j => a (j + 1)) (fun j => b (j + 1)) := rfl
    simp only [tr_cons, recombine, e, this]
    split_ifs <;> rfl
  | a, b, cr, [], x => by cases x <;> rfl
  | a, b, cr, d :: ds, [] => by simp [pt, tr_cons, recombine]

theorem getIdx_pt (a b : ℕ → K) (l : List (List K)) (i : ℕ) : getIdx (l.map (pt a b)) i = (getIdx l i).map (pt a b) := by
  simp only [getIdx, List.getElem?_map]
  cases l[i]? <;> rfl

theorem target_pt {a b : ℕ → K} (ha : ∀ j, 0 < a j) {c : Conf K} (hS : c.S.OK) (hc : Cont c.S) (j : ℕ) (dr : Draw K) (pop : List (List K)) :
    target (conf a b c) j dr (pop.map (pt a b)) = (target c j dr pop).map fun r => (r.1.map (pt a b), pt a b r.2) := by
  unfold target
  simp only [getIdx_pt]
  cases getIdx pop dr.i1 with
  | error e => rfl
  | ok x1 =>
    cases getIdx pop dr.i2 with
    | error e => rfl
    | ok x2 =>
      cases getIdx pop dr.i3 with
      | error e => rfl
      | ok x3 =>
        cases getIdx pop j with
        | error e => rfl
        | ok xt =>
          simp only [Except.map, conf, disc_cont hc, disc_cont (cont_space hc), donor_pt, clip_pt ha hS, recombine_pt, List.map_set]

theorem sweep_pt {a b : ℕ → K} (ha : ∀ j, 0 < a j) {c : Conf K} (hS : c.S.OK) (hc : Cont c.S) (dr : ℕ → Draw K) (pop : List (List K)) (n : ℕ) :
    Neorl.DE.sweep (conf a b c) dr n (pop.map (pt a b)) = (Neorl.DE.sweep c dr n pop).map fun r => (r.1.map (pt a b), r.2.map (pt a b)) := by
  induction n with
  | zero => rfl
  | succ n ih =>
    simp only [Neorl.DE.sweep, ih]
    rcases Neorl.DE.sweep c dr n pop with e | ⟨p, ts⟩
    · rfl
    · simp only [Except.map, target_pt ha hS hc]
      rcases target c n (dr n) p with e | ⟨p', t⟩
      · rfl
      · simp [Except.map]

theorem select_pt {a b : ℕ → K} {f f' : List K → K} (hf : ∀ x, f' (pt a b x) = f x) (xs ts : List (List K)) :
    select f' (xs.map (pt a b)) (ts.map (pt a b)) = (select f xs ts).map (p1 a b) := by
  induction xs generalizing ts with
  | nil => cases ts <;> rfl
  | cons x xs ih =>
    cases ts with
    | nil => rfl
    | cons t ts =>
      simp only [List.map_cons, select, ih, hf]
      split_ifs <;> rfl

theorem bestOf_pt (a b : ℕ → K) (l : List (List K × K)) : bestOf (l.map (p1 a b)) = (bestOf l).map (p1 a b) := by
  induction l with
  | nil => rfl
  | cons p l ih =>
    simp only [List.map_cons, bestOf, ih]
    cases bestOf l with
    | none => rfl
    | some q =>
      by_cases h : p.2 ≥ q.2
      · have h' : (p1 a b p).2 ≥ (p1 a b q).2 := h
        simp only [Option.map_some, if_pos h, if_pos h']
      · have h' : ¬ (p1 a b p).2 ≥ (p1 a b q).2 := h
        simp only [Option.map_some, if_neg h, if_neg h']

theorem mix_pt (a b : ℕ → K) (rl : List (ℕ × List K)) (pop : List (List K)) :
    mix (rl.map (p2 a b)) (pop.map (pt a b)) = (mix rl pop).map (pt a b) := by
  induction rl generalizing pop with
  | nil => rfl
  | cons r rl ih =>
    obtain ⟨i, x⟩ := r
    simp only [List.map_cons, p2, mix, ← List.map_set]
    exact ih _

theorem gen_pt {a b : ℕ → K} (ha : ∀ j, 0 < a j) {c : Conf K} (hS : c.S.OK) (hc : Cont c.S) {f f' : List K → K} (hf : ∀ x, f' (pt a b x) = f x)
    (dr : ℕ → Draw K) (rl : List (ℕ × List K)) (s : State K) :
    gen (conf a b c) f' dr (rl.map (p2 a b)) (mapState a b s) = (gen c f dr rl s).map (mapState a b) := by
  unfold gen
  have hn : (conf a b c).npop = c.npop := rfl
  simp only [mapState, hn, sweep_pt ha hS hc]
  rcases Neorl.DE.sweep c dr c.npop s.pop with e | ⟨xs, ts⟩
  · rfl
  · simp only [Except.map]
    have hs : ∀ x, f' ((conf a b c).S.clip (pt a b x)) = f (c.S.clip x) := fun x => by
      show f' ((space a b c.S).clip (pt a b x)) = _
      rw [clip_pt ha hS, hf]
    have hl : ∀ l : List (List K), (l.map (pt a b)).map (conf a b c).S.clip = (l.map c.S.clip).map (pt a b) := fun l => by
      simp only [List.map_map]
      exact List.map_congr_left fun x _ => clip_pt ha hS x
    rw [select_pt (f' := fun x => f' ((conf a b c).S.clip x)) (f := fun x => f (c.S.clip x)) hs, bestOf_pt]
    cases bestOf (select (fun x => f (c.S.clip x)) xs ts) with
    | none => rfl
    | some q =>
      have e : (List.map (p1 a b) (select (fun x => f (c.S.clip x)) xs ts)).map Prod.fst
          = ((select (fun x => f (c.S.clip x)) xs ts).map Prod.fst).map (pt a b) := by
        rw [List.map_map, List.map_map]; rfl
      simp only [Option.map_some, hl, List.map_append, e, mix_pt, mapState]
      rfl

theorem run_pt {a b : ℕ → K} (ha : ∀ j, 0 < a j) {c : Conf K} (hS : c.S.OK) (hc : Cont c.S) {f f' : List K → K} (hf : ∀ x, f' (pt a b x) = f x)
    (dr : ℕ → ℕ → Draw K) (rl : ℕ → List (ℕ × List K)) (pop0 : List (List K)) (g : ℕ) :
    run (conf a b c) f' dr (fun g => (rl g).map (p2 a b)) (pop0.map (pt a b)) g = (run c f dr rl pop0 g).map (mapState a b) := by
  induction g with
  | zero => rfl
  | succ g ih =>
    simp only [run, ih]
    cases run c f dr rl pop0 g with
    | error e => rfl
    | ok s => exact gen_pt ha hS hc hf (dr g) (rl g) s

theorem zip_p1 {Y : Type} (a b : ℕ → K) (l : List (List K)) (ys : List Y) : List.zip (l.map (pt a b)) ys = (List.zip l ys).map (p1 a b) := by
  rw [List.zip_map_left]
  rfl

theorem evolute_pt {a b : ℕ → K} (ha : ∀ j, 0 < a j) {c : Conf K} (hS : c.S.OK) (hc : Cont c.S) (m : Bool) {f f' : List K → K}
    (hf : ∀ x, f' (pt a b x) = f x) (dr : ℕ → ℕ → Draw K) (rl : ℕ → List (ℕ × List K)) (pop0 : List (List K)) :
    evolute (conf a b c) m f' dr (fun g => (rl g).map (p2 a b)) (pop0.map (pt a b)) = (evolute c m f dr rl pop0).map (mapResult a b) := by
  unfold evolute
  have h1 : ∀ x, (if m then (fun x => -f' x) else f') (pt a b x) = (if m then (fun x => -f x) else f) x := fun x => by
    cases m <;> simp [hf]
  have hn : (conf a b c).ngen = c.ngen := rfl
  simp only [hn, run_pt ha hS hc h1]
  cases run c (if m then (fun x => -f x) else f) dr rl pop0 c.ngen with
  | error e => rfl
  | ok s =>
    simp only [Except.map, mapState]
    cases hl : s.last with
    | none => rfl
    | some q =>
      obtain ⟨x, y⟩ := q
      cases m <;> simp [p1, mapResult, zip_p1, Function.comp_def]

end DE

/-! ### GWO: change of scale -/

namespace GWO
open Neorl.GWO

def conf (a b : ℕ → K) (c : Conf K) : Conf K := { c with S := space a b c.S }

def mapLead (a b : ℕ → K) (L : Lead K) : Lead K := { alpha := p2 a b L.alpha, beta := p2 a b L.beta, delta := p2 a b L.delta }

def mapState (a b : ℕ → K) (s : State K) : State K :=
  { s with pos := s.pos.map (pt a b), lead := mapLead a b s.lead, best := p2 a b s.best, last := s.last.map (p1 a b), log := s.log.map (pt a b) }

/-- The answer in the new units. -/
def mapResult (a b : ℕ → K) (r : Result K) : Result K :=
  { r with x := pt a b r.x, lastPop := r.lastPop.map (p1 a b), log := r.log.map (pt a b) }

theorem lead_pt (a b : ℕ → K) (v : K) (p : List K) (L : Lead K) : lead v (pt a b p) (mapLead a b L) = mapLead a b (lead v p L) := by
  have s1 : ∀ L : Lead K, step1 v (pt a b p) (mapLead a b L) = mapLead a b (step1 v p L) := by
    intro L
    by_cases h : (v : WithTop K) < L.alpha.1 <;> simp [step1, mapLead, p2, h]
  have s2 : ∀ L : Lead K, step2 v (pt a b p) (mapLead a b L) = mapLead a b (step2 v p L) := by
    intro L
    by_cases h : (v : WithTop K) > L.alpha.1 ∧ (v : WithTop K) < L.beta.1
    · have h' : (v : WithTop K) > (mapLead a b L).alpha.1 ∧ (v : WithTop K) < (mapLead a b L).beta.1 := h
      simp only [step2, if_pos h, if_pos h']; rfl
    · have h' : ¬ ((v : WithTop K) > (mapLead a b L).alpha.1 ∧ (v : WithTop K) < (mapLead a b L).beta.1) := h
      simp only [step2, if_neg h, if_neg h']
  have s3 : ∀ L : Lead K, step3 v (pt a b p) (mapLead a b L) = mapLead a b (step3 v p L) := by
    intro L
    by_cases h : (v : WithTop K) > L.alpha.1 ∧ (v : WithTop K) > L.beta.1 ∧ (v : WithTop K) < L.delta.1
    · have h' : (v : WithTop K) > (mapLead a b L).alpha.1 ∧ (v : WithTop K) > (mapLead a b L).beta.1 ∧ (v : WithTop K) < (mapLead a b L).delta.1 := h
      simp only [step3, if_pos h, if_pos h']; rfl
    · have h' : ¬ ((v : WithTop K) > (mapLead a b L).alpha.1 ∧ (v : WithTop K) > (mapLead a b L).beta.1 ∧ (v : WithTop K) < (mapLead a b L).delta.1) := h
      simp only [step3, if_neg h, if_neg h']
  simp only [lead, s1, s2, s3]

theorem leadAll_pt {a b : ℕ → K} {f f' : List K → K} (hf : ∀ x, f' (pt a b x) = f x) (ps : List (List K)) (L : Lead K) :
    leadAll f' (mapLead a b L) (ps.map (pt a b)) = mapLead a b (leadAll f L ps) := by
  induction ps generalizing L with
  | nil => rfl
  | cons p ps ih => simp only [List.map_cons, leadAll, hf, lead_pt, ih]

theorem pull_scale {a : K} (ha : 0 < a) (A r1 r2 l x : K) : pull A r1 r2 (a * l) (a * x) = a * pull A r1 r2 l x := by
  unfold pull
  rw [show 2 * r2 * (a * l) - a * x = a * (2 * r2 * l - x) by ring, abs_mul, abs_of_pos ha]
  ring

theorem moveRow_scale {a : ℕ → K} (ha : ∀ j, 0 < a j) (A : K) (r : ℕ → ℕ → K) (L : Lead K) (row : List K) :
    moveRow A r (mapLead a z0 L) (pt a z0 row) = pt a z0 (moveRow A r L row) := by
  unfold moveRow
  apply pt_mapIdx
  intro j x _
  simp only [mapLead, p2, z0_app, pt_getD0, add_zero, pull_scale (ha j)]
  ring

theorem gen_scale {a : ℕ → K} (ha : ∀ j, 0 < a j) {c : Conf K} (hS : c.S.OK) (hc : Cont c.S) {f f' : List K → K} (hf : ∀ x, f' (pt a z0 x) = f x)
    (l : ℕ) (dr : Draw K) (s : State K) : gen (conf a z0 c) f' l dr (mapState a z0 s) = (gen c f l dr s).map (mapState a z0) := by
  have hs : ∀ x, f' ((conf a z0 c).S.clip (pt a z0 x)) = f (c.S.clip x) := fun x => by
    show f' ((space a z0 c.S).clip (pt a z0 x)) = _
    rw [clip_pt ha hS, hf]
  have hl : ∀ l : List (List K), (l.map (pt a z0)).map (conf a z0 c).S.clip = (l.map c.S.clip).map (pt a z0) := fun l => by
    simp only [List.map_map]
    exact List.map_congr_left fun x _ => clip_pt ha hS x
  unfold gen
  have hA : coefA (conf a z0 c) l = coefA c l := rfl
  have hn : (conf a z0 c).ngen = c.ngen := rfl
  simp only [hA, hn, mapState, leadAll_pt (f' := fun x => f' ((conf a z0 c).S.clip x)) (f := fun x => f (c.S.clip x)) hs,
    updAll_pt (f' := fun x => f' ((conf a z0 c).S.clip x)) (f := fun x => f (c.S.clip x)) hs]
  cases coefA c l with
  | error e => rfl
  | ok A =>
    generalize leadAll (fun x => f (c.S.clip x)) s.lead s.pos = L
    have hm : ∀ i, ∀ x ∈ s.pos, move (conf a z0 c) (1 - (l : K) * (1 / (c.ngen : K))) A dr (mapLead a z0 L) i (pt a z0 x)
        = (move c (1 - (l : K) * (1 / (c.ngen : K))) A dr L i x).map (pt a z0) := by
      intro i x _
      simp only [move, moveRow_scale ha]
      exact repair_pt ha hS hc _ _ _
    simp only [mapRows_pt hm]
    cases mapRows (move c (1 - (l : K) * (1 / (c.ngen : K))) A dr L) 0 s.pos with
    | error e => rfl
    | ok pos' =>
      simp only [Except.map, mapState, hl, List.map_append]
      simp [p2, p1, hs, Function.comp_def, mapLead]

theorem run_scale {a : ℕ → K} (ha : ∀ j, 0 < a j) {c : Conf K} (hS : c.S.OK) (hc : Cont c.S) {f f' : List K → K} (hf : ∀ x, f' (pt a z0 x) = f x)
    (dr : ℕ → Draw K) (pos0 : List (List K)) (g : ℕ) :
    run (conf a z0 c) f' dr (pos0.map (pt a z0)) g = (run c f dr pos0 g).map (mapState a z0) := by
  induction g with
  | zero =>
    have e : (conf a z0 c).S.bounds.length = c.S.bounds.length := by simp [conf, space]
    simp [run, Except.map, mapState, mapLead, Lead.init, p2, e, pt_replicate]
  | succ g ih =>
    simp only [run, ih]
    cases run c f dr pos0 g with
    | error e => rfl
    | ok s => exact gen_scale ha hS hc hf g (dr g) s

theorem evolute_scale {a : ℕ → K} (ha : ∀ j, 0 < a j) {c : Conf K} (hS : c.S.OK) (hc : Cont c.S) (m : Bool) {f f' : List K → K}
    (hf : ∀ x, f' (pt a z0 x) = f x) (dr : ℕ → Draw K) (pos0 : List (List K)) :
    evolute (conf a z0 c) m f' dr (pos0.map (pt a z0)) = (evolute c m f dr pos0).map (mapResult a z0) := by
  unfold evolute
  have e1 : (conf a z0 c).nwolves = c.nwolves := rfl
  have e2 : (conf a z0 c).ngen = c.ngen := rfl
  rw [List.length_map, e1, e2]
  by_cases h1 : pos0.length ≠ c.nwolves
  · simp only [if_pos h1]; rfl
  simp only [if_neg h1, run_scale ha hS hc (f' := fun x => sgn m (f' x)) (f := fun x => sgn m (f x)) (fun x => by rw [hf])]
  cases run c (fun x => sgn m (f x)) dr pos0 c.ngen with
  | error e => rfl
  | ok s =>
    simp only [Except.map, mapState, p2]
    cases outScore m s.best.1 with
    | none => rfl
    | some y => simp [mapResult, p1, Function.comp_def]

end GWO

/-! ### WOA and SSA: change of scale -/

namespace Swarm
open Neorl.Swarm

def mapState (a b : ℕ → K) (s : State K) : State K :=
  { s with pos := s.pos.map (pt a b), best := p2 a b s.best, log := s.log.map (pt a b) }

/-- The answer in the new units. -/
def mapResult (a b : ℕ → K) (r : Result K) : Result K :=
  { r with x := pt a b r.x, lastPop := r.lastPop.map (p1 a b), log := r.log.map (pt a b) }

theorem better_pt {a b : ℕ → K} {f f' : List K → K} (hf : ∀ x, f' (pt a b x) = f x) (ps : List (List K)) (q : K × List K) :
    better f' (p2 a b q) (ps.map (pt a b)) = p2 a b (better f q ps) := by
  induction ps generalizing q with
  | nil => rfl
  | cons p ps ih =>
    simp only [List.map_cons, better]
    rw [← ih, hf]
    congr 1
    by_cases h : f p < q.1 <;> simp [p2, h]

theorem select_pt {a b : ℕ → K} {f f' : List K → K} (hf : ∀ x, f' (pt a b x) = f x) (ps : List (List K)) :
    select f' (ps.map (pt a b)) = (select f ps).map (p2 a b) := by
  cases ps with
  | nil => rfl
  | cons p ps =>
    have := better_pt hf ps (f p, p)
    simp only [p2] at this
    simp only [List.map_cons, select, hf, this, Except.map, p2]

theorem gen_pt {a b : ℕ → K} (ha : ∀ j, 0 < a j) {S : Space K} (hS : S.OK) {f f' : List K → K} (hf : ∀ x, f' (pt a b x) = f x) {mv mv' : Move K}
    (hm : ∀ k q ps, mv' k (pt a b q) (ps.map (pt a b)) = (mv k q ps).map (List.map (pt a b))) (k : ℕ) (s : State K) :
    gen (space a b S) mv' f' k (mapState a b s) = (gen S mv f k s).map (mapState a b) := by
  have hs : ∀ x, f' ((space a b S).clip (pt a b x)) = f (S.clip x) := fun x => by rw [clip_pt ha hS, hf]
  have hl : ∀ l : List (List K), (l.map (pt a b)).map (space a b S).clip = (l.map S.clip).map (pt a b) := fun l => by
    simp only [List.map_map]
    exact List.map_congr_left fun x _ => clip_pt ha hS x
  unfold gen
  have e : (mapState a b s).best.2 = pt a b s.best.2 := rfl
  have e' : (mapState a b s).pos = s.pos.map (pt a b) := rfl
  simp only [e, e', hm]
  cases mv k s.best.2 s.pos with
  | error e => rfl
  | ok pos =>
    simp only [Except.map, select_pt (f' := fun x => f' ((space a b S).clip x)) (f := fun x => f (S.clip x)) hs, hl]
    have eb : (mapState a b s).best = p2 a b s.best := rfl
    simp only [eb, better_pt (f' := fun x => f' ((space a b S).clip x)) (f := fun x => f (S.clip x)) hs]
    cases select (fun p => f (S.clip p)) pos with
    | error e => rfl
    | ok l => simp [Except.map, mapState, p2]

theorem run_pt {a b : ℕ → K} (ha : ∀ j, 0 < a j) {S : Space K} (hS : S.OK) {f f' : List K → K} (hf : ∀ x, f' (pt a b x) = f x) {mv mv' : Move K}
    (hm : ∀ k q ps, mv' k (pt a b q) (ps.map (pt a b)) = (mv k q ps).map (List.map (pt a b))) (pos0 : List (List K)) (g : ℕ) :
    run (space a b S) mv' f' (pos0.map (pt a b)) g = (run S mv f pos0 g).map (mapState a b) := by
  induction g with
  | zero =>
    have hs : ∀ x, f' ((space a b S).clip (pt a b x)) = f (S.clip x) := fun x => by rw [clip_pt ha hS, hf]
    have hl : ∀ l : List (List K), (l.map (pt a b)).map (space a b S).clip = (l.map S.clip).map (pt a b) := fun l => by
      simp only [List.map_map]
      exact List.map_congr_left fun x _ => clip_pt ha hS x
    simp only [run, select_pt (f' := fun x => f' ((space a b S).clip x)) (f := fun x => f (S.clip x)) hs, hl]
    cases select (fun p => f (S.clip p)) pos0 <;> rfl
  | succ g ih =>
    simp only [run, ih]
    cases run S mv f pos0 g with
    | error e => rfl
    | ok s => exact gen_pt ha hS hf hm g s

theorem evolute_pt {a b : ℕ → K} (ha : ∀ j, 0 < a j) {S : Space K} (hS : S.OK) (n ngen : ℕ) (m : Bool) {f f' : List K → K}
    (hf : ∀ x, f' (pt a b x) = f x) {mv mv' : Move K}
    (hm : ∀ k q ps, mv' k (pt a b q) (ps.map (pt a b)) = (mv k q ps).map (List.map (pt a b))) (pos0 : List (List K)) :
    evolute (space a b S) n ngen mv' m f' (pos0.map (pt a b)) = (evolute S n ngen mv m f pos0).map (mapResult a b) := by
  unfold evolute
  rw [List.length_map]
  by_cases h1 : pos0.length ≠ n
  · simp only [if_pos h1]; rfl
  simp only [if_neg h1, run_pt ha hS (f' := fun x => sgn m (f' x)) (f := fun x => sgn m (f x)) (fun x => by rw [hf]) hm]
  cases run S mv (fun x => sgn m (f x)) pos0 ngen with
  | error e => rfl
  | ok s =>
    simp only [Except.map, mapState]
    by_cases h2 : ngen = 0
    · simp only [if_pos h2]
    simp only [if_neg h2]
    have hs : ∀ x, f' ((space a b S).clip (pt a b x)) = f (S.clip x) := fun x => by rw [clip_pt ha hS, hf]
    simp [mapResult, p1, p2, Function.comp_def, hs]

end Swarm

namespace WOA
open Neorl.WOA

def conf (a b : ℕ → K) (c : Conf K) : Conf K := { c with S := space a b c.S }

theorem coord_scale {a : K} (ha : 0 < a) (c : Conf K) (A fac : K) (d : Draw K) (xr bj x : K) :
    coord c A fac d (a * xr) (a * bj) (a * x) = a * coord c A fac d xr bj x := by
  unfold coord
  have e : ∀ C y : K, |C * (a * y) - a * x| = a * |C * y - x| := fun C y => by
    rw [show C * (a * y) - a * x = a * (C * y - x) by ring, abs_mul, abs_of_pos ha]
  have e' : |a * bj - a * x| = a * |bj - x| := by rw [← mul_sub, abs_mul, abs_of_pos ha]
  simp only [e, e']
  split_ifs <;> ring

theorem getD_pt (a : ℕ → K) (pop : List (List K)) (i : ℕ) : (pop.map (pt a z0)).getD i [] = pt a z0 (pop.getD i []) := by
  simp only [List.getD_eq_getElem?_getD, List.getElem?_map]
  cases pop[i]? <;> rfl

theorem moveRow_scale {a : ℕ → K} (ha : ∀ j, 0 < a j) (c : Conf K) (A fac : K) (d : Draw K) (best : List K) (pop : List (List K)) (row : List K) :
    moveRow (conf a z0 c) A fac d (pt a z0 best) (pop.map (pt a z0)) (pt a z0 row) = pt a z0 (moveRow c A fac d best pop row) := by
  unfold moveRow
  apply pt_mapIdx
  intro j x _
  have e : ∀ u v w, coord (conf a z0 c) A fac d u v w = coord c A fac d u v w := fun _ _ _ => rfl
  have en : (conf a z0 c).nwhales = c.nwhales := rfl
  rw [e, en, getD_pt]
  simp only [z0_app, add_zero]
  rw [pt_getD0, pt_getD0, coord_scale (ha j)]

theorem moveTo_scale {a : ℕ → K} (ha : ∀ j, 0 < a j) {c : Conf K} (hS : c.S.OK) (hc : Cont c.S) (k : ℕ) (A fac : K) (dr : ℕ → Draw K)
    (best : List K) (pop : List (List K)) (i : ℕ) :
    moveTo (conf a z0 c) k A fac dr (pt a z0 best) i (pop.map (pt a z0)) = (moveTo c k A fac dr best i pop).map (List.map (pt a z0)) := by
  induction i with
  | zero => rfl
  | succ i ih =>
    simp only [moveTo, ih]
    cases moveTo c k A fac dr best i pop with
    | error e => rfl
    | ok p =>
      simp only [Except.map, List.getElem?_map]
      cases p[i]? with
      | none => rfl
      | some row =>
        have e := repair_pt (b := z0) ha hS hc (1 - (k : K) * (1 / (c.ngen : K))) (dr i).disc (moveRow c A fac (dr i) best p row)
        have e2 : (conf a z0 c).ngen = c.ngen := rfl
        have e3 : (conf a z0 c).S = space a z0 c.S := rfl
        simp only [Option.map_some, moveRow_scale ha, e2, e3, e]
        cases c.S.disc (1 - (k : K) * (1 / (c.ngen : K))) (dr i).disc (c.S.clip (moveRow c A fac (dr i) best p row)) with
        | error e => rfl
        | ok r => simp [Except.map, List.map_set]

theorem evolute_scale {a : ℕ → K} (ha : ∀ j, 0 < a j) {c : Conf K} (hS : c.S.OK) (hc : Cont c.S) (m : Bool) {f f' : List K → K}
    (hf : ∀ x, f' (pt a z0 x) = f x) (dr : ℕ → ℕ → Draw K) (pos0 : List (List K)) :
    evolute (conf a z0 c) m f' dr (pos0.map (pt a z0)) = (evolute c m f dr pos0).map (Swarm.mapResult a z0) := by
  unfold evolute
  refine Swarm.evolute_pt ha hS c.nwhales c.ngen m hf ?_ pos0
  intro k q ps
  have e1 : coefA (conf a z0 c) k = coefA c k := rfl
  have e2 : coefFac (conf a z0 c) k = coefFac c k := rfl
  have e3 : (conf a z0 c).nwhales = c.nwhales := rfl
  simp only [move, e1, e2, e3]
  cases coefA c k with
  | error e => rfl
  | ok A =>
    simp only
    cases coefFac c k with
    | error e => rfl
    | ok fac => exact moveTo_scale ha hS hc k A fac (dr k) q ps c.nwhales

end WOA

namespace SSA
open Neorl.SSA

def conf (a b : ℕ → K) (c : Conf K) : Conf K := { c with S := space a b c.S }

theorem bounds_getD (a : ℕ → K) (S : Space K) (j : ℕ) : (space a z0 S).bounds.getD j (0, 0) = (a j * (S.bounds.getD j (0, 0)).1, a j * (S.bounds.getD j (0, 0)).2) := by
  simp only [space, List.getD_eq_getElem?_getD, List.getElem?_mapIdx, z0_app, add_zero]
  cases S.bounds[j]? <;> simp

theorem leader_scale {a : ℕ → K} (c : Conf K) (c1 : K) (d : Draw K) (best row : List K) :
    leader (conf a z0 c) c1 d (pt a z0 best) (pt a z0 row) = pt a z0 (leader c c1 d best row) := by
  unfold leader
  apply pt_mapIdx
  intro j x _
  have e : (conf a z0 c).S = space a z0 c.S := rfl
  simp only [e, bounds_getD]
  simp only [z0_app, add_zero, pt_getD0]
  split_ifs <;> ring

theorem follower_pt {a b : ℕ → K} (prev row : List K) : follower (pt a b prev) (pt a b row) = pt a b (follower prev row) := by
  unfold follower
  apply pt_zipWith
  intro j x y _ _
  ring

theorem moveFrom_scale {a : ℕ → K} (ha : ∀ j, 0 < a j) {c : Conf K} (hS : c.S.OK) (hc : Cont c.S) (k : ℕ) (c1 : K) (dr : ℕ → Draw K)
    (best : List K) (pop : List (List K)) (i : ℕ) (prev : List K) :
    moveFrom (conf a z0 c) k c1 dr (pt a z0 best) i (pt a z0 prev) (pop.map (pt a z0)) = (moveFrom c k c1 dr best i prev pop).map (List.map (pt a z0)) := by
  induction pop generalizing i prev with
  | nil => rfl
  | cons row rows ih =>
    have hr : repair (conf a z0 c) k (dr i) (if 2 * i < (conf a z0 c).nsalps then leader (conf a z0 c) c1 (dr i) (pt a z0 best) (pt a z0 row) else follower (pt a z0 prev) (pt a z0 row))
        = (repair c k (dr i) (if 2 * i < c.nsalps then leader c c1 (dr i) best row else follower prev row)).map (pt a z0) := by
      have en : (conf a z0 c).nsalps = c.nsalps := rfl
      rw [en, leader_scale, follower_pt, ← apply_ite (pt a z0)]
      exact repair_pt ha hS hc _ _ _
    simp only [List.map_cons, moveFrom, hr]
    cases repair c k (dr i) (if 2 * i < c.nsalps then leader c c1 (dr i) best row else follower prev row) with
    | error e => rfl
    | ok row' =>
      simp only [Except.map, ih]
      cases moveFrom c k c1 dr best (i + 1) row' rows <;> rfl

theorem evolute_scale {a : ℕ → K} (ha : ∀ j, 0 < a j) {c : Conf K} (hS : c.S.OK) (hc : Cont c.S) (m : Bool) {f f' : List K → K}
    (hf : ∀ x, f' (pt a z0 x) = f x) (dr : ℕ → ℕ → Draw K) (pos0 : List (List K)) :
    evolute (conf a z0 c) m f' dr (pos0.map (pt a z0)) = (evolute c m f dr pos0).map (Swarm.mapResult a z0) := by
  unfold evolute
  refine Swarm.evolute_pt ha hS c.nsalps c.ngen m hf ?_ pos0
  intro k q ps
  have e1 : coefC1 (conf a z0 c) k = coefC1 c k := rfl
  simp only [move, e1]
  cases coefC1 c k with
  | error e => rfl
  | ok c1 => exact moveFrom_scale ha hS hc k c1 (dr k) q ps 0 []

end SSA

end
end Neorl.Rescale

import Verif.DE
import Verif.JAYA
import Verif.GWO
import Verif.Swarm
import Verif.WOA
import Verif.SSA
import Verif.CS
import Verif.ACO
import Verif.HHO
import Verif.BAT
import Verif.MFO
import Verif.ES
import Verif.PSO
import Verif.XNES
import Verif.TS
import Verif.SA
import Mathlib.Order.Hom.WithTopBot

/-!
# Dependence on the fitness through comparisons only

Lemmas behind C135: the models of the optimisers commute with a strictly increasing change of the internal fitness.  No new code is
modelled here; `mapFit` applies a function to every fitness value stored in a state or a result and leaves everything else alone.
-/

set_option linter.unusedSectionVars false
set_option linter.unusedVariables false
set_option linter.unusedSimpArgs false

namespace Neorl.Compare

section
variable {K : Type} [Field K] [LinearOrder K] [IsStrictOrderedRing K]

/-- Specification: `a` is strictly better than `b` in the given mode. -/
def Better (minMode : Bool) (a b : K) : Prop := if minMode then a < b else b < a

/-- Specification: `g` carries better values of mode `m` to better values of mode `m'`. -/
def Keeps (m m' : Bool) (g : K → K) : Prop := ∀ a b, Better m a b → Better m' (g a) (g b)

/-- The change of the internal fitness belonging to a change `g` of the user's. -/
def inner (m m' : Bool) (g : K → K) (v : K) : K := sgn m' (g (sgn m v))

theorem inner_mono {m m' : Bool} {g : K → K} (h : Keeps m m' g) : StrictMono (inner m m' g) := by
  intro a b hab
  cases m <;> cases m' <;> simp only [inner, sgn, Keeps, Better] at * <;> simp at *
  · exact h _ _ (by simpa using hab)
  · exact h _ _ (by simpa using hab)
  · exact h _ _ hab
  · exact h _ _ hab

theorem inner_mono' {m m' : Bool} {g : K → K} (h : Keeps m m' g) : StrictMono (inner (!m) (!m') g) := by
  intro a b hab
  cases m <;> cases m' <;> simp only [inner, sgn, Keeps, Better] at * <;> simp at *
  · exact h _ _ hab
  · exact h _ _ hab
  · exact h _ _ (by simpa using hab)
  · exact h _ _ (by simpa using hab)

theorem sgn_inner {m m' : Bool} {g : K → K} (v : K) : sgn m' (inner m m' g v) = g (sgn m v) := by simp [inner]

theorem inner_sgn {m m' : Bool} {g : K → K} (v : K) : inner m m' g (sgn m v) = sgn m' (g v) := by simp [inner]

theorem outScore_inner {m m' : Bool} {g : K → K} (s : WithTop K) :
    outScore m' (s.map (inner m m' g)) = (outScore m s).map g := by
  cases s with
  | top => rfl
  | coe v => simp [inner]

variable {h : K → K}

theorem map_lt_coe (hm : StrictMono h) (v : K) (t : WithTop K) : ((h v : K) : WithTop K) < t.map h ↔ (v : WithTop K) < t := by
  cases t with
  | top => simp
  | coe w => simp [hm.lt_iff_lt]

theorem coe_lt_map (hm : StrictMono h) (v : K) (t : WithTop K) : t.map h < ((h v : K) : WithTop K) ↔ t < (v : WithTop K) := by
  cases t with
  | top => simp
  | coe w => simp [hm.lt_iff_lt]

theorem map_le_coe (hm : StrictMono h) (v : K) (t : WithTop K) : ((h v : K) : WithTop K) ≤ t.map h ↔ (v : WithTop K) ≤ t := by
  cases t with
  | top => simp
  | coe w => simp [hm.le_iff_le]

theorem upd_map {X : Type} (hm : StrictMono h) (b : WithTop K × X) (v : K) (x : X) :
    upd (b.1.map h, b.2) (h v) x = ((upd b v x).1.map h, (upd b v x).2) := by
  unfold upd
  simp only [map_lt_coe hm]
  split_ifs <;> simp

theorem updAll_map {X : Type} (hm : StrictMono h) (f : X → K) (xs : List X) (b : WithTop K × X) :
    updAll (fun x => h (f x)) (b.1.map h, b.2) xs = ((updAll f b xs).1.map h, (updAll f b xs).2) := by
  induction xs generalizing b with
  | nil => rfl
  | cons x xs ih => simp only [updAll, upd_map hm, ih]

theorem accMin_map (hm : StrictMono h) (l : List K) : accMin (l.map h) = (accMin l).map h := by
  induction l with
  | nil => rfl
  | cons a l ih =>
    simp only [List.map_cons, accMin, ih, List.map_map, List.cons.injEq, true_and]
    refine List.map_congr_left fun b _ => ?_
    simp [hm.monotone.map_min]

theorem accMax_map (hm : StrictMono h) (l : List K) : accMax (l.map h) = (accMax l).map h := by
  induction l with
  | nil => rfl
  | cons a l ih =>
    simp only [List.map_cons, accMax, ih, List.map_map, List.cons.injEq, true_and]
    refine List.map_congr_left fun b _ => ?_
    simp [hm.monotone.map_max]

theorem accMin_anti (hm : StrictAnti h) (l : List K) : accMin (l.map h) = (accMax l).map h := by
  induction l with
  | nil => rfl
  | cons a l ih =>
    simp only [List.map_cons, accMin, accMax, ih, List.map_map, List.cons.injEq, true_and]
    refine List.map_congr_left fun b _ => ?_
    simp [hm.antitone.map_max]

theorem accMax_anti (hm : StrictAnti h) (l : List K) : accMax (l.map h) = (accMin l).map h := by
  induction l with
  | nil => rfl
  | cons a l ih =>
    simp only [List.map_cons, accMin, accMax, ih, List.map_map, List.cons.injEq, true_and]
    refine List.map_congr_left fun b _ => ?_
    simp [hm.antitone.map_min]

theorem acc_map {m m' : Bool} {g : K → K} (hk : Keeps m m' g) (l : List K) : acc m' (l.map g) = (acc m l).map g := by
  cases m <;> cases m' <;> simp only [acc, if_true, Bool.false_eq_true, if_false]
  · exact accMax_map (fun a b hab => by simpa [Better] using hk b a (by simpa [Better] using hab)) l
  · exact accMin_anti (fun a b hab => by simpa [Better] using hk b a (by simpa [Better] using hab)) l
  · exact accMax_anti (fun a b hab => by simpa [Better] using hk a b (by simpa [Better] using hab)) l
  · exact accMin_map (fun a b hab => by simpa [Better] using hk a b (by simpa [Better] using hab)) l

theorem foldl_max_map (hm : StrictMono h) (l : List K) (v : K) : (l.map h).foldl max (h v) = h (l.foldl max v) := by
  induction l generalizing v with
  | nil => rfl
  | cons a l ih => simp only [List.map_cons, List.foldl_cons, ← hm.monotone.map_max, ih]

theorem foldl_min_map (hm : StrictMono h) (l : List K) (v : K) : (l.map h).foldl min (h v) = h (l.foldl min v) := by
  induction l generalizing v with
  | nil => rfl
  | cons a l ih => simp only [List.map_cons, List.foldl_cons, ← hm.monotone.map_min, ih]

/-- A fitness beside its point. -/
def onSnd {X : Type} (h : K → K) (p : X × K) : X × K := (p.1, h p.2)

/-- A point beside its fitness. -/
def onFst {X : Type} (h : K → K) (p : K × X) : K × X := (h p.1, p.2)

end

section
variable {K : Type} [Field K] [LinearOrder K] [IsStrictOrderedRing K] [FloorRing K] {h : K → K}

/-! ### DE -/

namespace DE
open Neorl.DE

def mapState (h : K → K) (s : State K) : State K :=
  { s with sel := s.sel.map (onSnd h), best := s.best.map h, last := s.last.map (onSnd h) }

def mapResult (h : K → K) (r : Result K) : Result K :=
  { r with y := h r.y, globalFitness := r.globalFitness.map h, localFitness := r.localFitness.map h, lastPop := r.lastPop.map (onSnd h) }

theorem select_map (hm : StrictMono h) (f : List K → K) (xs ts : List (List K)) :
    select (fun x => h (f x)) xs ts = (select f xs ts).map (onSnd h) := by
  induction xs generalizing ts with
  | nil => cases ts <;> rfl
  | cons x xs ih =>
    cases ts with
    | nil => rfl
    | cons t ts =>
      simp only [select, ih, List.map_cons, gt_iff_lt, hm.lt_iff_lt]
      split_ifs <;> rfl

theorem bestOf_map (hm : StrictMono h) (l : List (List K × K)) : bestOf (l.map (onSnd h)) = (bestOf l).map (onSnd h) := by
  induction l with
  | nil => rfl
  | cons p l ih =>
    simp only [List.map_cons, bestOf, ih]
    cases bestOf l with
    | none => rfl
    | some q =>
      simp only [Option.map_some, onSnd, ge_iff_le, hm.le_iff_le]
      split_ifs <;> rfl

theorem gen_map (hm : StrictMono h) (c : Conf K) (fit : List K → K) (dr : ℕ → Draw K) (rl : List (ℕ × List K)) (s : State K) :
    gen c (fun x => h (fit x)) dr rl (mapState h s) = (gen c fit dr rl s).map (mapState h) := by
  unfold gen
  simp only [mapState]
  rcases Neorl.DE.sweep c dr c.npop s.pop with e | ⟨ts, tr⟩
  · rfl
  · simp only [select_map hm (fun x => fit (c.S.clip x)), bestOf_map hm]
    cases bestOf (select (fun x => fit (c.S.clip x)) ts tr) with
    | none => rfl
    | some b => simp [Except.map, mapState, onSnd, Function.comp_def]

theorem run_map (hm : StrictMono h) (c : Conf K) (fit : List K → K) (dr : ℕ → ℕ → Draw K) (rl : ℕ → List (ℕ × List K))
    (pop0 : List (List K)) (g : ℕ) : run c (fun x => h (fit x)) dr rl pop0 g = (run c fit dr rl pop0 g).map (mapState h) := by
  induction g with
  | zero => rfl
  | succ g ih =>
    simp only [run, ih]
    cases run c fit dr rl pop0 g with
    | error e => rfl
    | ok s => exact gen_map hm c fit (dr g) (rl g) s

theorem evolute_map {m m' : Bool} {g : K → K} (hk : Keeps m m' g) (c : Conf K) (f : List K → K) (dr : ℕ → ℕ → Draw K)
    (rl : ℕ → List (ℕ × List K)) (pop0 : List (List K)) :
    evolute c m' (fun x => g (f x)) dr rl pop0 = (evolute c m f dr rl pop0).map (mapResult g) := by
  have key : ∀ (n : Bool) (u : List K → K), evolute c n u dr rl pop0 =
      match run c (fun x => sgn (!n) (u x)) dr rl pop0 c.ngen with
      | .error e => .error e
      | .ok s =>
        match s.last with
        | none => .error .unboundLocal
        | some b => .ok { x := b.1, y := sgn (!n) b.2, globalFitness := acc n (s.best.map (sgn (!n))), localFitness := s.best.map (sgn (!n)),
                          lastPop := List.zip s.pop (s.sel.map fun p => sgn (!n) p.2), log := s.log } := by
    intro n u
    have sf : sgn (K := K) false = fun v => -v := by funext v; simp [sgn]
    have st : sgn (K := K) true = fun v => v := by funext v; simp [sgn]
    unfold evolute
    cases n
    · simp only [Bool.false_eq_true, if_false, Bool.not_false, st]
      cases run c u dr rl pop0 c.ngen with
      | error e => rfl
      | ok s => cases h : s.last <;> simp [h, acc]
    · simp only [if_true, Bool.not_true, sf]
      cases run c (fun x => -u x) dr rl pop0 c.ngen with
      | error e => rfl
      | ok s => cases h : s.last <;> simp [h, acc]
  rw [key, key]
  have e : (fun x => sgn (!m') (g (f x))) = fun x => inner (!m) (!m') g (sgn (!m) (f x)) := by
    funext x; rw [inner_sgn]
  rw [e, run_map (inner_mono' hk)]
  cases run c (fun x => sgn (!m) (f x)) dr rl pop0 c.ngen with
  | error e => rfl
  | ok s =>
    simp only [Except.map, mapState]
    cases s.last with
    | none => rfl
    | some b =>
      simp only [Option.map_some, onSnd, sgn_inner, mapResult, List.map_map, Except.ok.injEq, Result.mk.injEq, true_and, and_true]
      have e2 : (sgn (!m') ∘ inner (!m) (!m') g) = g ∘ sgn (!m) := by funext v; simp [sgn_inner]
      refine ⟨?_, ?_, ?_⟩
      · rw [e2, ← List.map_map, acc_map hk]
      · rw [e2]
      · rw [show ((fun p : List K × K => sgn (!m') p.2) ∘ onSnd (inner (!m) (!m') g)) = (g ∘ fun p : List K × K => sgn (!m) p.2) by
          funext p; simp [onSnd, sgn_inner]]
        rw [← List.map_map, List.zip_map_right]
        rfl

end DE

/-! ### JAYA -/

namespace JAYA
open Neorl.JAYA

def mapState (h : K → K) (s : State K) : State K :=
  { s with fits := s.fits.map h, best := onFst h s.best, worst := onFst h s.worst, global := s.global.map h, locals := s.locals.map h,
           last := s.last.map (onSnd h) }

def mapResult (h : K → K) (r : Result K) : Result K :=
  { r with y := h r.y, global := r.global.map h, locals := r.locals.map h, lastPop := r.lastPop.map (onSnd h) }

theorem scanBest_map (hm : StrictMono h) (l : List K) (i : ℕ) (b : K × ℕ) : scanBest i (onFst h b) (l.map h) = onFst h (scanBest i b l) := by
  induction l generalizing i b with
  | nil => rfl
  | cons v l ih =>
    simp only [List.map_cons, scanBest, gt_iff_lt]
    rw [← ih]
    simp only [onFst, hm.lt_iff_lt]
    split_ifs <;> rfl

theorem scanWorst_map (hm : StrictMono h) (l : List K) (i : ℕ) (b : K × ℕ) : scanWorst i (onFst h b) (l.map h) = onFst h (scanWorst i b l) := by
  induction l generalizing i b with
  | nil => rfl
  | cons v l ih =>
    simp only [List.map_cons, scanWorst]
    rw [← ih]
    simp only [onFst, hm.lt_iff_lt]
    split_ifs <;> rfl

theorem greedy_map (hm : StrictMono h) (ps : List (List K)) (fs : List K) (qs : List (List K)) (gs : List K) :
    greedy ps (fs.map h) qs (gs.map h) = ((greedy ps fs qs gs).1, (greedy ps fs qs gs).2.map h) := by
  induction ps generalizing fs qs gs with
  | nil => rfl
  | cons p ps ih =>
    cases fs with
    | nil => rfl
    | cons f fs =>
      cases qs with
      | nil => rfl
      | cons q qs =>
        cases gs with
        | nil => rfl
        | cons g gs =>
          simp only [List.map_cons, greedy, ih, gt_iff_lt, hm.lt_iff_lt]
          split_ifs <;> rfl

theorem listMax_map (hm : StrictMono h) (l : List K) : listMax (l.map h) = (listMax l).map h := by
  cases l with
  | nil => rfl
  | cons v l => simp [listMax, foldl_max_map hm, Except.map]

theorem init_map (hm : StrictMono h) (fit : List K → K) (pos0 : List (List K)) :
    init (fun x => h (fit x)) pos0 = (init fit pos0).map (mapState h) := by
  cases pos0 with
  | nil => rfl
  | cons p ps =>
    simp only [init, List.map_cons, Except.map, mapState]
    have e : (ps.map fun x => h (fit x)) = (ps.map fit).map h := by simp
    rw [e]
    have a := scanBest_map hm (ps.map fit) 1 (fit p, 0)
    have b := scanWorst_map hm (ps.map fit) 1 (fit p, 0)
    simp only [onFst] at a b
    rw [a, b]
    rfl

theorem gen_map (hm : StrictMono h) (c : Conf K) (fit : List K → K) (g : ℕ) (dr : ℕ → Draw K) (s : State K) :
    gen c (fun x => h (fit x)) g dr (mapState h s) = (gen c fit g dr s).map (mapState h) := by
  unfold gen
  simp only [mapState]
  simp only [onFst]
  cases s.pos[s.best.2]? with
  | none => rfl
  | some b =>
    cases s.pos[s.worst.2]? with
    | none => rfl
    | some w =>
      simp only
      cases mapRows (fun i row => repair c g (dr i) (trial b w (dr i) row)) 0 s.pos with
      | error e => rfl
      | ok new =>
        simp only
        have e : (new.map fun x => h (fit x)) = (new.map fit).map h := by simp
        rw [e, greedy_map hm, listMax_map hm]
        have a := scanBest_map hm (greedy s.pos s.fits new (new.map fit)).2 0 s.best
        have b := scanWorst_map hm (greedy s.pos s.fits new (new.map fit)).2 0 s.worst
        simp only [onFst] at a b
        rw [a, b]
        cases listMax (new.map fit) with
        | error e => rfl
        | ok mx => simp [Except.map, mapState, onFst, onSnd, Function.comp_def]

theorem run_map (hm : StrictMono h) (c : Conf K) (fit : List K → K) (dr : ℕ → ℕ → Draw K) (pos0 : List (List K)) (g : ℕ) :
    run c (fun x => h (fit x)) dr pos0 g = (run c fit dr pos0 g).map (mapState h) := by
  induction g with
  | zero => exact init_map hm fit pos0
  | succ g ih =>
    simp only [run, ih]
    cases run c fit dr pos0 g with
    | error e => rfl
    | ok s => exact gen_map hm c fit g (dr g) s

theorem evolute_map {m m' : Bool} {g : K → K} (hk : Keeps m m' g) (c : Conf K) (f : List K → K) (dr : ℕ → ℕ → Draw K) (pos0 : List (List K)) :
    evolute c m' (fun x => g (f x)) dr pos0 = (evolute c m f dr pos0).map (mapResult g) := by
  unfold evolute
  by_cases h1 : pos0.length ≠ c.npop
  · simp only [if_pos h1]; rfl
  simp only [if_neg h1]
  have e : (fun x => sgn (!m') (g (f x))) = fun x => inner (!m) (!m') g (sgn (!m) (f x)) := by funext x; rw [inner_sgn]
  rw [e, run_map (inner_mono' hk)]
  cases run c (fun x => sgn (!m) (f x)) dr pos0 c.ngen with
  | error e => rfl
  | ok s =>
    simp only [Except.map, mapState]
    by_cases h2 : c.ngen = 0
    · simp only [if_pos h2]
    simp only [if_neg h2, onFst]
    cases s.pos[s.best.2]? with
    | none => rfl
    | some x => simp [mapResult, sgn_inner, onSnd, Function.comp_def]

end JAYA

/-! ### GWO -/

namespace GWO
open Neorl.GWO

/-- Score and point of a leader. -/
def onTop {X : Type} (h : K → K) (b : WithTop K × X) : WithTop K × X := (b.1.map h, b.2)

def mapLead (h : K → K) (L : Lead K) : Lead K := { alpha := onTop h L.alpha, beta := onTop h L.beta, delta := onTop h L.delta }

def mapState (h : K → K) (s : State K) : State K :=
  { s with lead := mapLead h s.lead, best := onTop h s.best, hAlpha := s.hAlpha.map (WithTop.map h), hBeta := s.hBeta.map (WithTop.map h),
           hDelta := s.hDelta.map (WithTop.map h), hFit := s.hFit.map (WithTop.map h), last := s.last.map (onSnd h) }

def mapResult (h : K → K) (r : Result K) : Result K :=
  { r with y := h r.y, hAlpha := r.hAlpha.map (Option.map h), hBeta := r.hBeta.map (Option.map h), hDelta := r.hDelta.map (Option.map h),
           hFit := r.hFit.map (Option.map h), lastPop := r.lastPop.map (onSnd h) }

theorem lead_map (hm : StrictMono h) (v : K) (p : List K) (L : Lead K) : lead (h v) p (mapLead h L) = mapLead h (lead v p L) := by
  have s1 : ∀ L : Lead K, step1 (h v) p (mapLead h L) = mapLead h (step1 v p L) := by
    intro L
    simp only [step1, mapLead, onTop, map_lt_coe hm]
    split_ifs <;> simp
  have s2 : ∀ L : Lead K, step2 (h v) p (mapLead h L) = mapLead h (step2 v p L) := by
    intro L
    simp only [step2, mapLead, onTop, map_lt_coe hm, gt_iff_lt, coe_lt_map hm]
    split_ifs <;> simp
  have s3 : ∀ L : Lead K, step3 (h v) p (mapLead h L) = mapLead h (step3 v p L) := by
    intro L
    simp only [step3, mapLead, onTop, map_lt_coe hm, gt_iff_lt, coe_lt_map hm]
    split_ifs <;> simp
  simp only [lead, s1, s2, s3]

theorem leadAll_map (hm : StrictMono h) (f : List K → K) (ps : List (List K)) (L : Lead K) :
    leadAll (fun x => h (f x)) (mapLead h L) ps = mapLead h (leadAll f L ps) := by
  induction ps generalizing L with
  | nil => rfl
  | cons p ps ih => simp only [leadAll, lead_map hm, ih]

theorem gen_map (hm : StrictMono h) (c : Conf K) (fit : List K → K) (l : ℕ) (dr : Draw K) (s : State K) :
    gen c (fun x => h (fit x)) l dr (mapState h s) = (gen c fit l dr s).map (mapState h) := by
  unfold gen
  simp only [mapState, leadAll_map hm (fun p => fit (c.S.clip p)), onTop, updAll_map hm (fun p => fit (c.S.clip p))]
  cases coefA c l with
  | error e => rfl
  | ok a =>
    have e : ∀ b, move c b a dr (mapLead h (leadAll (fun p => fit (c.S.clip p)) s.lead s.pos))
        = move c b a dr (leadAll (fun p => fit (c.S.clip p)) s.lead s.pos) := by
      intro b; funext i row; rfl
    simp only [e]
    cases mapRows (move c (1 - (l : K) * (1 / (c.ngen : K))) a dr (leadAll (fun p => fit (c.S.clip p)) s.lead s.pos)) 0 s.pos with
    | error e => rfl
    | ok pos' => simp [Except.map, mapState, mapLead, onTop, onSnd, Function.comp_def]

theorem run_map (hm : StrictMono h) (c : Conf K) (fit : List K → K) (dr : ℕ → Draw K) (pos0 : List (List K)) (g : ℕ) :
    run c (fun x => h (fit x)) dr pos0 g = (run c fit dr pos0 g).map (mapState h) := by
  induction g with
  | zero => simp [run, Except.map, mapState, mapLead, Lead.init, onTop]
  | succ g ih =>
    simp only [run, ih]
    cases run c fit dr pos0 g with
    | error e => rfl
    | ok s => exact gen_map hm c fit g (dr g) s

theorem evolute_map {m m' : Bool} {g : K → K} (hk : Keeps m m' g) (c : Conf K) (f : List K → K) (dr : ℕ → Draw K) (pos0 : List (List K)) :
    evolute c m' (fun x => g (f x)) dr pos0 = (evolute c m f dr pos0).map (mapResult g) := by
  unfold evolute
  split_ifs with h1
  · rfl
  have e : (fun x => sgn m' (g (f x))) = fun x => inner m m' g (sgn m (f x)) := by funext x; rw [inner_sgn]
  rw [e, run_map (inner_mono hk)]
  cases run c (fun x => sgn m (f x)) dr pos0 c.ngen with
  | error e => rfl
  | ok s =>
    simp only [Except.map, mapState, onTop, outScore_inner]
    cases outScore m s.best.1 with
    | none => rfl
    | some y => simp [mapResult, sgn_inner, onSnd, Function.comp_def, outScore_inner]

end GWO

theorem sortAsc_map {X : Type} {key : X → K} {φ : X → X} (hk : ∀ a b, key (φ a) ≤ key (φ b) ↔ key a ≤ key b) (l : List X) :
    sortAsc key (l.map φ) = (sortAsc key l).map φ := by
  unfold sortAsc
  exact (List.map_insertionSort _ _ φ l (fun a _ b _ => (hk a b).symm)).symm

theorem sortDesc_map {X : Type} {key : X → K} {φ : X → X} (hk : ∀ a b, key (φ a) ≤ key (φ b) ↔ key a ≤ key b) (l : List X) :
    sortDesc key (l.map φ) = (sortDesc key l).map φ := by
  unfold sortDesc
  exact (List.map_insertionSort _ _ φ l (fun a _ b _ => (hk b a).symm)).symm

/-! ### WOA and SSA -/

namespace Swarm
open Neorl.Swarm

def mapState (h : K → K) (s : State K) : State K :=
  { s with best := onFst h s.best, global := s.global.map h, locals := s.locals.map h }

def mapResult (h : K → K) (r : Result K) : Result K :=
  { r with y := h r.y, global := r.global.map h, locals := r.locals.map h, lastPop := r.lastPop.map (onSnd h) }

theorem better_map (hm : StrictMono h) (f : List K → K) (ps : List (List K)) (b : K × List K) :
    better (fun x => h (f x)) (onFst h b) ps = onFst h (better f b ps) := by
  induction ps generalizing b with
  | nil => rfl
  | cons p ps ih =>
    simp only [better]
    rw [← ih]
    simp only [onFst, hm.lt_iff_lt]
    split_ifs <;> rfl

theorem select_map (hm : StrictMono h) (f : List K → K) (ps : List (List K)) :
    select (fun x => h (f x)) ps = (select f ps).map (onFst h) := by
  cases ps with
  | nil => rfl
  | cons p ps =>
    have := better_map hm f ps (f p, p)
    simp only [onFst] at this
    simp only [select, this, Except.map, onFst]

theorem gen_map (hm : StrictMono h) (S : Space K) (mv : Move K) (fit : List K → K) (k : ℕ) (s : State K) :
    gen S mv (fun x => h (fit x)) k (mapState h s) = (gen S mv fit k s).map (mapState h) := by
  unfold gen
  simp only [mapState, select_map hm (fun p => fit (S.clip p)), better_map hm (fun p => fit (S.clip p))]
  have e : (onFst h s.best).2 = s.best.2 := rfl
  rw [e]
  cases mv k s.best.2 s.pos with
  | error e => rfl
  | ok pos =>
    simp only
    cases select (fun p => fit (S.clip p)) pos with
    | error e => rfl
    | ok l => simp [Except.map, mapState, onFst]

theorem run_map (hm : StrictMono h) (S : Space K) (mv : Move K) (fit : List K → K) (pos0 : List (List K)) (g : ℕ) :
    run S mv (fun x => h (fit x)) pos0 g = (run S mv fit pos0 g).map (mapState h) := by
  induction g with
  | zero =>
    simp only [run, select_map hm (fun p => fit (S.clip p))]
    cases select (fun p => fit (S.clip p)) pos0 <;> rfl
  | succ g ih =>
    simp only [run, ih]
    cases run S mv fit pos0 g with
    | error e => rfl
    | ok s => exact gen_map hm S mv fit g s

theorem evolute_map {m m' : Bool} {g : K → K} (hk : Keeps m m' g) (S : Space K) (n ngen : ℕ) (mv : Move K) (f : List K → K)
    (pos0 : List (List K)) : evolute S n ngen mv m' (fun x => g (f x)) pos0 = (evolute S n ngen mv m f pos0).map (mapResult g) := by
  unfold evolute
  by_cases h1 : pos0.length ≠ n
  · simp only [if_pos h1]; rfl
  simp only [if_neg h1]
  have e : (fun x => sgn m' (g (f x))) = fun x => inner m m' g (sgn m (f x)) := by funext x; rw [inner_sgn]
  rw [e, run_map (inner_mono hk)]
  cases run S mv (fun x => sgn m (f x)) pos0 ngen with
  | error e => rfl
  | ok s =>
    simp only [Except.map, mapState]
    by_cases h2 : ngen = 0
    · simp only [if_pos h2]
    simp only [if_neg h2]
    simp [mapResult, sgn_inner, onSnd, onFst, Function.comp_def]

end Swarm

/-! ### CS -/

namespace CS
open Neorl.CS

def mapState (h : K → K) (s : State K) : State K :=
  { s with nests := s.nests.map (onSnd h), best := onFst h s.best, global := s.global.map h, locals := s.locals.map h }

def mapResult (h : K → K) (r : Result K) : Result K :=
  { r with y := h r.y, global := r.global.map h, locals := r.locals.map h, lastPop := r.lastPop.map (onSnd h) }

theorem accept_map (hm : StrictMono h) (f : List K → K) (qs : List (List K × K)) (ps : List (List K)) :
    accept (fun x => h (f x)) (qs.map (onSnd h)) ps = (accept f qs ps).map (onSnd h) := by
  induction qs generalizing ps with
  | nil => cases ps <;> rfl
  | cons q qs ih =>
    cases ps with
    | nil => rfl
    | cons p ps =>
      simp only [List.map_cons, accept, ih, onSnd, hm.le_iff_le]
      split_ifs <;> rfl

theorem scan_map (hm : StrictMono h) (qs : List (List K × K)) (b : K × List K) :
    scan (onFst h b) (qs.map (onSnd h)) = onFst h (scan b qs) := by
  induction qs generalizing b with
  | nil => rfl
  | cons q qs ih =>
    simp only [List.map_cons, scan]
    rw [← ih]
    simp only [onFst, onSnd, hm.lt_iff_lt]
    split_ifs <;> rfl

theorem gen_map (hm : StrictMono h) (c : Conf K) (fit : List K → K) (g : ℕ) (d : Draw K) (s : State K) :
    gen c (fun x => h (fit x)) g d (mapState h s) = (gen c fit g d s).map (mapState h) := by
  unfold gen
  have e : ((s.nests.map (onSnd h)).map fun q => q.1) = s.nests.map fun q => q.1 := by simp [onSnd, Function.comp_def]
  simp only [mapState, e]
  have e : (onFst h s.best).2 = s.best.2 := rfl
  rw [e]
  cases mapRows (levyRow c g d s.best.2) 0 (s.nests.map fun q => q.1) with
  | error e => rfl
  | ok new1 =>
    simp only
    cases mapRows (discoverRow c g d new1) 0 new1 with
    | error e => rfl
    | ok new2 =>
      simp only [accept_map hm (fun p => fit (c.S.clip p)), scan_map hm]
      cases accept (fun p => fit (c.S.clip p)) (accept (fun p => fit (c.S.clip p)) s.nests new1) new2 with
      | nil => rfl
      | cons q qs =>
        have := scan_map hm qs (q.2, q.1)
        simp only [onFst] at this
        simp [Except.map, mapState, onFst, onSnd, this]

theorem run_map (hm : StrictMono h) (c : Conf K) (fit : List K → K) (dr : ℕ → Draw K) (pos0 : List (List K)) (g : ℕ) :
    run c (fun x => h (fit x)) dr pos0 g = (run c fit dr pos0 g).map (mapState h) := by
  induction g with
  | zero =>
    cases pos0 with
    | nil => rfl
    | cons p ps =>
      have := scan_map hm (ps.map fun p => (p, fit (c.S.clip p))) (fit (c.S.clip p), p)
      simp only [onFst, List.map_map] at this
      simp only [run, List.map_cons, Except.map, mapState, onFst, onSnd, List.map_map, List.map_nil]
      rw [← this]
      simp [Function.comp_def, onSnd]
  | succ g ih =>
    simp only [run, ih]
    cases run c fit dr pos0 g with
    | error e => rfl
    | ok s => exact gen_map hm c fit g (dr g) s

theorem evolute_map {m m' : Bool} {g : K → K} (hk : Keeps m m' g) (c : Conf K) (f : List K → K) (dr : ℕ → Draw K) (pos0 : List (List K)) :
    evolute c m' (fun x => g (f x)) dr pos0 = (evolute c m f dr pos0).map (mapResult g) := by
  unfold evolute
  by_cases h1 : pos0.length ≠ c.ncuckoos
  · simp only [if_pos h1]; rfl
  simp only [if_neg h1]
  have e : (fun x => sgn m' (g (f x))) = fun x => inner m m' g (sgn m (f x)) := by funext x; rw [inner_sgn]
  rw [e, run_map (inner_mono hk)]
  cases run c (fun x => sgn m (f x)) dr pos0 c.ngen with
  | error e => rfl
  | ok s =>
    simp only [Except.map, mapState]
    by_cases h2 : c.ngen = 0
    · simp only [if_pos h2]
    simp only [if_neg h2]
    simp [mapResult, sgn_inner, onSnd, onFst, Function.comp_def]

end CS

/-! ### ACO -/

namespace ACO
open Neorl.ACO

def mapState (h : K → K) (s : State K) : State K :=
  { s with arch := s.arch.map (onSnd h), global := s.global.map h, locals := s.locals.map h, last := s.last.map (onSnd h) }

def mapResult (h : K → K) (r : Result K) : Result K :=
  { r with y := h r.y, global := r.global.map h, locals := r.locals.map h, lastPop := r.lastPop.map (onSnd h) }

theorem mean_map (arch : List (Ant K)) : mean (arch.map (onSnd h)) = mean arch := by
  funext l j
  simp [mean, onSnd, Function.comp_def]

theorem newAnts_map (c : Conf K) (arch : List (Ant K)) (dr : ℕ → ℕ → Draw K) : newAnts c (arch.map (onSnd h)) dr = newAnts c arch dr := by
  have e : ∀ d, coord c (arch.map (onSnd h)) d = coord c arch d := by
    intro d; funext j b; simp only [coord, sigma, mean_map]
  simp only [newAnts, newAnt, e]

theorem listMin_map (hm : StrictMono h) (l : List K) : listMin (l.map h) = (listMin l).map h := by
  cases l with
  | nil => rfl
  | cons v l => simp [listMin, foldl_min_map hm, Except.map]

theorem gen_map (hm : StrictMono h) (c : Conf K) (fit : List K → K) (dr : ℕ → ℕ → Draw K) (s : State K) :
    gen c (fun x => h (fit x)) dr (mapState h s) = (gen c fit dr s).map (mapState h) := by
  unfold gen
  by_cases h1 : c.narchive = 1
  · simp only [if_pos h1]; rfl
  simp only [if_neg h1, mapState, newAnts_map]
  cases newAnts c s.arch dr with
  | error e => rfl
  | ok new =>
    have e1 : (new.map fun p => (p, h (fit p))) = (new.map fun p => (p, fit p)).map (onSnd h) := by simp [onSnd, Function.comp_def]
    have e2 : (new.map fun p => h (fit p)) = (new.map fit).map h := by simp
    simp only [e1, e2, ← List.map_append, listMin_map hm]
    rw [sortAsc_map (fun a b => by simp [onSnd, hm.le_iff_le]), ← List.map_take, List.getElem?_map]
    cases ((sortAsc (fun a : Ant K => a.2) (s.arch ++ new.map fun p => (p, fit p))).take c.narchive)[0]? with
    | none => rfl
    | some top =>
      cases listMin (new.map fit) with
      | error e => rfl
      | ok mn => simp [Except.map, mapState, onSnd]

theorem run_map (hm : StrictMono h) (c : Conf K) (fit : List K → K) (dr : ℕ → ℕ → ℕ → Draw K) (pos0 : List (List K)) (g : ℕ) :
    run c (fun x => h (fit x)) dr pos0 g = (run c fit dr pos0 g).map (mapState h) := by
  induction g with
  | zero =>
    have e1 : (pos0.map fun p => (p, h (fit p))) = (pos0.map fun p => (p, fit p)).map (onSnd h) := by simp [onSnd, Function.comp_def]
    simp only [run, e1, Except.map, mapState]
    rw [sortAsc_map (fun a b => by simp [onSnd, hm.le_iff_le])]
    rfl
  | succ g ih =>
    simp only [run, ih]
    cases run c fit dr pos0 g with
    | error e => rfl
    | ok s => exact gen_map hm c fit (dr g) s

theorem evolute_map {m m' : Bool} {g : K → K} (hk : Keeps m m' g) (c : Conf K) (f : List K → K) (dr : ℕ → ℕ → ℕ → Draw K)
    (pos0 : List (List K)) : evolute c m' (fun x => g (f x)) dr pos0 = (evolute c m f dr pos0).map (mapResult g) := by
  unfold evolute
  by_cases h0 : ¬ c.narchive ≤ c.nants
  · simp only [if_pos h0]; rfl
  simp only [if_neg h0]
  by_cases h1 : pos0.length ≠ c.nants
  · simp only [if_pos h1]; rfl
  simp only [if_neg h1]
  have e : (fun x => sgn m' (g (f x))) = fun x => inner m m' g (sgn m (f x)) := by funext x; rw [inner_sgn]
  rw [e, run_map (inner_mono hk)]
  cases run c (fun x => sgn m (f x)) dr pos0 c.ngen with
  | error e => rfl
  | ok s =>
    simp only [Except.map, mapState, List.getElem?_map]
    by_cases h2 : c.ngen = 0
    · simp only [if_pos h2]
    simp only [if_neg h2]
    cases s.arch[0]? with
    | none => rfl
    | some top => simp [mapResult, sgn_inner, onSnd, Function.comp_def]

end ACO

/-! ### HHO -/

namespace HHO
open Neorl.HHO

def mapState (h : K → K) (s : State K) : State K :=
  { s with rabbit := GWO.onTop h s.rabbit, scores := s.scores.map h, last := s.last.map (onSnd h) }

def mapResult (h : K → K) (r : Result K) : Result K :=
  { r with y := h r.y, global := r.global.map h, locals := r.locals.map h, lastPop := r.lastPop.map (onSnd h) }

theorem updHawk_map (hm : StrictMono h) (c : Conf K) (fit : List K → K) (t : ℕ) (E1 : K) (d : Draw K) (rabbit : List K) (hf : K)
    (pop : List (List K)) (row : List K) :
    updHawk c (fun x => h (fit x)) t E1 d rabbit (h hf) pop row = updHawk c fit t E1 d rabbit hf pop row := by
  unfold updHawk dive
  simp only [hm.lt_iff_lt]

theorem updTo_map (hm : StrictMono h) (c : Conf K) (fit : List K → K) (t : ℕ) (E1 : K) (dr : ℕ → Draw K) (rabbit : List K) (fits : List K)
    (i : ℕ) (pop : List (List K)) :
    updTo c (fun x => h (fit x)) t E1 dr rabbit (fits.map h) i pop = updTo c fit t E1 dr rabbit fits i pop := by
  induction i with
  | zero => rfl
  | succ i ih =>
    simp only [updTo, ih, List.getElem?_map]
    rcases updTo c fit t E1 dr rabbit fits i pop with e | ⟨p, ev⟩
    · rfl
    · simp only
      cases p[i]? with
      | none => rfl
      | some row =>
        cases fits[i]? with
        | none => rfl
        | some hf => simp only [Option.map_some, updHawk_map hm]

theorem gen_map (hm : StrictMono h) (c : Conf K) (fit : List K → K) (t : ℕ) (dr : ℕ → Draw K) (s : State K) :
    gen c (fun x => h (fit x)) t dr (mapState h s) = (gen c fit t dr s).map (mapState h) := by
  unfold gen
  cases coefE1 c t with
  | error e => rfl
  | ok E1 =>
    simp only [mapState, GWO.onTop, updAll_map hm (fun p => fit (c.S.clip p)), Swarm.select_map hm (fun p => fit (c.S.clip p))]
    have e2 : (s.pos.map fun p => h (fit (c.S.clip p))) = (s.pos.map fun p => fit (c.S.clip p)).map h := by simp
    rw [e2, updTo_map hm]
    cases Neorl.Swarm.select (fun p => fit (c.S.clip p)) s.pos with
    | error e => rfl
    | ok b =>
      simp only [Except.map]
      rcases updTo c fit t E1 dr (updAll (fun p => fit (c.S.clip p)) s.rabbit s.pos).2 (s.pos.map fun p => fit (c.S.clip p)) c.nhawks s.pos
        with e | ⟨p, ev⟩
      · rfl
      · simp only
        cases mapRows (fun i row => repair c t (dr i).dF row) 0 p with
        | error e => rfl
        | ok pos' => simp [mapState, GWO.onTop, onFst, onSnd, Function.comp_def]

theorem run_map (hm : StrictMono h) (c : Conf K) (fit : List K → K) (dr : ℕ → ℕ → Draw K) (pos0 : List (List K)) (g : ℕ) :
    run c (fun x => h (fit x)) dr pos0 g = (run c fit dr pos0 g).map (mapState h) := by
  induction g with
  | zero => simp [run, Except.map, mapState, GWO.onTop]
  | succ g ih =>
    simp only [run, ih]
    cases run c fit dr pos0 g with
    | error e => rfl
    | ok s => exact gen_map hm c fit g (dr g) s

theorem evolute_map {m m' : Bool} {g : K → K} (hk : Keeps m m' g) (c : Conf K) (f : List K → K) (dr : ℕ → ℕ → Draw K) (pos0 : List (List K)) :
    evolute c m' (fun x => g (f x)) dr pos0 = (evolute c m f dr pos0).map (mapResult g) := by
  have e0 : ∀ (n : Bool) (l : List K), (if n then l else l.map fun v => -v) = l.map (sgn n) := by
    intro n l
    cases n
    · rw [show sgn (K := K) false = fun v => -v by funext v; simp [sgn]]; simp
    · rw [show sgn (K := K) true = fun v => v by funext v; simp [sgn]]; simp
  have e1 : ∀ (n : Bool) (l : List K), (if n then accMin l else accMax l) = acc n l := fun n l => rfl
  unfold evolute
  by_cases h1 : pos0.length ≠ c.nhawks
  · simp only [if_pos h1]; rfl
  simp only [if_neg h1, e0, e1]
  have e : (fun x => sgn m' (g (f x))) = fun x => inner m m' g (sgn m (f x)) := by funext x; rw [inner_sgn]
  rw [e, run_map (inner_mono hk)]
  cases run c (fun x => sgn m (f x)) dr pos0 c.ngen with
  | error e => rfl
  | ok s =>
    simp only [Except.map, mapState, GWO.onTop, outScore_inner]
    cases outScore m s.rabbit.1 with
    | none => rfl
    | some y =>
      have e3 : (s.scores.map (inner m m' g)).map (sgn m') = (s.scores.map (sgn m)).map g := by simp [sgn_inner]
      simp only [e3, acc_map hk]
      simp [mapResult, sgn_inner, onSnd, Function.comp_def]

end HHO

/-! ### BAT -/

namespace BAT
open Neorl.BAT

def mapState (h : K → K) (s : State K) : State K :=
  { s with best := GWO.onTop h s.best, global := s.global.map (WithTop.map h), locals := s.locals.map h }

def mapResult (h : K → K) (r : Result K) : Result K :=
  { r with y := h r.y, global := r.global.map (Option.map h), locals := r.locals.map h, lastPop := r.lastPop.map (onSnd h) }

theorem accept_map (hm : StrictMono h) (s : K × List K) (b : WithTop K × List K) :
    accept (onFst h s) (GWO.onTop h b) = GWO.onTop h (accept s b) := by
  simp only [accept, onFst, GWO.onTop, map_le_coe hm]
  split_ifs <;> simp

theorem stage_map (hm : StrictMono h) (c : Conf K) (fit : List K → K) (mv : List K → ℕ → List (List K) → List K → Py (List K))
    (pos : List (List K)) (best : WithTop K × List K) :
    stage c (fun x => h (fit x)) mv pos (GWO.onTop h best)
      = (stage c fit mv pos best).map fun r => (r.1, onFst h r.2.1, GWO.onTop h r.2.2) := by
  unfold stage
  rw [show (GWO.onTop h best).2 = best.2 from rfl]
  cases Neorl.sweep (mv best.2) c.nbats pos with
  | error e => rfl
  | ok pos' =>
    simp only [Swarm.select_map hm (fun p => fit (c.S.clip p))]
    cases Neorl.Swarm.select (fun p => fit (c.S.clip p)) pos' with
    | error e => rfl
    | ok s => simp [Except.map, accept_map hm]

theorem gen_map (hm : StrictMono h) (c : Conf K) (fit : List K → K) (l : ℕ) (dr : ℕ → Draw K) (s : State K) :
    gen c (fun x => h (fit x)) l dr (mapState h s) = (gen c fit l dr s).map (mapState h) := by
  unfold gen
  simp only [mapState, stage_map hm]
  rcases stage c fit (stage1 c l dr) s.pos s.best with e | ⟨p1, s1, b1⟩
  · rfl
  simp only [Except.map, stage_map hm]
  rcases stage c fit (stage2 c l s.A s.r dr) p1 b1 with e | ⟨p2, s2, b2⟩
  · rfl
  simp only [Except.map, stage_map hm]
  rcases stage c fit (stage3 c l s.A s.r dr) p2 b2 with e | ⟨p3, s3, b3⟩
  · rfl
  have e : min (min (h s1.1) (h s2.1)) (h s3.1) = h (min (min s1.1 s2.1) s3.1) := by simp only [hm.monotone.map_min]
  simp only [onFst, GWO.onTop, e, map_le_coe hm]
  simp [mapState, GWO.onTop]

theorem run_map (hm : StrictMono h) (c : Conf K) (fit : List K → K) (dr : ℕ → ℕ → Draw K) (pos0 : List (List K)) (g : ℕ) :
    run c (fun x => h (fit x)) dr pos0 g = (run c fit dr pos0 g).map (mapState h) := by
  induction g with
  | zero =>
    simp only [run, Swarm.select_map hm (fun p => fit (c.S.clip p))]
    cases Neorl.Swarm.select (fun p => fit (c.S.clip p)) pos0 with
    | error e => rfl
    | ok s => simp [Except.map, mapState, GWO.onTop, onFst]
  | succ g ih =>
    simp only [run, ih]
    cases run c fit dr pos0 g with
    | error e => rfl
    | ok s => exact gen_map hm c fit g (dr g) s

theorem evolute_map {m m' : Bool} {g : K → K} (hk : Keeps m m' g) (c : Conf K) (f : List K → K) (dr : ℕ → ℕ → Draw K) (pos0 : List (List K)) :
    evolute c m' (fun x => g (f x)) dr pos0 = (evolute c m f dr pos0).map (mapResult g) := by
  unfold evolute
  by_cases h1 : pos0.length ≠ c.nbats
  · simp only [if_pos h1]; rfl
  simp only [if_neg h1]
  have e : (fun x => sgn m' (g (f x))) = fun x => inner m m' g (sgn m (f x)) := by funext x; rw [inner_sgn]
  rw [e, run_map (inner_mono hk)]
  cases run c (fun x => sgn m (f x)) dr pos0 c.ngen with
  | error e => rfl
  | ok s =>
    simp only [Except.map, mapState, GWO.onTop, outScore_inner]
    cases outScore m s.best.1 with
    | none => rfl
    | some y => simp [mapResult, sgn_inner, onSnd, Function.comp_def, outScore_inner]

end BAT

/-! ### MFO -/

namespace MFO
open Neorl.MFO

/-- What is assumed of the sort beyond `SortOK`: it looks at the fitness through comparisons only. -/
def SortCmp (srt : List (List K × K) → List (List K × K)) : Prop :=
  ∀ (h : K → K), StrictMono h → ∀ l, srt (l.map (onSnd h)) = (srt l).map (onSnd h)

def mapState (h : K → K) (s : State K) : State K :=
  { s with best := GWO.onTop h s.best, flames := s.flames.map (onSnd h), prev := s.prev.map (onSnd h),
           global := s.global.map (WithTop.map h), locals := s.locals.map h }

def mapResult (h : K → K) (r : Result K) : Result K :=
  { r with y := h r.y, global := r.global.map (Option.map h), locals := r.locals.map h, lastPop := r.lastPop.map (onSnd h) }

theorem gen_map (hm : StrictMono h) (c : Conf K) (hs : SortCmp c.srt) (fit : List K → K) (g : ℕ) (dr : ℕ → Draw K) (s : State K) :
    gen c (fun x => h (fit x)) g dr (mapState h s) = (gen c fit g dr s).map (mapState h) := by
  unfold gen
  simp only [mapState, GWO.onTop, updAll_map hm (fun p => fit (c.S.clip p))]
  have e1 : (s.pos.map fun p => (p, h (fit (c.S.clip p)))) = (s.pos.map fun p => (p, fit (c.S.clip p))).map (onSnd h) := by
    simp [onSnd, Function.comp_def]
  have e2 : (if g = 0 then c.srt ((s.pos.map fun p => (p, fit (c.S.clip p))).map (onSnd h))
        else (c.srt (s.prev.map (onSnd h) ++ s.flames.map (onSnd h))).take c.nmoths)
      = (if g = 0 then c.srt (s.pos.map fun p => (p, fit (c.S.clip p))) else (c.srt (s.prev ++ s.flames)).take c.nmoths).map (onSnd h) := by
    split_ifs
    · exact hs h hm _
    · rw [← List.map_append, hs h hm, List.map_take]
  rw [e1, e2]
  generalize (if g = 0 then c.srt (s.pos.map fun p => (p, fit (c.S.clip p))) else (c.srt (s.prev ++ s.flames)).take c.nmoths) = fl
  rw [List.getElem?_map]
  cases fl[0]? with
  | none => rfl
  | some top =>
    simp only [Option.map_some]
    cases coefR c g with
    | error e => rfl
    | ok r =>
      have e3 : moveMoth c g r (fl.map (onSnd h)) dr = moveMoth c g r fl dr := by
        funext i row
        simp only [moveMoth, List.getElem?_map]
        cases fl[flameIdx c.nmoths c.ngen g i]? <;> rfl
      simp only [e3]
      cases mapRows (moveMoth c g r fl dr) 0 s.pos with
      | error e => rfl
      | ok pos => simp [Except.map, mapState, GWO.onTop, onSnd, Function.comp_def]

theorem run_map (hm : StrictMono h) (c : Conf K) (hs : SortCmp c.srt) (fit : List K → K) (dr : ℕ → ℕ → Draw K) (pos0 : List (List K)) (g : ℕ) :
    run c (fun x => h (fit x)) dr pos0 g = (run c fit dr pos0 g).map (mapState h) := by
  induction g with
  | zero => simp [run, Except.map, mapState, GWO.onTop]
  | succ g ih =>
    simp only [run, ih]
    cases run c fit dr pos0 g with
    | error e => rfl
    | ok s => exact gen_map hm c hs fit g (dr g) s

theorem evolute_map {m m' : Bool} {g : K → K} (hk : Keeps m m' g) (c : Conf K) (hs : SortCmp c.srt) (f : List K → K) (dr : ℕ → ℕ → Draw K)
    (pos0 : List (List K)) : evolute c m' (fun x => g (f x)) dr pos0 = (evolute c m f dr pos0).map (mapResult g) := by
  unfold evolute
  by_cases h1 : pos0.length ≠ c.nmoths
  · simp only [if_pos h1]; rfl
  simp only [if_neg h1]
  have e : (fun x => sgn m' (g (f x))) = fun x => inner m m' g (sgn m (f x)) := by funext x; rw [inner_sgn]
  rw [e, run_map (inner_mono hk) c hs]
  cases run c (fun x => sgn m (f x)) dr pos0 c.ngen with
  | error e => rfl
  | ok s =>
    simp only [Except.map, mapState, GWO.onTop, outScore_inner]
    cases outScore m s.best.1 with
    | none => rfl
    | some y => simp [mapResult, sgn_inner, onSnd, Function.comp_def, outScore_inner]

theorem sortCmp_stable : SortCmp (sortAsc fun a : List K × K => a.2) := by
  intro h hm l
  exact sortAsc_map (fun a b => by simp [onSnd, hm.le_iff_le]) l

end MFO

/-! ### ES -/

namespace ES
open Neorl.ES

def onInd (h : K → K) (e : Ind K) : Ind K := { e with fit := h e.fit }

def mapState (h : K → K) (s : State K) : State K :=
  { s with pop := s.pop.map (onInd h), best := s.best.map (onSnd h), scores := s.scores.map h, last := s.last.map (onSnd h) }

def mapResult (h : K → K) (r : Result K) : Result K :=
  { r with y := h r.y, global := r.global.map h, locals := r.locals.map h, lastPop := r.lastPop.map (onSnd h) }

theorem genOne_map (c : Conf K) (d : Draw K) (pop : List (Ind K)) :
    genOne c d (pop.map (onInd h)) = (genOne c d pop).map fun r => (r.1, r.2.map (onInd h)) := by
  unfold genOne
  simp only [List.length_map, List.getElem?_map]
  by_cases h1 : d.rn < c.cxpb
  · simp only [if_pos h1]
    by_cases h2 : pop.length < 2
    · simp only [if_pos h2]; rfl
    simp only [if_neg h2]
    cases pop[d.i1 % pop.length]? with
    | none => rfl
    | some p =>
      cases pop[(d.i1 % pop.length + 1 + d.i2 % (pop.length - 1)) % pop.length]? with
      | none => rfl
      | some q =>
        simp only [Option.map_some, onInd]
        by_cases h3 : c.blend = true
        · simp only [if_pos h3]; rfl
        · simp only [if_neg h3]
          cases cx2point d.a d.b p.ind q.ind p.strat q.strat <;> rfl
  · simp only [if_neg h1]
    by_cases h2 : d.rn < c.cxpb + c.mutpb
    · simp only [if_pos h2]
      by_cases h3 : pop.length = 0
      · simp only [if_pos h3]; rfl
      simp only [if_neg h3]
      cases pop[d.i1 % pop.length]? with
      | none => rfl
      | some p =>
        simp only [Option.map_some, onInd]
        cases mutES c.S c.smin c.smax d.md p.ind p.strat <;> rfl
    · simp only [if_neg h2]
      by_cases h3 : pop.length = 0
      · simp only [if_pos h3]; rfl
      simp only [if_neg h3]
      cases pop[d.i1 % pop.length]? with
      | none => rfl
      | some p => simp [Except.map, onInd, List.map_set]

theorem genLoop_map (c : Conf K) (dr : ℕ → Draw K) (i k : ℕ) (pop : List (Ind K)) :
    genLoop c dr i k (pop.map (onInd h)) = genLoop c dr i k pop := by
  induction k generalizing i pop with
  | zero => rfl
  | succ k ih =>
    simp only [genLoop, genOne_map]
    rcases genOne c (dr i) pop with e | ⟨o, pop'⟩
    · rfl
    · simp only [Except.map, ih]

theorem select_map (hm : StrictMono h) (k : ℕ) (pop : List (Ind K)) : select k (pop.map (onInd h)) = (select k pop).map (onInd h) := by
  unfold select
  rw [sortDesc_map (fun a b => by simp [onInd, hm.le_iff_le]), List.map_take]

theorem replFirst_map (vs : List (List K)) (es : List (Ind K)) : replFirst vs (es.map (onInd h)) = (replFirst vs es).map (onInd h) := by
  induction vs generalizing es with
  | nil => cases es <;> rfl
  | cons v vs ih =>
    cases es with
    | nil => rfl
    | cons e es => simp only [List.map_cons, replFirst, ih]; rfl

theorem mixRL_map (rl : List (List K)) (pop : List (Ind K)) : mixRL rl (pop.map (onInd h)) = (mixRL rl pop).map (List.map (onInd h)) := by
  unfold mixRL
  simp only [List.length_map, ← List.map_reverse, replFirst_map]
  split_ifs <;> simp [Except.map]

theorem firstMax_map (hm : StrictMono h) (l : List (Ind K)) : firstMax (l.map (onInd h)) = (firstMax l).map (onInd h) := by
  induction l with
  | nil => rfl
  | cons e l ih =>
    simp only [List.map_cons, firstMax, ih]
    cases firstMax l with
    | none => rfl
    | some b =>
      simp only [Option.map_some, onInd, gt_iff_lt, hm.lt_iff_lt]
      split_ifs <;> rfl

theorem gen_map (hm : StrictMono h) (c : Conf K) (fit : List K → K) (dr : ℕ → Draw K) (rl : List (List K)) (s : State K) :
    gen c (fun x => h (fit x)) dr rl (mapState h s) = (gen c fit dr rl s).map (mapState h) := by
  unfold gen genOffspring
  simp only [mapState, genLoop_map]
  cases genLoop c dr 0 c.lam s.pop with
  | error e => rfl
  | ok os0 =>
    simp only
    generalize (if c.clip then os0.map (fun o => (o.1, clipS c.smin c.smax o.2)) else os0) = os
    have e1 : (os.map fun o => ({ ind := o.1, strat := o.2, fit := h (fit o.1) } : Ind K))
        = (os.map fun o => ({ ind := o.1, strat := o.2, fit := fit o.1 } : Ind K)).map (onInd h) := by simp [onInd, Function.comp_def]
    rw [e1, select_map hm, mixRL_map]
    cases mixRL rl (select c.mu (os.map fun o => ({ ind := o.1, strat := o.2, fit := fit o.1 } : Ind K))) with
    | error e => rfl
    | ok pop =>
      simp only [Except.map, firstMax_map hm]
      cases firstMax pop with
      | none => rfl
      | some b =>
        simp only [Option.map_some]
        cases hb : s.best with
        | none => simp [mapState, onInd, onSnd, Function.comp_def]
        | some o =>
          simp only [Option.map_some, onSnd, onInd, gt_iff_lt, hm.lt_iff_lt]
          by_cases h3 : o.2 < b.fit
          · simp [h3, mapState, onSnd, Function.comp_def]
          · simp [h3, mapState, onSnd, Function.comp_def]

theorem run_map (hm : StrictMono h) (c : Conf K) (fit : List K → K) (dr : ℕ → ℕ → Draw K) (rl : ℕ → List (List K))
    (pop0 : List (List K × List K)) (g : ℕ) : run c (fun x => h (fit x)) dr rl pop0 g = (run c fit dr rl pop0 g).map (mapState h) := by
  induction g with
  | zero => simp [run, Except.map, mapState, onInd, Function.comp_def]
  | succ g ih =>
    simp only [run, ih]
    cases run c fit dr rl pop0 g with
    | error e => rfl
    | ok s => exact gen_map hm c fit (dr g) (rl g) s

theorem evolute_map {m m' : Bool} {g : K → K} (hk : Keeps m m' g) (c : Conf K) (f : List K → K) (dr : ℕ → ℕ → Draw K) (rl : ℕ → List (List K))
    (pop0 : List (List K × List K)) :
    evolute c m' (fun x => g (f x)) dr rl pop0 = (evolute c m f dr rl pop0).map (mapResult g) := by
  unfold evolute
  by_cases h1 : ¬ c.mu ≤ c.lam ∨ ¬ c.cxpb + c.mutpb ≤ 1 ∨ pop0.length ≠ c.lam
  · simp only [if_pos h1]; rfl
  simp only [if_neg h1]
  have e : (fun x => sgn (!m') (g (f x))) = fun x => inner (!m) (!m') g (sgn (!m) (f x)) := by funext x; rw [inner_sgn]
  rw [e, run_map (inner_mono' hk)]
  cases run c (fun x => sgn (!m) (f x)) dr rl pop0 c.ngen with
  | error e => rfl
  | ok s =>
    simp only [Except.map, mapState]
    cases s.best with
    | none => rfl
    | some b =>
      have e3 : (s.scores.map (inner (!m) (!m') g)).map (sgn (!m')) = (s.scores.map (sgn (!m))).map g := by simp [sgn_inner]
      simp only [Option.map_some, e3, acc_map hk]
      simp [mapResult, sgn_inner, onSnd, Function.comp_def]

end ES

/-! ### PSO, unless the speeds use the ratio of fitnesses -/

namespace PSO
open Neorl.PSO

def mapState (h : K → K) (s : State K) : State K :=
  { s with mem := s.mem.map (onSnd h), swm := onSnd h s.swm, scores := s.scores.map h }

def mapResult (h : K → K) (r : Result K) : Result K :=
  { r with y := h r.y, global := r.global.map h, locals := r.locals.map h, lastPop := r.lastPop.map (onSnd h) }

theorem mapRows_map {A B C : Type} (F : ℕ → B → Py C) (φ : A → B) (i : ℕ) (l : List A) :
    mapRows F i (l.map φ) = mapRows (fun i a => F i (φ a)) i l := by
  induction l generalizing i with
  | nil => rfl
  | cons a l ih => simp only [List.map_cons, mapRows, ih]

theorem genSwarm_map (c : Conf K) (hg : c.mech ≠ .globw) (w : K) (swm : List K × K) (dr : ℕ → Draw K) (sw : List (Neorl.PSO.Part K))
    (mem : List (List K × K)) :
    genSwarm c w (onSnd h swm) dr (sw.zip (mem.map (onSnd h))) = genSwarm c w swm dr (sw.zip mem) := by
  unfold genSwarm
  rw [List.zip_map_right, mapRows_map]
  congr 1
  funext i pl
  simp only [updateParticle, Prod.map, onSnd, id]
  have e : ∀ s l, newVel c w (h s) (h l) = newVel c w s l := by
    intro s l; funext d i x v lp sp
    unfold newVel
    cases hmech : c.mech <;> simp_all
  simp only [e]

theorem evalLoop_map (hm : StrictMono h) (f : List K → K) (ps : List (List K)) (ls : List (List K × K)) (g : List K × K) :
    evalLoop (fun x => h (f x)) ps (ls.map (onSnd h)) (onSnd h g)
      = ((evalLoop f ps ls g).1.map (onSnd h), onSnd h (evalLoop f ps ls g).2) := by
  induction ps generalizing ls g with
  | nil => cases ls <;> rfl
  | cons p ps ih =>
    cases ls with
    | nil => rfl
    | cons l ls =>
      have e : (if h (f p) > (onSnd h g).2 then (p, h (f p)) else onSnd h g) = onSnd h (if f p > g.2 then (p, f p) else g) := by
        simp only [onSnd, gt_iff_lt, hm.lt_iff_lt]
        split_ifs <;> rfl
      have e2 : h (f p) > (onSnd h l).2 ↔ f p > l.2 := by simp [onSnd, hm.lt_iff_lt]
      simp only [List.map_cons, evalLoop, e, ih, e2]
      split_ifs <;> rfl

theorem listMax_map (hm : StrictMono h) (l : List K) : listMax (l.map h) = (listMax l).map h := by
  cases l with
  | nil => rfl
  | cons v l => simp [listMax, foldl_max_map hm, Except.map]

theorem gen_map (hm : StrictMono h) (c : Conf K) (hg : c.mech ≠ .globw) (fit : List K → K) (g : ℕ) (dr : ℕ → Draw K) (s : State K) :
    gen c (fun x => h (fit x)) g dr (mapState h s) = (gen c fit g dr s).map (mapState h) := by
  unfold gen
  simp only [mapState, genSwarm_map c hg]
  cases genSwarm c s.w s.swm dr (s.swarm.zip s.mem) with
  | error e => rfl
  | ok off =>
    simp only [evalLoop_map hm (fun p => fit (c.S.clip p))]
    cases nextW c g s.w with
    | error e => rfl
    | ok w =>
      have e2 : ((off.map fun p => p.pos).map fun p => h (fit (c.S.clip p))) = ((off.map fun p => p.pos).map fun p => fit (c.S.clip p)).map h := by
        simp
      simp only [e2, listMax_map hm]
      cases listMax ((off.map fun p => p.pos).map fun p => fit (c.S.clip p)) with
      | error e => rfl
      | ok mx => simp [Except.map, mapState]

theorem init_map (hm : StrictMono h) (c : Conf K) (fit : List K → K) (pos0 : List (List K)) :
    init c (fun x => h (fit x)) pos0 = (init c fit pos0).map (mapState h) := by
  unfold init
  have e1 : (pos0.map fun p => (p, h (fit (c.S.clip p)))) = (pos0.map fun p => (p, fit (c.S.clip p))).map (onSnd h) := by
    simp [onSnd, Function.comp_def]
  simp only [e1]
  rw [sortDesc_map (fun a b => by simp [onSnd, hm.le_iff_le]), List.head?_map]
  cases (sortDesc (fun e : List K × K => e.2) (pos0.map fun p => (p, fit (c.S.clip p)))).head? <;> rfl

theorem run_map (hm : StrictMono h) (c : Conf K) (hg : c.mech ≠ .globw) (fit : List K → K) (dr : ℕ → ℕ → Draw K) (pos0 : List (List K))
    (g : ℕ) : run c (fun x => h (fit x)) dr pos0 g = (run c fit dr pos0 g).map (mapState h) := by
  induction g with
  | zero => exact init_map hm c fit pos0
  | succ g ih =>
    simp only [run, ih]
    cases run c fit dr pos0 g with
    | error e => rfl
    | ok s => exact gen_map hm c hg fit g (dr g) s

theorem evolute_map {m m' : Bool} {g : K → K} (hk : Keeps m m' g) (c : Conf K) (hg : c.mech ≠ .globw) (f : List K → K)
    (dr : ℕ → ℕ → Draw K) (pos0 : List (List K)) :
    evolute c m' (fun x => g (f x)) dr pos0 = (evolute c m f dr pos0).map (mapResult g) := by
  unfold evolute
  by_cases h1 : pos0.length ≠ c.npar
  · simp only [if_pos h1]; rfl
  simp only [if_neg h1]
  have e : (fun x => sgn (!m') (g (f x))) = fun x => inner (!m) (!m') g (sgn (!m) (f x)) := by funext x; rw [inner_sgn]
  rw [e, run_map (inner_mono' hk) c hg]
  cases run c (fun x => sgn (!m) (f x)) dr pos0 c.ngen with
  | error e => rfl
  | ok s =>
    simp only [Except.map, mapState]
    by_cases h2 : c.ngen = 0
    · simp only [if_pos h2]
    simp only [if_neg h2]
    have e3 : (s.scores.map (inner (!m) (!m') g)).map (sgn (!m')) = (s.scores.map (sgn (!m))).map g := by simp [sgn_inner]
    have e4 : (s.swarm.map fun p => (p.pos, sgn (!m') (g (f (c.S.clip p.pos)))))
        = (s.swarm.map fun p => (p.pos, sgn (!m) (f (c.S.clip p.pos)))).map (onSnd (inner (!m) (!m') g)) := by
      simp [onSnd, Function.comp_def, inner_sgn]
    simp only [e3, acc_map hk, e4]
    rw [sortDesc_map (fun a b => by simp [onSnd, (inner_mono' hk).le_iff_le])]
    simp only [← List.map_take]
    simp [mapResult, sgn_inner, onSnd, Function.comp_def]

end PSO

/-! ### XNES, with at least two samples -/

namespace XNES
open Neorl.XNES

/-- What is assumed of `argsort`: it looks at the values through comparisons only. -/
def ArgsortCmp (argsort : List K → List ℕ) : Prop := ∀ (h : K → K), StrictMono h → ∀ l, argsort (l.map h) = argsort l

/-- Two objects that agree but for a change of the recorded fitnesses (the position `muBest` and the counter of stagnation, which nothing
reads, are left out). -/
structure Rel {n : ℕ} (h : K → K) (o o' : Obj K n) : Prop where
  best : o'.best = o.best.map (onSnd h)
  hist : o'.hist = o.hist.map h
  sigma : o'.sigma = o.sigma
  bmat : o'.bmat = o.bmat
  eta : o'.eta = o.eta
  sigmaOld : o'.sigmaOld = o.sigmaOld
  mu : o'.mu = o.mu
  log : o'.log = o.log

def onItem {n : ℕ} (h : K → K) (t : Item K n) : Item K n := { t with f := h t.f }

theorem scan_map {n : ℕ} (hm : StrictMono h) (ts : List (Item K n)) (b : Option (List K × K)) :
    scan (b.map (onSnd h)) (ts.map (onItem h)) = (scan b ts).map (onSnd h) := by
  induction ts generalizing b with
  | nil => cases b <;> rfl
  | cons t ts ih =>
    cases b with
    | none =>
      simp only [Option.map_none, List.map_cons, scan]
      rw [← ih]; rfl
    | some b =>
      simp only [Option.map_some, List.map_cons, scan]
      rw [← ih]
      simp only [onItem, onSnd, gt_iff_lt, hm.lt_iff_lt, Option.map_some]
      split_ifs <;> rfl

theorem order_map {n : ℕ} (hm : StrictMono h) (c : Conf K n) (ha : ArgsortCmp c.argsort) (items : List (Item K n)) :
    order c (items.map (onItem h)) = (order c items).map (onItem h) := by
  unfold order
  have e : ((items.map (onItem h)).map fun t : Item K n => t.f) = (items.map fun t : Item K n => t.f).map h := by
    simp [onItem, Function.comp_def]
  rw [e, ha h hm, List.map_filterMap]
  simp only [List.getElem?_map]

theorem zip_map_items {n : ℕ} (u : List K) (ts : List (Item K n)) (F : K → (Fin n → K) → K) :
    ((u.zip (ts.map (onItem h))).map fun p : K × Item K n => F p.1 p.2.s) = (u.zip ts).map fun p : K × Item K n => F p.1 p.2.s := by
  rw [List.zip_map_right, List.map_map]
  rfl

theorem djDelta_map {n : ℕ} (u : List K) (ts : List (Item K n)) : djDelta u (ts.map (onItem h)) = djDelta u ts := by
  funext j
  unfold djDelta
  rw [zip_map_items u ts fun a s => a * s j]

theorem djM_map {n : ℕ} (u : List K) (ts : List (Item K n)) : djM u (ts.map (onItem h)) = djM u ts := by
  unfold djM
  congr 1
  congr 1
  funext i j
  rw [zip_map_items u ts fun a s => s i * (s j * a)]

theorem gen_rel {n : ℕ} (hm : StrictMono h) (c : Conf K n) (ha : ArgsortCmp c.argsort) (hn : c.npop ≠ 1) (fit : List K → K)
    (ss : List (Fin n → K)) {o o' : Obj K n} (r : Rel h o o') : Rel h (gen c fit ss o) (gen c (fun x => h (fit x)) ss o') := by
  have e1 : (ss.map fun s => let z := sample c o'.mu o'.sigma o'.bmat s; (⟨h (fit z), s, z⟩ : Item K n))
      = (ss.map fun s => let z := sample c o.mu o.sigma o.bmat s; (⟨fit z, s, z⟩ : Item K n)).map (onItem h) := by
    rw [r.mu, r.sigma, r.bmat]; simp [onItem, Function.comp_def]
  have e2 := order_map hm c ha (ss.map fun s => let z := sample c o.mu o.sigma o.bmat s; (⟨fit z, s, z⟩ : Item K n))
  rw [← e1] at e2
  have e3 := scan_map hm (order c (ss.map fun s => let z := sample c o.mu o.sigma o.bmat s; (⟨fit z, s, z⟩ : Item K n))) o.best
  rw [← e2, ← r.best] at e3
  have e4 : (((order c (ss.map fun s => let z := sample c o'.mu o'.sigma o'.bmat s; (⟨h (fit z), s, z⟩ : Item K n)))).map
      fun t : Item K n => t.z) = (order c (ss.map fun s => let z := sample c o.mu o.sigma o.bmat s; (⟨fit z, s, z⟩ : Item K n))).map
      fun t : Item K n => t.z := by
    rw [e2]; simp [onItem, Function.comp_def]
  have e5 : (gen c (fun x => h (fit x)) ss o').eta = (gen c fit ss o).eta := by
    simp only [gen]
    rw [e4, r.sigmaOld, r.eta, r.mu, r.sigma, r.bmat]
  refine ⟨e3, ?_, ?_, ?_, e5, ?_, ?_, ?_⟩
  · simp only [gen]
    rw [e3, r.hist]
    cases scan o.best (order c (ss.map fun s => (⟨fit (sample c o.mu o.sigma o.bmat s), s, sample c o.mu o.sigma o.bmat s⟩ : Item K n))) with
    | none => simp
    | some b => simp [onSnd]
  · have a : (gen c (fun x => h (fit x)) ss o').sigma = o'.sigma * c.expf ((1 / 2) * (gen c (fun x => h (fit x)) ss o').eta
        * djSigma c.util (order c (ss.map fun s => let z := sample c o'.mu o'.sigma o'.bmat s; (⟨h (fit z), s, z⟩ : Item K n)))) := by
      simp only [gen, if_neg hn]
    have b : (gen c fit ss o).sigma = o.sigma * c.expf ((1 / 2) * (gen c fit ss o).eta
        * djSigma c.util (order c (ss.map fun s => let z := sample c o.mu o.sigma o.bmat s; (⟨fit z, s, z⟩ : Item K n)))) := by
      simp only [gen, if_neg hn]
    rw [a, b, e5, e2, r.sigma]
    simp only [djSigma, djM_map]
  · simp only [gen, if_neg hn]
    rw [e2, r.bmat]
    simp only [djB, djSigma, djM_map]
  · simp only [gen]; rw [r.sigma]
  · simp only [gen, if_neg hn]
    rw [e2, r.bmat, r.mu, r.sigma]
    simp only [djDelta_map]
  · simp only [gen]
    rw [e1, r.log]
    simp [onItem, Function.comp_def]

theorem run_rel {n : ℕ} (hm : StrictMono h) (c : Conf K n) (ha : ArgsortCmp c.argsort) (hn : c.npop ≠ 1) (fit : List K → K)
    (dr : ℕ → List (Fin n → K)) {o o' : Obj K n} (r : Rel h o o') (k : ℕ) :
    Rel h (run c fit dr o k) (run c (fun x => h (fit x)) dr o' k) := by
  induction k with
  | zero => exact r
  | succ k ih => exact gen_rel hm c ha hn fit (dr k) ih

end XNES

/-! ### SA: only a shift of the fitness (and not with soft reinforcement) -/

namespace SA
open Neorl.SA

def shChain (b : K) (s : Chain K) : Chain K := { s with E := s.E + b, Eb := s.Eb + b }

def shState (b : K) (s : State K) : State K :=
  { s with starts := s.starts.map (onSnd (· + b)), opt := s.opt.map (onSnd (· + b)), fits := s.fits.map (· + b) }

def mapResult (h : K → K) (r : Result K) : Result K := { r with y := h r.y, fits := r.fits.map h }

theorem chainStep_sh (b : K) (S : Space K) (fit : List K → K) (accP : K → K → K) (temp : ℕ → K) (d : Draw K) (k : ℕ) (s : Chain K) :
    chainStep S (fun x => fit x + b) accP temp d k (shChain b s) = shChain b (chainStep S fit accP temp d k s) := by
  unfold chainStep shChain
  simp only [add_sub_add_right_eq_sub, gt_iff_lt, add_lt_add_iff_right]
  split_ifs <;> rfl

theorem chainLoop_sh (b : K) (S : Space K) (fit : List K → K) (accP : K → K → K) (temp : ℕ → K) (d : Draw K) (n k : ℕ) (s : Chain K) :
    chainLoop S (fun x => fit x + b) accP temp d n k (shChain b s) = shChain b (chainLoop S fit accP temp d n k s) := by
  induction n generalizing k s with
  | zero => rfl
  | succ n ih => simp only [chainLoop, chainStep_sh, ih]

theorem chains_sh (b : K) (c : Conf K) (fit : List K → K) (g : GDraw K) (step0 : ℕ) (starts : List (List K × K)) :
    chains c (fun x => fit x + b) g step0 (starts.map (onSnd (· + b))) = (chains c fit g step0 starts).map (shChain b) := by
  unfold chains
  rw [List.zip_map_right]
  refine List.ext_getElem? fun j => ?_
  simp only [List.getElem?_mapIdx, List.getElem?_map]
  cases ((ranges c.npop step0 c.ncores 1 step0).zip starts)[j]? with
  | none => rfl
  | some p =>
  refine congrArg some ?_
  exact chainLoop_sh b c.S fit c.accP (g.temp j) (g.core j) _ _ { x := p.2.1, E := p.2.2, xb := p.2.1, Eb := p.2.2, acc := 0, rej := 0, imp := 0, trace := [] }

theorem argmaxFrom_sh (b : K) (l : List K) (i : ℕ) (p : ℕ × K) :
    argmaxFrom i (onSnd (· + b) p) (l.map (· + b)) = onSnd (· + b) (argmaxFrom i p l) := by
  induction l generalizing i p with
  | nil => rfl
  | cons v l ih =>
    simp only [List.map_cons, argmaxFrom, gt_iff_lt]
    rw [← ih]
    simp only [onSnd, add_lt_add_iff_right]
    split_ifs <;> rfl

theorem argmax_sh (b : K) (l : List K) : argmax (l.map (· + b)) = (argmax l).map (onSnd (· + b)) := by
  cases l with
  | nil => rfl
  | cons v l =>
    have := argmaxFrom_sh b l 1 (0, v)
    simp only [onSnd] at this
    simp only [List.map_cons, argmax, this, Except.map, onSnd]

theorem gen_sh (b : K) (c : Conf K) (hr : c.reinforce ≠ .soft) (fit : List K → K) (g : GDraw K) (s : State K) :
    gen c (fun x => fit x + b) g (shState b s) = (gen c fit g s).map (shState b) := by
  unfold gen
  simp only [shState, chains_sh]
  by_cases h0 : s.stopped = true
  · simp only [if_pos h0]; rfl
  simp only [if_neg h0]
  generalize chains c fit g s.step0 s.starts = cs
  have e1 : ((cs.map (shChain b)).map fun s : Chain K => s.Eb) = (cs.map fun s : Chain K => s.Eb).map (· + b) := by
    simp [shChain, Function.comp_def]
  rw [e1, argmax_sh]
  cases argmax (cs.map fun s : Chain K => s.Eb) with
  | error e => rfl
  | ok am =>
    simp only [Except.map, onSnd, List.getElem?_map]
    cases cs[am.1]? with
    | none => rfl
    | some bb =>
      simp only [Option.map_some]
      have e2 : ((cs.map (shChain b)).map fun s : Chain K => s.acc) = cs.map fun s : Chain K => s.acc := by simp [shChain, Function.comp_def]
      have e3 : (cs.map (shChain b)).flatMap (fun s : Chain K => s.trace.map fun e : Entry K => e.cand)
          = cs.flatMap fun s : Chain K => s.trace.map fun e : Entry K => e.cand := by rw [List.flatMap_map]; rfl
      have e4 : (cs.map (shChain b)).flatMap (fun s : Chain K => s.trace.map fun e : Entry K => e.step)
          = cs.flatMap fun s : Chain K => s.trace.map fun e : Entry K => e.step := by rw [List.flatMap_map]; rfl
      have e5 : (match s.opt.map (onSnd (· + b)) with
          | none => ((shChain b bb).xb, am.2 + b)
          | some o => if am.2 + b > o.2 then ((shChain b bb).xb, am.2 + b) else o)
          = onSnd (· + b) (match s.opt with
          | none => (bb.xb, am.2)
          | some o => if am.2 > o.2 then (bb.xb, am.2) else o) := by
        cases s.opt with
        | none => rfl
        | some o =>
          simp only [Option.map_some, onSnd, gt_iff_lt, add_lt_add_iff_right]
          split_ifs <;> rfl
      simp only [onSnd] at e5
      simp only [e2, e3, e4]
      by_cases h1 : c.stop (cs.map fun s : Chain K => s.acc) = true
      · simp only [if_pos h1]
        cases ho : s.opt with
        | none => simp [shState, onSnd, shChain, ho]
        | some o =>
          by_cases h2 : o.2 < am.2 <;> simp [shState, onSnd, shChain, ho, h2]
      simp only [if_neg h1]
      cases hrf : c.reinforce with
      | soft => exact absurd hrf hr
      | no =>
        cases ho : s.opt with
        | none => simp [shState, onSnd, shChain, ho, Function.comp_def]
        | some o =>
          by_cases h2 : o.2 < am.2 <;> simp [shState, onSnd, shChain, ho, h2, Function.comp_def]
      | hard =>
        cases ho : s.opt with
        | none => simp [shState, onSnd, shChain, ho, Function.comp_def]
        | some o =>
          by_cases h2 : o.2 < am.2 <;> simp [shState, onSnd, shChain, ho, h2, Function.comp_def]

theorem run_sh (b : K) (c : Conf K) (hr : c.reinforce ≠ .soft) (fit : List K → K) (dr : ℕ → GDraw K) (x0 : List (List K)) (n : ℕ) :
    run c (fun x => fit x + b) dr x0 n = (run c fit dr x0 n).map (shState b) := by
  induction n with
  | zero => simp [run, init, Except.map, shState, onSnd, Function.comp_def]
  | succ n ih =>
    simp only [run, ih]
    cases run c fit dr x0 n with
    | error e => rfl
    | ok s => exact gen_sh b c hr fit (dr n) s

end SA

end

end Neorl.Compare

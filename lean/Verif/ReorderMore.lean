import Verif.Reorder
import Verif.RescaleMore

/-!
# Order of the variables, continued

GWO, WOA, SSA, MFO, CS, BAT and PSO, for C141.  No new code is modelled here.
-/

set_option linter.unusedSectionVars false
set_option linter.unusedVariables false
set_option linter.unusedSimpArgs false

namespace Neorl.Reorder

open Neorl.Rescale (Cont disc_cont)

section
variable {K : Type} [Field K] [LinearOrder K] [IsStrictOrderedRing K] [FloorRing K]

theorem map_pair {σ : ℕ → ℕ} {m : ℕ} {S : Space K} {f f' : List K → K} (h : Same σ m S f f') {l : List (List K)} (hl : Full S l) :
    (l.map (sel σ m)).map (fun x => (x, f' x)) = (l.map fun x => (x, f x)).map (p1 σ m) := by
  simp only [List.map_map]
  exact List.map_congr_left fun x hx => by simp [p1, h x (hl x hx)]

theorem getD_rows (σ : ℕ → ℕ) (m : ℕ) (pop : List (List K)) (i : ℕ) : (pop.map (sel σ m)).getD i [] = sel σ m (pop.getD i []) := by
  simp only [List.getD_eq_getElem?_getD, List.getElem?_map]
  cases pop[i]? with
  | none => exact (sel_nil σ m).symm
  | some x => rfl

/-- Entry `j` of a full row, or of a row that does not exist. -/
theorem rows_getD {σ : ℕ → ℕ} {m : ℕ} {S : Space K} (hσ : Within σ m S) {pop : List (List K)} (hp : Full S pop) (i : ℕ) {j : ℕ} (hj : j < m) :
    ((pop.map (sel σ m)).getD i []).getD j 0 = (pop.getD i []).getD (σ j) 0 := by
  rw [getD_rows]
  by_cases h : i < pop.length
  · have hl : (pop.getD i []).length = S.bounds.length := by
      rw [List.getD_eq_getElem?_getD, List.getElem?_eq_getElem h]
      exact hp _ (List.getElem_mem h)
    exact sel_getD 0 (hσ.at hl) hj
  · have : pop.getD i [] = [] := by simp [List.getD_eq_getElem?_getD, List.getElem?_eq_none (Nat.le_of_not_lt h)]
    rw [this, sel_nil]
    simp

/-! ### GWO -/

namespace GWO
open Neorl.GWO

def conf (σ : ℕ → ℕ) (m : ℕ) (c : Conf K) : Conf K := { c with S := space σ m c.S }

def draw (σ : ℕ → ℕ) (d : Draw K) : Draw K := { d with r := fun i j => d.r i (σ j) }

def mapLead (σ : ℕ → ℕ) (m : ℕ) (L : Lead K) : Lead K := { alpha := p2 σ m L.alpha, beta := p2 σ m L.beta, delta := p2 σ m L.delta }

def mapState (σ : ℕ → ℕ) (m : ℕ) (s : State K) : State K :=
  { s with pos := s.pos.map (sel σ m), lead := mapLead σ m s.lead, best := p2 σ m s.best, last := s.last.map (p1 σ m), log := s.log.map (sel σ m) }

/-- The answer in the new listing. -/
def mapResult (σ : ℕ → ℕ) (m : ℕ) (r : Result K) : Result K :=
  { r with x := sel σ m r.x, lastPop := r.lastPop.map (p1 σ m), log := r.log.map (sel σ m) }

theorem lead_sel (σ : ℕ → ℕ) (m : ℕ) (v : K) (p : List K) (L : Lead K) : lead v (sel σ m p) (mapLead σ m L) = mapLead σ m (lead v p L) := by
  have s1 : ∀ L : Lead K, step1 v (sel σ m p) (mapLead σ m L) = mapLead σ m (step1 v p L) := by
    intro L
    by_cases h : (v : WithTop K) < L.alpha.1 <;> simp [step1, mapLead, p2, h]
  have s2 : ∀ L : Lead K, step2 v (sel σ m p) (mapLead σ m L) = mapLead σ m (step2 v p L) := by
    intro L
    by_cases h : (v : WithTop K) > L.alpha.1 ∧ (v : WithTop K) < L.beta.1
    · have h' : (v : WithTop K) > (mapLead σ m L).alpha.1 ∧ (v : WithTop K) < (mapLead σ m L).beta.1 := h
      simp only [step2, if_pos h, if_pos h']; rfl
    · have h' : ¬ ((v : WithTop K) > (mapLead σ m L).alpha.1 ∧ (v : WithTop K) < (mapLead σ m L).beta.1) := h
      simp only [step2, if_neg h, if_neg h']
  have s3 : ∀ L : Lead K, step3 v (sel σ m p) (mapLead σ m L) = mapLead σ m (step3 v p L) := by
    intro L
    by_cases h : (v : WithTop K) > L.alpha.1 ∧ (v : WithTop K) > L.beta.1 ∧ (v : WithTop K) < L.delta.1
    · have h' : (v : WithTop K) > (mapLead σ m L).alpha.1 ∧ (v : WithTop K) > (mapLead σ m L).beta.1 ∧ (v : WithTop K) < (mapLead σ m L).delta.1 := h
      simp only [step3, if_pos h, if_pos h']; rfl
    · have h' : ¬ ((v : WithTop K) > (mapLead σ m L).alpha.1 ∧ (v : WithTop K) > (mapLead σ m L).beta.1 ∧ (v : WithTop K) < (mapLead σ m L).delta.1) := h
      simp only [step3, if_neg h, if_neg h']
  simp only [lead, s1, s2, s3]

theorem leadAll_sel {σ : ℕ → ℕ} {m : ℕ} {S : Space K} {f f' : List K → K} (hf : Same σ m S f f') {ps : List (List K)} (hp : Full S ps) (L : Lead K) :
    leadAll f' (mapLead σ m L) (ps.map (sel σ m)) = mapLead σ m (leadAll f L ps) := by
  induction ps generalizing L with
  | nil => rfl
  | cons p ps ih => simp only [List.map_cons, leadAll, hf p (hp p (by simp)), lead_sel, ih (fun y hy => hp y (by simp [hy]))]

/-- The three leaders have one entry per variable. -/
def LeadFull (S : Space K) (L : Lead K) : Prop :=
  L.alpha.2.length = S.bounds.length ∧ L.beta.2.length = S.bounds.length ∧ L.delta.2.length = S.bounds.length

theorem lead_full {S : Space K} (v : K) {p : List K} (hp : p.length = S.bounds.length) {L : Lead K} (h : LeadFull S L) : LeadFull S (lead v p L) := by
  have s1 : ∀ {L : Lead K}, LeadFull S L → LeadFull S (step1 v p L) := by
    intro L h
    unfold step1
    split_ifs
    · exact ⟨hp, h.1, h.2.1⟩
    · exact h
  have s2 : ∀ {L : Lead K}, LeadFull S L → LeadFull S (step2 v p L) := by
    intro L h
    unfold step2
    split_ifs
    · exact ⟨h.1, hp, h.2.1⟩
    · exact h
  have s3 : ∀ {L : Lead K}, LeadFull S L → LeadFull S (step3 v p L) := by
    intro L h
    unfold step3
    split_ifs
    · exact ⟨h.1, h.2.1, hp⟩
    · exact h
  exact s3 (s2 (s1 h))

theorem leadAll_full {S : Space K} (f : List K → K) {ps : List (List K)} (hp : Full S ps) {L : Lead K} (h : LeadFull S L) : LeadFull S (leadAll f L ps) := by
  induction ps generalizing L with
  | nil => exact h
  | cons p ps ih => exact ih (fun y hy => hp y (by simp [hy])) (lead_full _ (hp p (by simp)) h)

theorem moveRow_sel {σ : ℕ → ℕ} {m : ℕ} {S : Space K} (hσ : Within σ m S) (A : K) (r : ℕ → ℕ → K) {L : Lead K} (hL : LeadFull S L) (row : List K) :
    moveRow A (fun j => r (σ j)) (mapLead σ m L) (sel σ m row) = sel σ m (moveRow A r L row) := by
  unfold moveRow
  refine sel_mapIdx fun j x hj _ => ?_
  simp only [mapLead, p2]
  rw [sel_getD 0 (hσ.at hL.1) hj, sel_getD 0 (hσ.at hL.2.1) hj, sel_getD 0 (hσ.at hL.2.2) hj]

theorem gen_sel {σ : ℕ → ℕ} {m : ℕ} {c : Conf K} (hS : c.S.OK) (hc : Plain c.S) (hσ : Within σ m c.S) {f f' : List K → K} (hf : Same σ m c.S f f')
    (l : ℕ) (dr : Draw K) {s : State K} (hp : Full c.S s.pos) (hL : LeadFull c.S s.lead) :
    gen (conf σ m c) f' l (draw σ dr) (mapState σ m s) = (gen c f l dr s).map (mapState σ m) ∧
      ∀ s', gen c f l dr s = .ok s' → Full c.S s'.pos ∧ LeadFull c.S s'.lead := by
  unfold gen
  have hA : coefA (conf σ m c) l = coefA c l := rfl
  have hn : (conf σ m c).ngen = c.ngen := rfl
  have e0 : (conf σ m c).S = space σ m c.S := rfl
  simp only [hA, hn, e0, mapState, leadAll_sel (hf.clip hS) hp, updAll_sel (hf.clip hS) hp]
  cases coefA c l with
  | error e => exact ⟨rfl, fun s' h => by cases h⟩
  | ok A =>
    have hL' := leadAll_full (fun x => f (c.S.clip x)) hp hL
    revert hL'
    generalize leadAll (fun x => f (c.S.clip x)) s.lead s.pos = L
    intro hL'
    have hm := mapRows_sel (σ := σ) (m := m) (f := move c (1 - (l : K) * (1 / (c.ngen : K))) A dr L)
      (g := move (conf σ m c) (1 - (l : K) * (1 / (c.ngen : K))) A (draw σ dr) (mapLead σ m L)) hp (fun i x hx => by
        simp only [move, draw, moveRow_sel hσ A (dr.r i) hL']
        exact repair_sel hS hc hσ _ _ _ (by simp [moveRow, hx])) 0
    simp only [hm]
    cases hr : mapRows (move c (1 - (l : K) * (1 / (c.ngen : K))) A dr L) 0 s.pos with
    | error e => exact ⟨rfl, fun s' h => by cases h⟩
    | ok pos' =>
      refine ⟨?_, fun s' h => by cases h; exact ⟨mapRows_full hp (fun i x y hx e => disc_full hS hc (by simp [moveRow, hx]) e) hr, hL'⟩⟩
      simp only [Except.map, mapState, map_clip σ m hS, List.map_append, map_pair (hf.clip hS) hp]
      rfl

theorem run_sel {σ : ℕ → ℕ} {m : ℕ} {c : Conf K} (hS : c.S.OK) (hc : Plain c.S) (hσ : Within σ m c.S) {f f' : List K → K} (hf : Same σ m c.S f f')
    (dr : ℕ → Draw K) {pos0 : List (List K)} (hp : Full c.S pos0) (g : ℕ) :
    run (conf σ m c) f' (fun g => draw σ (dr g)) (pos0.map (sel σ m)) g = (run c f dr pos0 g).map (mapState σ m) ∧
      ∀ s', run c f dr pos0 g = .ok s' → Full c.S s'.pos ∧ LeadFull c.S s'.lead := by
  induction g with
  | zero =>
    refine ⟨?_, fun s' h => by cases h; exact ⟨hp, by simp [LeadFull, Lead.init]⟩⟩
    have e : (conf σ m c).S.bounds.length = m := bounds_length hσ
    simp [run, Except.map, mapState, mapLead, Lead.init, p2, e, sel_replicate hσ, sel_nil]
  | succ g ih =>
    simp only [run, ih.1]
    cases h : run c f dr pos0 g with
    | error e => exact ⟨rfl, fun s' h => by cases h⟩
    | ok s => exact gen_sel hS hc hσ hf g (dr g) (ih.2 s h).1 (ih.2 s h).2

theorem evolute_sel {σ : ℕ → ℕ} {m : ℕ} {c : Conf K} (hS : c.S.OK) (hc : Plain c.S) (hσ : Within σ m c.S) (b : Bool) {f f' : List K → K}
    (hf : Same σ m c.S f f') (dr : ℕ → Draw K) {pos0 : List (List K)} (hp : Full c.S pos0) :
    evolute (conf σ m c) b f' (fun g => draw σ (dr g)) (pos0.map (sel σ m)) = (evolute c b f dr pos0).map (mapResult σ m) := by
  unfold evolute
  have e1 : (conf σ m c).nwolves = c.nwolves := rfl
  have e2 : (conf σ m c).ngen = c.ngen := rfl
  rw [List.length_map, e1, e2]
  by_cases h1 : pos0.length ≠ c.nwolves
  · simp only [if_pos h1]; rfl
  simp only [if_neg h1, (run_sel hS hc hσ (hf.sgn b) dr hp _).1]
  cases run c (fun x => sgn b (f x)) dr pos0 c.ngen with
  | error e => rfl
  | ok s =>
    simp only [Except.map, mapState, p2]
    cases outScore b s.best.1 with
    | none => rfl
    | some y => simp [mapResult, p1, Function.comp_def]

end GWO

/-! ### WOA and SSA -/

namespace Swarm
open Neorl.Swarm

def mapState (σ : ℕ → ℕ) (m : ℕ) (s : State K) : State K :=
  { s with pos := s.pos.map (sel σ m), best := p2 σ m s.best, log := s.log.map (sel σ m) }

/-- The answer in the new listing. -/
def mapResult (σ : ℕ → ℕ) (m : ℕ) (r : Result K) : Result K :=
  { r with x := sel σ m r.x, lastPop := r.lastPop.map (p1 σ m), log := r.log.map (sel σ m) }

theorem better_sel {σ : ℕ → ℕ} {m : ℕ} {S : Space K} {f f' : List K → K} (hf : Same σ m S f f') {ps : List (List K)} (hp : Full S ps) (q : K × List K) :
    better f' (p2 σ m q) (ps.map (sel σ m)) = p2 σ m (better f q ps) := by
  induction ps generalizing q with
  | nil => rfl
  | cons p ps ih =>
    simp only [List.map_cons, better]
    rw [← ih (fun y hy => hp y (by simp [hy])), hf p (hp p (by simp))]
    congr 1
    by_cases h : f p < q.1 <;> simp [p2, h]

theorem better_full {S : Space K} (f : List K → K) {ps : List (List K)} (hp : Full S ps) {q : K × List K} (hq : q.2.length = S.bounds.length) :
    (better f q ps).2.length = S.bounds.length := by
  induction ps generalizing q with
  | nil => exact hq
  | cons p ps ih =>
    refine ih (fun y hy => hp y (by simp [hy])) ?_
    split_ifs
    · exact hp p (by simp)
    · exact hq

theorem select_sel {σ : ℕ → ℕ} {m : ℕ} {S : Space K} {f f' : List K → K} (hf : Same σ m S f f') {ps : List (List K)} (hp : Full S ps) :
    select f' (ps.map (sel σ m)) = (select f ps).map (p2 σ m) := by
  cases ps with
  | nil => rfl
  | cons p ps =>
    have := better_sel hf (ps := ps) (fun y hy => hp y (by simp [hy])) (f p, p)
    simp only [p2] at this
    simp only [List.map_cons, select, hf p (hp p (by simp)), this, Except.map, p2]

theorem select_full {S : Space K} {f : List K → K} {ps : List (List K)} (hp : Full S ps) {q : K × List K} (e : select f ps = .ok q) :
    q.2.length = S.bounds.length := by
  cases ps with
  | nil => cases e
  | cons p ps =>
    cases e
    exact better_full f (fun y hy => hp y (by simp [hy])) (hp p (by simp))

/-- A move that commutes with the listing on full rows, and keeps rows full. -/
def MoveSel (σ : ℕ → ℕ) (m : ℕ) (S : Space K) (mv mv' : Move K) : Prop :=
  ∀ k q ps, q.length = S.bounds.length → Full S ps →
    mv' k (sel σ m q) (ps.map (sel σ m)) = (mv k q ps).map (List.map (sel σ m)) ∧ ∀ ps', mv k q ps = .ok ps' → Full S ps'

theorem gen_sel {σ : ℕ → ℕ} {m : ℕ} {S : Space K} (hS : S.OK) {f f' : List K → K} (hf : Same σ m S f f') {mv mv' : Move K}
    (hm : MoveSel σ m S mv mv') (k : ℕ) {s : State K} (hp : Full S s.pos) (hb : s.best.2.length = S.bounds.length) :
    gen (space σ m S) mv' f' k (mapState σ m s) = (gen S mv f k s).map (mapState σ m) ∧
      ∀ s', gen S mv f k s = .ok s' → Full S s'.pos ∧ s'.best.2.length = S.bounds.length := by
  unfold gen
  have e : (mapState σ m s).best.2 = sel σ m s.best.2 := rfl
  have e' : (mapState σ m s).pos = s.pos.map (sel σ m) := rfl
  have eb : (mapState σ m s).best = p2 σ m s.best := rfl
  obtain ⟨hm1, hm2⟩ := hm k s.best.2 s.pos hb hp
  simp only [e, e', hm1]
  cases hr : mv k s.best.2 s.pos with
  | error e => exact ⟨rfl, fun s' h => by cases h⟩
  | ok pos =>
    have hp' := hm2 pos hr
    simp only [Except.map, select_sel (hf.clip hS) hp', map_clip σ m hS, eb, better_sel (hf.clip hS) hp']
    cases select (fun p => f (S.clip p)) pos with
    | error e => exact ⟨rfl, fun s' h => by cases h⟩
    | ok l =>
      refine ⟨by simp [Except.map, mapState, p2], fun s' h => ?_⟩
      cases h
      exact ⟨hp', better_full _ hp' hb⟩

theorem run_sel {σ : ℕ → ℕ} {m : ℕ} {S : Space K} (hS : S.OK) {f f' : List K → K} (hf : Same σ m S f f') {mv mv' : Move K}
    (hm : MoveSel σ m S mv mv') {pos0 : List (List K)} (hp : Full S pos0) (g : ℕ) :
    run (space σ m S) mv' f' (pos0.map (sel σ m)) g = (run S mv f pos0 g).map (mapState σ m) ∧
      ∀ s', run S mv f pos0 g = .ok s' → Full S s'.pos ∧ s'.best.2.length = S.bounds.length := by
  induction g with
  | zero =>
    simp only [run, select_sel (hf.clip hS) hp, map_clip σ m hS]
    cases h : select (fun p => f (S.clip p)) pos0 with
    | error e => exact ⟨rfl, fun s' h => by cases h⟩
    | ok b =>
      refine ⟨rfl, fun s' h' => ?_⟩
      cases h'
      exact ⟨hp, select_full hp h⟩
  | succ g ih =>
    simp only [run, ih.1]
    cases h : run S mv f pos0 g with
    | error e => exact ⟨rfl, fun s' h => by cases h⟩
    | ok s => exact gen_sel hS hf hm g (ih.2 s h).1 (ih.2 s h).2

theorem evolute_sel {σ : ℕ → ℕ} {m : ℕ} {S : Space K} (hS : S.OK) (n ngen : ℕ) (b : Bool) {f f' : List K → K} (hf : Same σ m S f f') {mv mv' : Move K}
    (hm : MoveSel σ m S mv mv') {pos0 : List (List K)} (hp : Full S pos0) :
    evolute (space σ m S) n ngen mv' b f' (pos0.map (sel σ m)) = (evolute S n ngen mv b f pos0).map (mapResult σ m) := by
  unfold evolute
  rw [List.length_map]
  by_cases h1 : pos0.length ≠ n
  · simp only [if_pos h1]; rfl
  simp only [if_neg h1, (run_sel hS (hf.sgn b) hm hp _).1]
  cases hr : run S mv (fun x => sgn b (f x)) pos0 ngen with
  | error e => rfl
  | ok s =>
    have hp' := ((run_sel hS (hf.sgn b) hm hp _).2 s hr).1
    simp only [Except.map, mapState]
    by_cases h2 : ngen = 0
    · simp only [if_pos h2]
    simp only [if_neg h2]
    have e := map_pair (((hf.clip hS).sgn b).sgn b) hp'
    simp only [e]
    rfl

end Swarm

namespace WOA
open Neorl.WOA

def conf (σ : ℕ → ℕ) (m : ℕ) (c : Conf K) : Conf K := { c with S := space σ m c.S }

def draw (σ : ℕ → ℕ) (d : Draw K) : Draw K := { d with pick := fun j => d.pick (σ j) }

theorem moveRow_sel {σ : ℕ → ℕ} {m : ℕ} {c : Conf K} (hσ : Within σ m c.S) (A fac : K) (d : Draw K) {best : List K} (hb : best.length = c.S.bounds.length)
    {pop : List (List K)} (hp : Full c.S pop) (row : List K) :
    moveRow (conf σ m c) A fac (draw σ d) (sel σ m best) (pop.map (sel σ m)) (sel σ m row) = sel σ m (moveRow c A fac d best pop row) := by
  unfold moveRow
  refine sel_mapIdx fun j x hj _ => ?_
  have en : (conf σ m c).nwhales = c.nwhales := rfl
  rw [en, rows_getD hσ hp _ hj, sel_getD 0 (hσ.at hb) hj]
  rfl

theorem moveTo_sel {σ : ℕ → ℕ} {m : ℕ} {c : Conf K} (hS : c.S.OK) (hc : Plain c.S) (hσ : Within σ m c.S) (k : ℕ) (A fac : K) (dr : ℕ → Draw K)
    {best : List K} (hb : best.length = c.S.bounds.length) {pop : List (List K)} (hp : Full c.S pop) (i : ℕ) :
    moveTo (conf σ m c) k A fac (fun i => draw σ (dr i)) (sel σ m best) i (pop.map (sel σ m)) = (moveTo c k A fac dr best i pop).map (List.map (sel σ m)) ∧
      ∀ ps', moveTo c k A fac dr best i pop = .ok ps' → Full c.S ps' := by
  induction i with
  | zero => exact ⟨rfl, fun ps' h => by cases h; exact hp⟩
  | succ i ih =>
    simp only [moveTo, ih.1]
    cases h : moveTo c k A fac dr best i pop with
    | error e => exact ⟨rfl, fun s' h => by cases h⟩
    | ok p =>
      have hp' := ih.2 p h
      simp only [Except.map, List.getElem?_map]
      cases hrow : p[i]? with
      | none => exact ⟨rfl, fun s' h => by cases h⟩
      | some row =>
        have hl := hp' _ (List.mem_of_getElem? hrow)
        have e := repair_sel hS hc hσ (1 - (k : K) * (1 / (c.ngen : K))) (dr i).disc (dr i).disc (v := moveRow c A fac (dr i) best p row) (by simp [moveRow, hl])
        have e2 : (conf σ m c).ngen = c.ngen := rfl
        have e3 : (conf σ m c).S = space σ m c.S := rfl
        have e4 : (draw σ (dr i)).disc = (dr i).disc := rfl
        simp only [Option.map_some, moveRow_sel hσ A fac (dr i) hb hp', e2, e3, e4, e]
        cases hd : c.S.disc (1 - (k : K) * (1 / (c.ngen : K))) (dr i).disc (c.S.clip (moveRow c A fac (dr i) best p row)) with
        | error e => exact ⟨rfl, fun s' h => by cases h⟩
        | ok r =>
          refine ⟨by simp [Except.map, List.map_set], fun s' h => ?_⟩
          cases h
          exact hp'.set (disc_full hS hc (by simp [moveRow, hl]) hd)

theorem evolute_sel {σ : ℕ → ℕ} {m : ℕ} {c : Conf K} (hS : c.S.OK) (hc : Plain c.S) (hσ : Within σ m c.S) (b : Bool) {f f' : List K → K}
    (hf : Same σ m c.S f f') (dr : ℕ → ℕ → Draw K) {pos0 : List (List K)} (hp : Full c.S pos0) :
    evolute (conf σ m c) b f' (fun g i => draw σ (dr g i)) (pos0.map (sel σ m)) = (evolute c b f dr pos0).map (Swarm.mapResult σ m) := by
  unfold evolute
  refine Swarm.evolute_sel hS c.nwhales c.ngen b hf ?_ hp
  intro k q ps hq hps
  have e1 : coefA (conf σ m c) k = coefA c k := rfl
  have e2 : coefFac (conf σ m c) k = coefFac c k := rfl
  have e3 : (conf σ m c).nwhales = c.nwhales := rfl
  simp only [move, e1, e2, e3]
  cases coefA c k with
  | error e => exact ⟨rfl, fun s' h => by cases h⟩
  | ok A =>
    simp only
    cases coefFac c k with
    | error e => exact ⟨rfl, fun s' h => by cases h⟩
    | ok fac => exact moveTo_sel hS hc hσ k A fac (dr k) hq hps c.nwhales

end WOA

namespace SSA
open Neorl.SSA

def conf (σ : ℕ → ℕ) (m : ℕ) (c : Conf K) : Conf K := { c with S := space σ m c.S }

def draw (σ : ℕ → ℕ) (d : Draw K) : Draw K := { d with c2 := fun j => d.c2 (σ j), c3 := fun j => d.c3 (σ j) }

theorem leader_sel {σ : ℕ → ℕ} {m : ℕ} {c : Conf K} (hσ : Within σ m c.S) (c1 : K) (d : Draw K) {best : List K} (hb : best.length = c.S.bounds.length)
    (row : List K) : leader (conf σ m c) c1 (draw σ d) (sel σ m best) (sel σ m row) = sel σ m (leader c c1 d best row) := by
  unfold leader
  refine sel_mapIdx fun j x hj _ => ?_
  have e : (conf σ m c).S.bounds.getD j (0, 0) = c.S.bounds.getD (σ j) (0, 0) := sel_getD _ hσ hj
  rw [sel_getD 0 (hσ.at hb) hj, e]
  rfl

theorem moveFrom_sel {σ : ℕ → ℕ} {m : ℕ} {c : Conf K} (hS : c.S.OK) (hc : Plain c.S) (hσ : Within σ m c.S) (k : ℕ) (c1 : K) (dr : ℕ → Draw K)
    {best : List K} (hb : best.length = c.S.bounds.length) {pop : List (List K)} (hp : Full c.S pop) (i : ℕ) (prev : List K)
    (h : (2 * i < c.nsalps) ∨ prev.length = c.S.bounds.length) :
    moveFrom (conf σ m c) k c1 (fun i => draw σ (dr i)) (sel σ m best) i (sel σ m prev) (pop.map (sel σ m))
      = (moveFrom c k c1 dr best i prev pop).map (List.map (sel σ m)) := by
  induction pop generalizing i prev with
  | nil => rfl
  | cons row rows ih =>
    have ef : follower (sel σ m prev) (sel σ m row) = sel σ m (follower prev row) := sel_zipWith σ m _ _ _
    have en : (conf σ m c).nsalps = c.nsalps := rfl
    have e : (if 2 * i < c.nsalps then leader (conf σ m c) c1 (draw σ (dr i)) (sel σ m best) (sel σ m row) else follower (sel σ m prev) (sel σ m row))
        = sel σ m (if 2 * i < c.nsalps then leader c c1 (dr i) best row else follower prev row) := by
      split_ifs
      · exact leader_sel hσ c1 (dr i) hb row
      · exact ef
    have hl := hp row (by simp)
    have hv : (if 2 * i < c.nsalps then leader c c1 (dr i) best row else follower prev row).length = c.S.bounds.length := by
      split_ifs with hi
      · simp [leader, hl]
      · rcases h with h | h
        · exact absurd h hi
        · simp [follower, hl, h]
    have er : ∀ v : List K, v.length = c.S.bounds.length → repair (conf σ m c) k (draw σ (dr i)) (sel σ m v) = (repair c k (dr i) v).map (sel σ m) :=
      fun v hv => repair_sel hS hc hσ _ _ _ hv
    simp only [List.map_cons, moveFrom, en, e, er _ hv]
    cases hr : repair c k (dr i) (if 2 * i < c.nsalps then leader c c1 (dr i) best row else follower prev row) with
    | error e => rfl
    | ok row' =>
      simp only [Except.map, ih (fun y hy => hp y (by simp [hy])) (i + 1) row' (Or.inr (disc_full hS hc hv hr))]
      cases moveFrom c k c1 dr best (i + 1) row' rows <;> rfl

theorem moveFrom_full {c : Conf K} (hS : c.S.OK) (hc : Plain c.S) {k : ℕ} {c1 : K} {dr : ℕ → Draw K} {best : List K} {pop : List (List K)} (hp : Full c.S pop)
    {i : ℕ} {prev : List K} (h : (2 * i < c.nsalps) ∨ prev.length = c.S.bounds.length) {ps' : List (List K)}
    (e : moveFrom c k c1 dr best i prev pop = .ok ps') : Full c.S ps' := by
  induction pop generalizing i prev ps' with
  | nil => cases e; exact fun _ h => by simp at h
  | cons row rows ih =>
    have hl := hp row (by simp)
    simp only [moveFrom] at e
    cases hr : repair c k (dr i) (if 2 * i < c.nsalps then leader c c1 (dr i) best row else follower prev row) with
    | error er => rw [hr] at e; cases e
    | ok row' =>
      rw [hr] at e
      have hl' : row'.length = c.S.bounds.length := by
        refine disc_full hS hc ?_ hr
        split_ifs with hi
        · simp [leader, hl]
        · rcases h with h | h
          · exact absurd h hi
          · simp [follower, hl, h]
      simp only at e
      cases hm : moveFrom c k c1 dr best (i + 1) row' rows with
      | error er => rw [hm] at e; cases e
      | ok rows' =>
        rw [hm] at e
        cases e
        have := ih (fun y hy => hp y (by simp [hy])) (Or.inr hl') hm
        intro x hx
        rcases List.mem_cons.1 hx with rfl | hx
        · exact hl'
        · exact this x hx

theorem evolute_sel {σ : ℕ → ℕ} {m : ℕ} {c : Conf K} (hS : c.S.OK) (hc : Plain c.S) (hσ : Within σ m c.S) (hn : 0 < c.nsalps) (b : Bool) {f f' : List K → K}
    (hf : Same σ m c.S f f') (dr : ℕ → ℕ → Draw K) {pos0 : List (List K)} (hp : Full c.S pos0) :
    evolute (conf σ m c) b f' (fun g i => draw σ (dr g i)) (pos0.map (sel σ m)) = (evolute c b f dr pos0).map (Swarm.mapResult σ m) := by
  unfold evolute
  refine Swarm.evolute_sel hS c.nsalps c.ngen b hf ?_ hp
  intro k q ps hq hps
  have e1 : coefC1 (conf σ m c) k = coefC1 c k := rfl
  simp only [move, e1]
  cases coefC1 c k with
  | error e => exact ⟨rfl, fun s' h => by cases h⟩
  | ok c1 =>
    refine ⟨?_, fun ps' h => moveFrom_full hS hc hps (Or.inl (by omega)) h⟩
    have := moveFrom_sel hS hc hσ k c1 (dr k) hq hps 0 [] (Or.inl (by omega))
    rw [sel_nil] at this
    exact this

end SSA

/-! ### MFO -/

/-- All pairs hold a point with one entry per variable. -/
def Full1 {Y : Type} (S : Space K) (ps : List (List K × Y)) : Prop := ∀ p ∈ ps, p.1.length = S.bounds.length

namespace MFO
open Neorl.MFO
open Neorl.Rescale.MFO (SortFit)

def conf (σ : ℕ → ℕ) (m : ℕ) (c : Conf K) : Conf K := { c with S := space σ m c.S }

def draw (σ : ℕ → ℕ) (d : Draw K) : Draw K := { d with u := fun j => d.u (σ j) }

def mapState (σ : ℕ → ℕ) (m : ℕ) (s : State K) : State K :=
  { s with pos := s.pos.map (sel σ m), best := p2 σ m s.best, flames := s.flames.map (p1 σ m), prev := s.prev.map (p1 σ m), log := s.log.map (sel σ m) }

/-- The answer in the new listing. -/
def mapResult (σ : ℕ → ℕ) (m : ℕ) (r : Result K) : Result K :=
  { r with x := sel σ m r.x, lastPop := r.lastPop.map (p1 σ m), log := r.log.map (sel σ m) }

theorem moveMoth_sel {σ : ℕ → ℕ} {m : ℕ} {c : Conf K} (hS : c.S.OK) (hc : Plain c.S) (hσ : Within σ m c.S) (g : ℕ) (r : K) {flames : List (List K × K)}
    (hfl : Full1 c.S flames) (dr : ℕ → Draw K) (i : ℕ) {row : List K} (hr : row.length = c.S.bounds.length) :
    moveMoth (conf σ m c) g r (flames.map (p1 σ m)) (fun i => draw σ (dr i)) i (sel σ m row) = (moveMoth c g r flames dr i row).map (sel σ m) := by
  unfold moveMoth
  have e1 : flameIdx (conf σ m c).nmoths (conf σ m c).ngen g i = flameIdx c.nmoths c.ngen g i := rfl
  rw [e1, List.getElem?_map]
  cases hq : flames[flameIdx c.nmoths c.ngen g i]? with
  | none => rfl
  | some fl =>
    have hl := hfl fl (List.mem_of_getElem? hq)
    have e2 : ((sel σ m row).mapIdx fun j x => |(p1 σ m fl).1.getD j 0 - x| * (conf σ m c).spiral ((r - 1) * (draw σ (dr i)).u j + 1) + (p1 σ m fl).1.getD j 0)
        = sel σ m (row.mapIdx fun j x => |fl.1.getD j 0 - x| * c.spiral ((r - 1) * (dr i).u j + 1) + fl.1.getD j 0) := by
      refine sel_mapIdx fun j x hj _ => ?_
      simp only [p1]
      rw [sel_getD 0 (hσ.at hl) hj]
      rfl
    simp only [Option.map_some, e2]
    exact repair_sel hS hc hσ _ _ _ (by simp [hr])

theorem gen_sel {σ : ℕ → ℕ} {m : ℕ} {c : Conf K} (hS : c.S.OK) (hc : Plain c.S) (hσ : Within σ m c.S) (ho : SortOK c.srt) (hs : SortFit c.srt)
    {f f' : List K → K} (hf : Same σ m c.S f f') (g : ℕ) (dr : ℕ → Draw K) {s : State K} (h1 : Full c.S s.pos) (h2 : Full1 c.S s.flames) (h3 : Full1 c.S s.prev) :
    gen (conf σ m c) f' g (fun i => draw σ (dr i)) (mapState σ m s) = (gen c f g dr s).map (mapState σ m) ∧
      ∀ t, gen c f g dr s = .ok t → Full c.S t.pos ∧ Full1 c.S t.flames ∧ Full1 c.S t.prev := by
  unfold gen
  have hcur : Full1 c.S (s.pos.map fun p => (p, f (c.S.clip p))) := by
    intro p hp
    obtain ⟨q, hq, rfl⟩ := List.mem_map.1 hp
    exact h1 q hq
  have e0 : (conf σ m c).S = space σ m c.S := rfl
  have esrt : (conf σ m c).srt = c.srt := rfl
  have enm : (conf σ m c).nmoths = c.nmoths := rfl
  have e2 : (if g = 0 then c.srt ((s.pos.map fun p => (p, f (c.S.clip p))).map (p1 σ m))
        else (c.srt (s.prev.map (p1 σ m) ++ s.flames.map (p1 σ m))).take c.nmoths)
      = (if g = 0 then c.srt (s.pos.map fun p => (p, f (c.S.clip p))) else (c.srt (s.prev ++ s.flames)).take c.nmoths).map (p1 σ m) := by
    split_ifs
    · exact hs (sel σ m) _
    · have e' : c.srt ((s.prev ++ s.flames).map (p1 σ m)) = (c.srt (s.prev ++ s.flames)).map (p1 σ m) := hs (sel σ m) (s.prev ++ s.flames)
      rw [← List.map_append, e', List.map_take]
  have hfl : Full1 c.S (if g = 0 then c.srt (s.pos.map fun p => (p, f (c.S.clip p))) else (c.srt (s.prev ++ s.flames)).take c.nmoths) := by
    intro p hp
    split_ifs at hp
    · exact hcur p ((ho _).1.mem_iff.1 hp)
    · rcases List.mem_append.1 ((ho _).1.mem_iff.1 (List.mem_of_mem_take hp)) with h | h
      · exact h3 p h
      · exact h2 p h
  simp only [mapState, e0, map_pair (hf.clip hS) h1, esrt, enm, e2, map_clip σ m hS, updAll_sel (hf.clip hS) h1]
  generalize (if g = 0 then c.srt (s.pos.map fun p => (p, f (c.S.clip p))) else (c.srt (s.prev ++ s.flames)).take c.nmoths) = fl at hfl ⊢
  rw [List.getElem?_map]
  cases fl[0]? with
  | none => exact ⟨rfl, fun t h => by cases h⟩
  | some top =>
    have eR : coefR (conf σ m c) g = coefR c g := rfl
    simp only [Option.map_some, eR]
    cases coefR c g with
    | error e => exact ⟨rfl, fun t h => by cases h⟩
    | ok r =>
      have hm := mapRows_sel (σ := σ) (m := m) (f := moveMoth c g r fl dr) (g := moveMoth (conf σ m c) g r (fl.map (p1 σ m)) (fun i => draw σ (dr i))) h1
        (fun i x hx => moveMoth_sel hS hc hσ g r hfl dr i hx) 0
      simp only [hm]
      cases hmv : mapRows (moveMoth c g r fl dr) 0 s.pos with
      | error e => exact ⟨rfl, fun t h => by cases h⟩
      | ok pos =>
        refine ⟨by simp only [Except.map, mapState, List.map_append]; rfl, ?_⟩
        intro t ht
        cases ht
        refine ⟨mapRows_full h1 ?_ hmv, hfl, hcur⟩
        intro i x y hx hy
        unfold moveMoth at hy
        split at hy
        · cases hy
        · exact disc_full hS hc (by simp [hx]) hy

theorem run_sel {σ : ℕ → ℕ} {m : ℕ} {c : Conf K} (hS : c.S.OK) (hc : Plain c.S) (hσ : Within σ m c.S) (ho : SortOK c.srt) (hs : SortFit c.srt)
    {f f' : List K → K} (hf : Same σ m c.S f f') (dr : ℕ → ℕ → Draw K) {pos0 : List (List K)} (hp : Full c.S pos0) (g : ℕ) :
    run (conf σ m c) f' (fun g i => draw σ (dr g i)) (pos0.map (sel σ m)) g = (run c f dr pos0 g).map (mapState σ m) ∧
      ∀ t, run c f dr pos0 g = .ok t → Full c.S t.pos ∧ Full1 c.S t.flames ∧ Full1 c.S t.prev := by
  induction g with
  | zero =>
    refine ⟨?_, fun t h => by cases h; exact ⟨hp, fun _ h => by simp at h, fun _ h => by simp at h⟩⟩
    simp [run, Except.map, mapState, p2, sel_nil]
  | succ g ih =>
    simp only [run, ih.1]
    cases h : run c f dr pos0 g with
    | error e => exact ⟨rfl, fun s' h => by cases h⟩
    | ok s =>
      obtain ⟨i1, i2, i3⟩ := ih.2 s h
      exact gen_sel hS hc hσ ho hs hf g (dr g) i1 i2 i3

theorem evolute_sel {σ : ℕ → ℕ} {m : ℕ} {c : Conf K} (hS : c.S.OK) (hc : Plain c.S) (hσ : Within σ m c.S) (ho : SortOK c.srt) (hs : SortFit c.srt) (b : Bool)
    {f f' : List K → K} (hf : Same σ m c.S f f') (dr : ℕ → ℕ → Draw K) {pos0 : List (List K)} (hp : Full c.S pos0) :
    evolute (conf σ m c) b f' (fun g i => draw σ (dr g i)) (pos0.map (sel σ m)) = (evolute c b f dr pos0).map (mapResult σ m) := by
  unfold evolute
  have e1 : (conf σ m c).nmoths = c.nmoths := rfl
  have e2 : (conf σ m c).ngen = c.ngen := rfl
  rw [List.length_map, e1, e2]
  by_cases h1 : pos0.length ≠ c.nmoths
  · simp only [if_pos h1]; rfl
  simp only [if_neg h1, (run_sel hS hc hσ ho hs (hf.sgn b) dr hp _).1]
  cases run c (fun x => sgn b (f x)) dr pos0 c.ngen with
  | error e => rfl
  | ok s =>
    simp only [Except.map, mapState, p2]
    cases outScore b s.best.1 with
    | none => rfl
    | some y => simp [mapResult, p1, Function.comp_def]

end MFO

/-! ### CS -/

namespace CS
open Neorl.CS

def conf (σ : ℕ → ℕ) (m : ℕ) (c : Conf K) : Conf K := { c with S := space σ m c.S }

def draw (σ : ℕ → ℕ) (d : Draw K) : Draw K := { d with levy := fun i j => d.levy i (σ j), u := fun i j => d.u i (σ j) }

def mapState (σ : ℕ → ℕ) (m : ℕ) (s : State K) : State K :=
  { s with nests := s.nests.map (p1 σ m), best := p2 σ m s.best, log := s.log.map (sel σ m) }

/-- The answer in the new listing. -/
def mapResult (σ : ℕ → ℕ) (m : ℕ) (r : Result K) : Result K :=
  { r with x := sel σ m r.x, lastPop := r.lastPop.map (p1 σ m), log := r.log.map (sel σ m) }

theorem accept_sel {σ : ℕ → ℕ} {m : ℕ} {S : Space K} {f f' : List K → K} (hf : Same σ m S f f') (qs : List (List K × K)) {ps : List (List K)} (hp : Full S ps) :
    accept f' (qs.map (p1 σ m)) (ps.map (sel σ m)) = (accept f qs ps).map (p1 σ m) := by
  induction qs generalizing ps with
  | nil => cases ps <;> rfl
  | cons q qs ih =>
    cases ps with
    | nil => rfl
    | cons p ps =>
      simp only [List.map_cons, accept, ih (ps := ps) (fun y hy => hp y (by simp [hy])), hf p (hp p (by simp))]
      by_cases h : f p ≤ q.2 <;> simp [p1, h]

theorem scan_sel (σ : ℕ → ℕ) (m : ℕ) (qs : List (List K × K)) (s : K × List K) : scan (p2 σ m s) (qs.map (p1 σ m)) = p2 σ m (scan s qs) := by
  induction qs generalizing s with
  | nil => rfl
  | cons q qs ih =>
    simp only [List.map_cons, scan]
    rw [← ih]
    congr 1
    by_cases h : q.2 < s.1 <;> simp [p1, p2, h]

theorem levyRow_sel {σ : ℕ → ℕ} {m : ℕ} {c : Conf K} (hS : c.S.OK) (hc : Plain c.S) (hσ : Within σ m c.S) (g : ℕ) (d : Draw K) {best : List K}
    (hb : best.length = c.S.bounds.length) (i : ℕ) {s : List K} (hs : s.length = c.S.bounds.length) :
    levyRow (conf σ m c) g (draw σ d) (sel σ m best) i (sel σ m s) = (levyRow c g d best i s).map (sel σ m) := by
  unfold levyRow
  have e : (conf σ m c).S = space σ m c.S := rfl
  rw [e, sel_mapIdx (h := fun j x => x + d.levy i j * (x - best.getD j 0))]
  · exact disc_sel hS hc hσ _ _ _ (by simp [hs])
  · intro j x hj _
    rw [sel_getD 0 (hσ.at hb) hj]
    rfl

theorem discoverRow_sel {σ : ℕ → ℕ} {m : ℕ} {c : Conf K} (hS : c.S.OK) (hc : Plain c.S) (hσ : Within σ m c.S) (g : ℕ) (d : Draw K) {new : List (List K)}
    (hl : Full c.S new) (i : ℕ) {s : List K} (hs : s.length = c.S.bounds.length) :
    discoverRow (conf σ m c) g (draw σ d) (new.map (sel σ m)) i (sel σ m s) = (discoverRow c g d new i s).map (sel σ m) := by
  unfold discoverRow
  have e : ((sel σ m s).mapIdx fun j x => x + (draw σ d).scale * (((new.map (sel σ m)).getD ((draw σ d).perm1 i % (conf σ m c).ncuckoos) []).getD j 0
        - ((new.map (sel σ m)).getD ((draw σ d).perm2 i % (conf σ m c).ncuckoos) []).getD j 0) * (if (draw σ d).u i j > (conf σ m c).pa then 1 else 0))
      = sel σ m (s.mapIdx fun j x => x + d.scale * ((new.getD (d.perm1 i % c.ncuckoos) []).getD j 0 - (new.getD (d.perm2 i % c.ncuckoos) []).getD j 0)
        * (if d.u i j > c.pa then 1 else 0)) := by
    refine sel_mapIdx fun j x hj _ => ?_
    rw [rows_getD hσ hl _ hj, rows_getD hσ hl _ hj]
    rfl
  rw [e]
  exact repair_sel hS hc hσ _ _ _ (by simp [hs])

theorem gen_sel {σ : ℕ → ℕ} {m : ℕ} {c : Conf K} (hS : c.S.OK) (hc : Plain c.S) (hσ : Within σ m c.S) {f f' : List K → K} (hf : Same σ m c.S f f')
    (g : ℕ) (d : Draw K) {s : State K} (h2 : Full1 c.S s.nests) (h3 : s.best.2.length = c.S.bounds.length) :
    gen (conf σ m c) f' g (draw σ d) (mapState σ m s) = (gen c f g d s).map (mapState σ m) ∧
      ∀ t, gen c f g d s = .ok t → Full1 c.S t.nests ∧ t.best.2.length = c.S.bounds.length := by
  unfold gen
  have e0 : (conf σ m c).S = space σ m c.S := rfl
  have en : ((s.nests.map (p1 σ m)).map fun q => q.1) = (s.nests.map fun q => q.1).map (sel σ m) := by simp [Function.comp_def, p1]
  have hrow : Full c.S (s.nests.map fun q => q.1) := by
    intro x hx
    obtain ⟨q, hq, rfl⟩ := List.mem_map.1 hx
    exact h2 q hq
  have eb : (p2 σ m s.best).2 = sel σ m s.best.2 := rfl
  have m1 := mapRows_sel (σ := σ) (m := m) (f := levyRow c g d s.best.2) (g := levyRow (conf σ m c) g (draw σ d) (sel σ m s.best.2)) hrow
    (fun i x hx => levyRow_sel hS hc hσ g d h3 i hx) 0
  simp only [mapState, en, eb, m1, e0]
  cases hm1 : mapRows (levyRow c g d s.best.2) 0 (s.nests.map fun q => q.1) with
  | error e => exact ⟨rfl, fun t ht => by cases ht⟩
  | ok new1 =>
    have hl1 : Full c.S new1 := by
      refine mapRows_full hrow ?_ hm1
      intro i x y hx hy
      exact disc_full' hc (by simp [hx]) hy
    have m2 := mapRows_sel (σ := σ) (m := m) (f := discoverRow c g d new1) (g := discoverRow (conf σ m c) g (draw σ d) (new1.map (sel σ m))) hl1
      (fun i x hx => discoverRow_sel hS hc hσ g d hl1 i hx) 0
    simp only [Except.map, accept_sel (hf.clip hS) _ hl1, m2]
    cases hm2 : mapRows (discoverRow c g d new1) 0 new1 with
    | error e => exact ⟨rfl, fun t ht => by cases ht⟩
    | ok new2 =>
      have hl2 : Full c.S new2 := by
        refine mapRows_full hl1 ?_ hm2
        intro i x y hx hy
        exact disc_full hS hc (by simp [hx]) hy
      obtain ⟨a1, a2⟩ := Rescale.CS.accept_full (f := fun x => f (c.S.clip x)) h2 hl1
      obtain ⟨a3, a4⟩ := Rescale.CS.accept_full (f := fun x => f (c.S.clip x)) a2 hl2
      simp only [Except.map, accept_sel (hf.clip hS) _ hl2, scan_sel, map_clip σ m hS]
      generalize accept (fun p => f (c.S.clip p)) (accept (fun p => f (c.S.clip p)) s.nests new1) new2 = n2 at a3 a4 ⊢
      cases n2 with
      | nil => exact ⟨rfl, fun t ht => by cases ht⟩
      | cons q qs =>
        refine ⟨?_, fun t ht => ?_⟩
        · have es := scan_sel σ m qs (q.2, q.1)
          have es' : (scan ((p1 σ m q).2, (p1 σ m q).1) (qs.map (p1 σ m))).1 = (scan (q.2, q.1) qs).1 := by
            show (scan (p2 σ m (q.2, q.1)) (qs.map (p1 σ m))).1 = _
            rw [es]; rfl
          simp only [List.map_cons, es', mapState, List.map_append]
          rfl
        · cases ht
          exact ⟨a4, Rescale.CS.scan_full a4 h3⟩

theorem run_sel {σ : ℕ → ℕ} {m : ℕ} {c : Conf K} (hS : c.S.OK) (hc : Plain c.S) (hσ : Within σ m c.S) {f f' : List K → K} (hf : Same σ m c.S f f')
    (dr : ℕ → Draw K) {pos0 : List (List K)} (hp : Full c.S pos0) (g : ℕ) :
    run (conf σ m c) f' (fun g => draw σ (dr g)) (pos0.map (sel σ m)) g = (run c f dr pos0 g).map (mapState σ m) ∧
      ∀ t, run c f dr pos0 g = .ok t → Full1 c.S t.nests ∧ t.best.2.length = c.S.bounds.length := by
  induction g with
  | zero =>
    have e0 : (conf σ m c).S = space σ m c.S := rfl
    have hq : Full1 c.S (pos0.map fun p => (p, f (c.S.clip p))) := by
      intro p hp'
      obtain ⟨q, hq, rfl⟩ := List.mem_map.1 hp'
      exact hp q hq
    simp only [run, e0, map_pair (hf.clip hS) hp, map_clip σ m hS]
    generalize (pos0.map fun p => (p, f (c.S.clip p))) = n at hq ⊢
    cases n with
    | nil => exact ⟨rfl, fun t ht => by cases ht⟩
    | cons q qs =>
      refine ⟨?_, fun t ht => ?_⟩
      · have es := scan_sel σ m qs (q.2, q.1)
        have es' : scan ((p1 σ m q).2, (p1 σ m q).1) (qs.map (p1 σ m)) = p2 σ m (scan (q.2, q.1) qs) := es
        simp only [List.map_cons, es']
        rfl
      · cases ht
        exact ⟨hq, Rescale.CS.scan_full (fun q h => hq q (by simp [h])) (hq q (by simp))⟩
  | succ g ih =>
    simp only [run, ih.1]
    cases h : run c f dr pos0 g with
    | error e => exact ⟨rfl, fun s' h => by cases h⟩
    | ok s => exact gen_sel hS hc hσ hf g (dr g) (ih.2 s h).1 (ih.2 s h).2

theorem evolute_sel {σ : ℕ → ℕ} {m : ℕ} {c : Conf K} (hS : c.S.OK) (hc : Plain c.S) (hσ : Within σ m c.S) (b : Bool) {f f' : List K → K}
    (hf : Same σ m c.S f f') (dr : ℕ → Draw K) {pos0 : List (List K)} (hp : Full c.S pos0) :
    evolute (conf σ m c) b f' (fun g => draw σ (dr g)) (pos0.map (sel σ m)) = (evolute c b f dr pos0).map (mapResult σ m) := by
  unfold evolute
  have e1 : (conf σ m c).ncuckoos = c.ncuckoos := rfl
  have e2 : (conf σ m c).ngen = c.ngen := rfl
  rw [List.length_map, e1, e2]
  by_cases h1 : pos0.length ≠ c.ncuckoos
  · simp only [if_pos h1]; rfl
  simp only [if_neg h1, (run_sel hS hc hσ (hf.sgn b) dr hp _).1]
  cases run c (fun x => sgn b (f x)) dr pos0 c.ngen with
  | error e => rfl
  | ok s =>
    simp only [Except.map, mapState]
    by_cases h2 : c.ngen = 0
    · simp only [if_pos h2]
    simp only [if_neg h2]
    simp [mapResult, p1, p2, Function.comp_def]

end CS

/-! ### PSO -/

namespace PSO
open Neorl.PSO

def conf (σ : ℕ → ℕ) (m : ℕ) (c : Conf K) : Conf K := { c with S := space σ m c.S }

def draw (σ : ℕ → ℕ) (d : Draw K) : Draw K :=
  { r1 := fun j => d.r1 (σ j), r2 := fun j => d.r2 (σ j), wr := fun j => d.wr (σ j), u := fun j => d.u (σ j), pick := fun j => d.pick (σ j) }

def mapPart (σ : ℕ → ℕ) (m : ℕ) (p : Neorl.PSO.Part K) : Neorl.PSO.Part K := { pos := sel σ m p.pos, vel := sel σ m p.vel }

def mapState (σ : ℕ → ℕ) (m : ℕ) (s : State K) : State K :=
  { s with swarm := s.swarm.map (mapPart σ m), mem := s.mem.map (p1 σ m), swm := p1 σ m s.swm, log := s.log.map (sel σ m) }

/-- The answer in the new listing. -/
def mapResult (σ : ℕ → ℕ) (m : ℕ) (r : Result K) : Result K :=
  { r with x := sel σ m r.x, lastPop := r.lastPop.map (p1 σ m), log := r.log.map (sel σ m) }

/-- Positions and speeds have one entry per variable. -/
def FullP (S : Space K) (ps : List (Neorl.PSO.Part K)) : Prop := ∀ p ∈ ps, p.pos.length = S.bounds.length ∧ p.vel.length = S.bounds.length

theorem mapRows_pure {X Y : Type} {f : ℕ → X → Py Y} {h : ℕ → X → Y} : ∀ {xs : List X} (i : ℕ) (e : ∀ j x, xs[j]? = some x → f (i + j) x = .ok (h (i + j) x)),
    mapRows f i xs = .ok (xs.mapIdx fun j x => h (i + j) x)
  | [], i, e => rfl
  | x :: xs, i, e => by
    have h0 := e 0 x rfl
    rw [add_zero] at h0
    have hi := mapRows_pure (f := f) (h := h) (xs := xs) (i + 1) (fun j y hy => by
      have := e (j + 1) y (by simpa using hy)
      rw [show i + (j + 1) = i + 1 + j by ring] at this
      exact this)
    simp only [mapRows, h0, hi, List.mapIdx_cons, add_zero]
    congr 3
    funext j y
    rw [show i + (j + 1) = i + 1 + j by ring]

/-- The new position of a continuous variable. -/
def move1 (b : K × K) (x v : K) : K :=
  let y := if x + v > b.2 then b.2 else x + v
  if y < b.1 then b.1 else y

theorem newPos_cont {c : Conf K} (hn : c.S.types.length = c.S.bounds.length) (hc : Cont c.S) (d : Draw K) {i : ℕ} (hi : i < c.S.bounds.length) (x v : K) :
    newPos c d i x v = .ok (move1 (c.S.bounds.getD i (0, 0)) x v) := by
  unfold newPos
  have ht : c.S.types[i]? = some .float := by
    have hi' : i < c.S.types.length := by rw [hn]; exact hi
    rw [List.getElem?_eq_getElem hi', hc _ (List.getElem_mem hi')]
  have hb : c.S.bounds[i]? = some (c.S.bounds.getD i (0, 0)) := by
    rw [List.getD_eq_getElem?_getD, List.getElem?_eq_getElem hi]; rfl
  rw [ht]
  generalize c.S.bounds.getD i (0, 0) = b at hb ⊢
  rw [hb]
  rfl

theorem update_cont {c : Conf K} (hn : c.S.types.length = c.S.bounds.length) (hc : Cont c.S) (w : K) (swm : List K × K) (d : Draw K) {p : Neorl.PSO.Part K}
    (hp : p.pos.length = c.S.bounds.length) (l : List K × K) :
    updateParticle c w swm d p l = .ok
      (let vel := p.vel.mapIdx fun i v => newVel c w swm.2 l.2 d i (p.pos.getD i 0) v (l.1.getD i 0) (swm.1.getD i 0)
       { pos := p.pos.mapIdx fun j x => move1 (c.S.bounds.getD j (0, 0)) x (vel.getD j 0), vel := vel }) := by
  unfold updateParticle
  generalize (p.vel.mapIdx fun i v => newVel c w swm.2 l.2 d i (p.pos.getD i 0) v (l.1.getD i 0) (swm.1.getD i 0)) = vel
  have := mapRows_pure (f := fun i x => newPos c d i x (vel.getD i 0)) (h := fun j x => move1 (c.S.bounds.getD j (0, 0)) x (vel.getD j 0)) (xs := p.pos) 0
    (fun j x hx => by
      have hj := (List.getElem?_eq_some_iff.1 hx).1
      rw [zero_add]
      exact newPos_cont hn hc d (by rw [← hp]; exact hj) x _)
  simp only [this, zero_add]

theorem update_sel {σ : ℕ → ℕ} {m : ℕ} {c : Conf K} (hS : c.S.OK) (hc : Cont c.S) (hσ : Within σ m c.S) (w : K) {swm : List K × K}
    (hs : swm.1.length = c.S.bounds.length) (d : Draw K) {p : Neorl.PSO.Part K} (hp : p.pos.length = c.S.bounds.length) (hv : p.vel.length = c.S.bounds.length)
    {l : List K × K} (hl : l.1.length = c.S.bounds.length) :
    updateParticle (conf σ m c) w (p1 σ m swm) (draw σ d) (mapPart σ m p) (p1 σ m l) = (updateParticle c w swm d p l).map (mapPart σ m) := by
  have hn : (conf σ m c).S.types.length = (conf σ m c).S.bounds.length := by
    show (sel σ m c.S.types).length = (sel σ m c.S.bounds).length
    rw [sel_length (by rw [hS.ntypes]; exact hσ), sel_length hσ]
  have hp' : (mapPart σ m p).pos.length = (conf σ m c).S.bounds.length := by
    show (sel σ m p.pos).length = (sel σ m c.S.bounds).length
    rw [sel_length (hσ.at hp), sel_length hσ]
  rw [update_cont hS.ntypes hc w swm d hp l, update_cont hn (cont_space hc) w (p1 σ m swm) (draw σ d) hp' (p1 σ m l)]
  have ev : ((mapPart σ m p).vel.mapIdx fun i v => newVel (conf σ m c) w (p1 σ m swm).2 (p1 σ m l).2 (draw σ d) i ((mapPart σ m p).pos.getD i 0) v
        ((p1 σ m l).1.getD i 0) ((p1 σ m swm).1.getD i 0))
      = sel σ m (p.vel.mapIdx fun i v => newVel c w swm.2 l.2 d i (p.pos.getD i 0) v (l.1.getD i 0) (swm.1.getD i 0)) := by
    refine sel_mapIdx fun j x hj _ => ?_
    simp only [mapPart, p1]
    rw [sel_getD 0 (hσ.at hp) hj, sel_getD 0 (hσ.at hl) hj, sel_getD 0 (hσ.at hs) hj]
    rfl
  simp only [ev, Except.map]
  have hv' : (p.vel.mapIdx fun i v => newVel c w swm.2 l.2 d i (p.pos.getD i 0) v (l.1.getD i 0) (swm.1.getD i 0)).length = c.S.bounds.length := by simp [hv]
  generalize (p.vel.mapIdx fun i v => newVel c w swm.2 l.2 d i (p.pos.getD i 0) v (l.1.getD i 0) (swm.1.getD i 0)) = vel at hv' ⊢
  have ep : ((mapPart σ m p).pos.mapIdx fun j x => move1 ((conf σ m c).S.bounds.getD j (0, 0)) x ((sel σ m vel).getD j 0))
      = sel σ m (p.pos.mapIdx fun j x => move1 (c.S.bounds.getD j (0, 0)) x (vel.getD j 0)) := by
    refine sel_mapIdx fun j x hj _ => ?_
    have e : (conf σ m c).S.bounds.getD j (0, 0) = c.S.bounds.getD (σ j) (0, 0) := sel_getD _ hσ hj
    rw [e, sel_getD 0 (hσ.at hv') hj]
  simp only [ep]
  rfl

theorem evalLoop_sel {σ : ℕ → ℕ} {m : ℕ} {S : Space K} {f f' : List K → K} (hf : Same σ m S f f') {ps : List (List K)} (hp : Full S ps) (ls : List (List K × K))
    (g : List K × K) :
    evalLoop f' (ps.map (sel σ m)) (ls.map (p1 σ m)) (p1 σ m g) = ((evalLoop f ps ls g).1.map (p1 σ m), p1 σ m (evalLoop f ps ls g).2) := by
  induction ps generalizing ls g with
  | nil => rfl
  | cons p ps ih =>
    have ih := fun ls g => ih (fun y hy => hp y (by simp [hy])) ls g
    cases ls with
    | nil => rfl
    | cons l ls =>
      simp only [List.map_cons, evalLoop, hf p (hp p (by simp))]
      have e : (p1 σ m l).2 = l.2 := rfl
      have e' : (p1 σ m g).2 = g.2 := rfl
      have eg : (if f p > g.2 then (sel σ m p, f p) else p1 σ m g) = p1 σ m (if f p > g.2 then (p, f p) else g) := by
        split_ifs <;> rfl
      rw [e, e', eg]
      by_cases h : f p > l.2
      · simp only [if_pos h, ih]; simp [p1]
      · simp only [if_neg h, ih]; simp [p1]

theorem evalLoop_full {S : Space K} (f : List K → K) {ps : List (List K)} (hp : Full S ps) {ls : List (List K × K)} (hl : Full1 S ls) {g : List K × K}
    (hg : g.1.length = S.bounds.length) : Full1 S (evalLoop f ps ls g).1 ∧ (evalLoop f ps ls g).2.1.length = S.bounds.length := by
  induction ps generalizing ls g with
  | nil => exact ⟨hl, hg⟩
  | cons p ps ih =>
    have hp0 := hp p (by simp)
    have hp1 : Full S ps := fun y hy => hp y (by simp [hy])
    cases ls with
    | nil => exact ⟨hl, hg⟩
    | cons l ls =>
      have hl1 : Full1 S ls := fun y hy => hl y (by simp [hy])
      simp only [evalLoop]
      by_cases h : f p > l.2
      · simp only [if_pos h]
        obtain ⟨i1, i2⟩ := ih hp1 hl1 (g := if f p > g.2 then (p, f p) else g) (by split_ifs; exacts [hp0, hg])
        refine ⟨fun x hx => ?_, i2⟩
        rcases List.mem_cons.1 hx with rfl | hx
        · exact hp0
        · exact i1 x hx
      · simp only [if_neg h]
        obtain ⟨i1, i2⟩ := ih hp1 hl1 hg
        refine ⟨fun x hx => ?_, i2⟩
        rcases List.mem_cons.1 hx with rfl | hx
        · exact hl _ (by simp)
        · exact i1 x hx

/-- What is known along a run. -/
def FullS (S : Space K) (s : State K) : Prop := FullP S s.swarm ∧ Full1 S s.mem ∧ s.swm.1.length = S.bounds.length

theorem zip_full {S : Space K} {s : State K} (h : FullS S s) {x : Neorl.PSO.Part K × (List K × K)} (hx : x ∈ s.swarm.zip s.mem) :
    (x.1.pos.length = S.bounds.length ∧ x.1.vel.length = S.bounds.length) ∧ x.2.1.length = S.bounds.length := by
  obtain ⟨a, b⟩ := x
  have := List.of_mem_zip hx
  exact ⟨h.1 a this.1, h.2.1 b this.2⟩

theorem gen_sel {σ : ℕ → ℕ} {m : ℕ} {c : Conf K} (hS : c.S.OK) (hc : Cont c.S) (hσ : Within σ m c.S) {f f' : List K → K} (hf : Same σ m c.S f f')
    (g : ℕ) (dr : ℕ → Draw K) {s : State K} (hF : FullS c.S s) :
    gen (conf σ m c) f' g (fun i => draw σ (dr i)) (mapState σ m s) = (gen c f g dr s).map (mapState σ m) ∧
      ∀ t, gen c f g dr s = .ok t → FullS c.S t := by
  unfold gen
  have e0 : (conf σ m c).S = space σ m c.S := rfl
  simp only [mapState, genSwarm, e0]
  have ez : (s.swarm.map (mapPart σ m)).zip (s.mem.map (p1 σ m)) = (s.swarm.zip s.mem).map (fun q => (mapPart σ m q.1, p1 σ m q.2)) := by
    rw [List.zip_map]; rfl
  have hm : mapRows (fun i (pl : Neorl.PSO.Part K × (List K × K)) => updateParticle (conf σ m c) s.w (p1 σ m s.swm) (draw σ (dr i)) pl.1 pl.2) 0
      ((s.swarm.zip s.mem).map (fun q => (mapPart σ m q.1, p1 σ m q.2)))
      = (mapRows (fun i pl => updateParticle c s.w s.swm (dr i) pl.1 pl.2) 0 (s.swarm.zip s.mem)).map (List.map (mapPart σ m)) :=
    Rescale.mapRows_pt (fun i x hx => update_sel hS hc hσ s.w hF.2.2 (dr i) (zip_full hF hx).1.1 (zip_full hF hx).1.2 (zip_full hF hx).2) 0
  rw [ez, hm]
  cases hr : mapRows (fun i pl => updateParticle c s.w s.swm (dr i) pl.1 pl.2) 0 (s.swarm.zip s.mem) with
  | error e => exact ⟨rfl, fun t ht => by cases ht⟩
  | ok off =>
    have hoff : FullP c.S off := by
      refine mapRows_forall (P := fun x : Neorl.PSO.Part K × (List K × K) => (x.1.pos.length = c.S.bounds.length ∧ x.1.vel.length = c.S.bounds.length)) hr
        (fun x hx => (zip_full hF hx).1) ?_
      intro i x y hx hy
      rw [update_cont hS.ntypes hc s.w s.swm (dr i) hx.1 x.2] at hy
      cases hy
      simp [hx.1, hx.2]
    have hxs : Full c.S (off.map fun p => p.pos) := by
      intro x hx
      obtain ⟨q, hq, rfl⟩ := List.mem_map.1 hx
      exact (hoff q hq).1
    have ex : (off.map (mapPart σ m)).map (fun p => p.pos) = (off.map fun p => p.pos).map (sel σ m) := by simp [Function.comp_def, mapPart]
    simp only [Except.map, ex, evalLoop_sel (hf.clip hS) hxs, map_fit (hf.clip hS) hxs, map_clip σ m hS]
    have en : nextW (conf σ m c) g s.w = nextW c g s.w := rfl
    rw [en]
    cases nextW c g s.w with
    | error e => exact ⟨rfl, fun t ht => by cases ht⟩
    | ok w =>
      simp only
      cases listMax ((off.map fun p => p.pos).map fun p => f (c.S.clip p)) with
      | error e => exact ⟨rfl, fun t ht => by cases ht⟩
      | ok mx =>
        refine ⟨by simp [mapState], fun t ht => ?_⟩
        cases ht
        obtain ⟨a1, a2⟩ := evalLoop_full (fun p => f (c.S.clip p)) hxs hF.2.1 hF.2.2
        exact ⟨hoff, a1, a2⟩

theorem run_sel {σ : ℕ → ℕ} {m : ℕ} {c : Conf K} (hS : c.S.OK) (hc : Cont c.S) (hσ : Within σ m c.S) {f f' : List K → K} (hf : Same σ m c.S f f')
    (dr : ℕ → ℕ → Draw K) {pos0 : List (List K)} (hp : Full c.S pos0) (g : ℕ) :
    run (conf σ m c) f' (fun g i => draw σ (dr g i)) (pos0.map (sel σ m)) g = (run c f dr pos0 g).map (mapState σ m) ∧
      ∀ t, run c f dr pos0 g = .ok t → FullS c.S t := by
  induction g with
  | zero =>
    have e0 : (conf σ m c).S = space σ m c.S := rfl
    have ev : ∀ x : List K, (sel σ m x).map (fun y => 1 / 10 * y) = sel σ m (x.map fun y => 1 / 10 * y) := by
      intro x
      apply List.ext_getElem?
      intro j
      rw [List.getElem?_map, sel_get, sel_get, List.length_map, List.getElem?_map]
      split_ifs <;> rfl
    have hmem : Full1 c.S (pos0.map fun p => (p, f (c.S.clip p))) := by
      intro p hp'
      obtain ⟨q, hq, rfl⟩ := List.mem_map.1 hp'
      exact hp q hq
    simp only [run, init, e0, map_clip σ m hS, map_pair (hf.clip hS) hp]
    rw [Compare.sortDesc_map (φ := p1 σ m) (fun _ _ => Iff.rfl), List.head?_map]
    cases hh : (sortDesc (fun e : List K × K => e.2) (pos0.map fun p => (p, f (c.S.clip p)))).head? with
    | none => exact ⟨rfl, fun t ht => by cases ht⟩
    | some b =>
      refine ⟨?_, fun t ht => ?_⟩
      · have e1 : ((pos0.map (sel σ m)).map fun p => ({ pos := p, vel := p.map fun x => 1 / 10 * x } : Neorl.PSO.Part K))
            = (pos0.map fun p => ({ pos := p, vel := p.map fun x => 1 / 10 * x } : Neorl.PSO.Part K)).map (mapPart σ m) := by
          simp only [List.map_map]
          exact List.map_congr_left fun x _ => by simp only [Function.comp_def, mapPart, ev]
        simp only [Option.map_some, Except.map, e1]
        rfl
      · cases ht
        refine ⟨?_, hmem, ?_⟩
        · intro p hp'
          obtain ⟨q, hq, rfl⟩ := List.mem_map.1 hp'
          exact ⟨hp q hq, by simp [hp q hq]⟩
        · refine hmem b ?_
          exact (sortDesc_perm _ _).mem_iff.1 (List.mem_of_head? hh)
  | succ g ih =>
    simp only [run, ih.1]
    cases h : run c f dr pos0 g with
    | error e => exact ⟨rfl, fun s' h => by cases h⟩
    | ok s => exact gen_sel hS hc hσ hf g (dr g) (ih.2 s h)

theorem evolute_sel {σ : ℕ → ℕ} {m : ℕ} {c : Conf K} (hS : c.S.OK) (hc : Cont c.S) (hσ : Within σ m c.S) (b : Bool) {f f' : List K → K}
    (hf : Same σ m c.S f f') (dr : ℕ → ℕ → Draw K) {pos0 : List (List K)} (hp : Full c.S pos0) :
    evolute (conf σ m c) b f' (fun g i => draw σ (dr g i)) (pos0.map (sel σ m)) = (evolute c b f dr pos0).map (mapResult σ m) := by
  unfold evolute
  have e1 : (conf σ m c).npar = c.npar := rfl
  have e2 : (conf σ m c).ngen = c.ngen := rfl
  rw [List.length_map, e1, e2]
  by_cases h1 : pos0.length ≠ c.npar
  · simp only [if_pos h1]; rfl
  simp only [if_neg h1, (run_sel hS hc hσ (hf.sgn (!b)) dr hp _).1]
  cases hr : run c (fun x => sgn (!b) (f x)) dr pos0 c.ngen with
  | error e => rfl
  | ok s =>
    have hF := (run_sel hS hc hσ (hf.sgn (!b)) dr hp _).2 s hr
    simp only [Except.map, mapState]
    by_cases h2 : c.ngen = 0
    · simp only [if_pos h2]
    simp only [if_neg h2]
    have em : ((s.swarm.map (mapPart σ m)).map fun p => (p.pos, sgn (!b) (f' ((conf σ m c).S.clip p.pos))))
        = (s.swarm.map fun p => (p.pos, sgn (!b) (f (c.S.clip p.pos)))).map (p1 σ m) := by
      simp only [List.map_map]
      refine List.map_congr_left fun x hx => ?_
      have := hf.clip hS x.pos (hF.1 x hx).1
      simp only at this
      simp only [Function.comp_def, mapPart, p1, conf, this]
    rw [em, Compare.sortDesc_map (φ := p1 σ m) (fun _ _ => Iff.rfl), ← List.map_take]
    simp [mapResult, p1, Function.comp_def]

end PSO

end

end Neorl.Reorder

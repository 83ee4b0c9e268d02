import Verif.Reorder
import Verif.RescaleACO

/-!
# Order of the variables: ant colony

Lemmas behind C141 for ACO.  No new code is modelled here.
-/

set_option linter.unusedSectionVars false
set_option linter.unusedVariables false
set_option linter.unusedSimpArgs false

namespace Neorl.Reorder.ACO

open Neorl.ACO
open Neorl.Rescale.ACO (roulette_lt full_gen)

variable {K : Type} [Field K] [LinearOrder K] [IsStrictOrderedRing K] [FloorRing K]

/-- The arguments in the new listing. -/
def conf (σ : ℕ → ℕ) (m : ℕ) (c : Conf K) : Conf K := { c with bounds := sel σ m c.bounds }

/-- Every variable keeps its draws. -/
def draws (σ : ℕ → ℕ) (dr : ℕ → ℕ → Draw K) : ℕ → ℕ → Draw K := fun i j => dr i (σ j)

def mapState (σ : ℕ → ℕ) (m : ℕ) (s : State K) : State K :=
  { s with arch := s.arch.map (p1 σ m), last := s.last.map (p1 σ m), log := s.log.map (sel σ m) }

def mapResult (σ : ℕ → ℕ) (m : ℕ) (r : Result K) : Result K :=
  { r with x := sel σ m r.x, lastPop := r.lastPop.map (p1 σ m), log := r.log.map (sel σ m) }

/-- Enough complete rows. -/
abbrev Rows (c : Conf K) (arch : List (Ant K)) : Prop := Rescale.ACO.Full c arch

theorem clip_ants {σ : ℕ → ℕ} {m : ℕ} {bs : List (K × K)} (hB : BoundsOK bs) (v : List K) : ensureBounds (sel σ m bs) (sel σ m v) = sel σ m (ensureBounds bs v) := by
  have hB' : BoundsOK (sel σ m bs) := fun p hp => hB p (sel_mem hp)
  rw [ensureBounds_eq_zipWith hB, ensureBounds_eq_zipWith hB', sel_zipWith]

theorem mean_sel {σ : ℕ → ℕ} {m : ℕ} {c : Conf K} (hσ : ∀ j < m, σ j < c.bounds.length) {arch : List (Ant K)} (h : Rows c arch) {l j : ℕ} (hl : l < c.narchive) (hj : j < m) :
    mean (arch.map (p1 σ m)) l j = mean arch l (σ j) := by
  have hl' : l < arch.length := hl.trans_le h.1
  have e1 : ((arch.map (p1 σ m)).map fun q => q.1).getD l [] = sel σ m (arch[l]).1 := by
    rw [List.getD_eq_getElem?_getD, List.getElem?_map, List.getElem?_map, List.getElem?_eq_getElem hl']
    rfl
  have e2 : (arch.map fun q => q.1).getD l [] = (arch[l]).1 := by
    rw [List.getD_eq_getElem?_getD, List.getElem?_map, List.getElem?_eq_getElem hl']
    rfl
  unfold mean
  rw [e1, e2]
  refine sel_getD 0 (fun j hj => ?_) hj
  rw [h.2 _ (List.getElem_mem hl')]
  exact hσ j hj

theorem sigma_sel {σ : ℕ → ℕ} {m : ℕ} {c : Conf K} (hσ : ∀ j < m, σ j < c.bounds.length) {arch : List (Ant K)} (h : Rows c arch) {l j : ℕ} (hl : l < c.narchive) (hj : j < m) :
    sigma (conf σ m c) (arch.map (p1 σ m)) l j = sigma c arch l (σ j) := by
  have e : (List.range c.narchive).map (fun r => |mean (arch.map (p1 σ m)) l j - mean (arch.map (p1 σ m)) r j|) =
      (List.range c.narchive).map (fun r => |mean arch l (σ j) - mean arch r (σ j)|) := by
    apply List.map_congr_left
    intro r hr
    rw [mean_sel hσ h hl hj, mean_sel hσ h (List.mem_range.1 hr) hj]
  unfold sigma
  show c.Z * ((List.range c.narchive).map (fun r => |mean (arch.map (p1 σ m)) l j - mean (arch.map (p1 σ m)) r j|)).sum / ((c.narchive : K) - 1) = _
  rw [e]

theorem coord_sel {σ : ℕ → ℕ} {m : ℕ} {c : Conf K} (hσ : ∀ j < m, σ j < c.bounds.length) {arch : List (Ant K)} (h : Rows c arch) (d : ℕ → Draw K) {j : ℕ} (hj : j < m) (p q : K × K) :
    coord (conf σ m c) (arch.map (p1 σ m)) (fun j => d (σ j)) j q = coord c arch d (σ j) p := by
  unfold coord
  have : probs (conf σ m c) = probs c := rfl
  rw [this]
  cases hk : roulette (probs c) (d (σ j)).1 with
  | error e => rfl
  | ok k =>
    have hk' : k < c.narchive := by
      have := roulette_lt hk
      simpa [probs] using this
    simp only [mean_sel hσ h hk' hj, sigma_sel hσ h hk' hj]

theorem mapRows_mk {X Y : Type} {f : ℕ → X → Py Y} : ∀ {i : ℕ} {xs : List X} {ys : List Y}, ys.length = xs.length → (∀ k x y, xs[k]? = some x → ys[k]? = some y → f (i + k) x = .ok y) → mapRows f i xs = .ok ys
  | i, [], [], _, _ => rfl
  | i, x :: xs, y :: ys, hl, h => by
    have h0 := h 0 x y rfl rfl
    have h1 := mapRows_mk (f := f) (i := i + 1) (xs := xs) (ys := ys) (by simpa using hl) fun k x y hx hy => by
      have := h (k + 1) x y (by simpa using hx) (by simpa using hy)
      rwa [show i + 1 + k = i + (k + 1) by omega]
    rw [Nat.add_zero] at h0
    simp only [mapRows, h0, h1]

theorem newAnt_sel {σ : ℕ → ℕ} {m : ℕ} {c : Conf K} (hB : BoundsOK c.bounds) (hσ : ∀ j < m, σ j < c.bounds.length) {arch : List (Ant K)} (h : Rows c arch) (dr : ℕ → ℕ → Draw K) (i : ℕ) {v : List K}
    (hv : newAnt c arch dr i = .ok v) : newAnt (conf σ m c) (arch.map (p1 σ m)) (draws σ dr) i = .ok (sel σ m v) := by
  unfold newAnt at hv
  split at hv
  · cases hv
  · rename_i w hw
    cases hv
    obtain ⟨w1, w2⟩ := mapRows_ok hw
    have hσw : ∀ j < m, σ j < w.length := fun j hj => by rw [w1]; exact hσ j hj
    have e : mapRows (coord (conf σ m c) (arch.map (p1 σ m)) (draws σ dr i)) 0 (conf σ m c).bounds = .ok (sel σ m w) := by
      refine mapRows_mk ?_ fun k p y hp hy => ?_
      · show (sel σ m w).length = (sel σ m c.bounds).length
        rw [sel_length hσw, sel_length hσ]
      · have hk : k < m := by
          have := (List.getElem?_eq_some_iff.1 hy).1
          rwa [sel_length hσw] at this
        rw [sel_get_full hσw, if_pos hk] at hy
        obtain ⟨q, hq, e⟩ := w2 (σ k) y hy
        rw [Nat.zero_add] at e ⊢
        rw [← e]
        exact coord_sel hσ h (dr i) hk q p
    unfold newAnt
    rw [e]
    exact congrArg Except.ok (clip_ants hB w)

theorem newAnts_sel {σ : ℕ → ℕ} {m : ℕ} {c : Conf K} (hB : BoundsOK c.bounds) (hσ : ∀ j < m, σ j < c.bounds.length) {arch : List (Ant K)} (h : Rows c arch) (dr : ℕ → ℕ → Draw K)
    {vs : List (List K)} (hv : newAnts c arch dr = .ok vs) : newAnts (conf σ m c) (arch.map (p1 σ m)) (draws σ dr) = .ok (vs.map (sel σ m)) ∧ ∀ v ∈ vs, v.length = c.bounds.length := by
  obtain ⟨w1, w2⟩ := mapRows_ok hv
  constructor
  · refine mapRows_mk ?_ fun k p y hp hy => ?_
    · rw [List.length_map, w1]
      rfl
    · rw [List.getElem?_map] at hy
      obtain ⟨v, hv, rfl⟩ := Option.map_eq_some_iff.1 hy
      obtain ⟨q, -, e⟩ := w2 k v hv
      exact newAnt_sel hB hσ h dr _ e
  · intro v hv
    obtain ⟨k, hk⟩ := List.getElem?_of_mem hv
    obtain ⟨x, -, hx⟩ := w2 k v hk
    exact (List.Forall₂.length_eq (newAnt_inBox hB hx)).symm

theorem gen_sel {σ : ℕ → ℕ} {m : ℕ} {c : Conf K} (hB : BoundsOK c.bounds) (hσ : ∀ j < m, σ j < c.bounds.length) {f f' : List K → K}
    (hf : ∀ x : List K, x.length = c.bounds.length → f' (sel σ m x) = f x) (dr : ℕ → ℕ → Draw K) (s : State K) (h : Rows c s.arch) {t : State K} (e : gen c f dr s = .ok t) :
    gen (conf σ m c) f' (draws σ dr) (mapState σ m s) = .ok (mapState σ m t) := by
  unfold gen at e ⊢
  have hn : (conf σ m c).narchive = c.narchive := rfl
  rw [hn]
  split_ifs at e with h1
  rw [if_neg h1]
  split at e
  · cases e
  · rename_i new hnew
    obtain ⟨a1, a2⟩ := newAnts_sel hB hσ h dr hnew
    have e0 : (mapState σ m s).arch = s.arch.map (p1 σ m) := rfl
    rw [e0, a1]
    have e1 : (new.map (sel σ m)).map (fun p => (p, f' p)) = (new.map fun p => (p, f p)).map (p1 σ m) := by
      rw [List.map_map, List.map_map]
      exact List.map_congr_left fun x hx => by simp only [Function.comp, p1, hf x (a2 x hx)]
    have e2 : (new.map (sel σ m)).map f' = new.map f := by
      rw [List.map_map]
      exact List.map_congr_left fun x hx => by simp only [Function.comp, hf x (a2 x hx)]
    have e3 : sortAsc (fun q : Ant K => q.2) (s.arch.map (p1 σ m) ++ (new.map fun p => (p, f p)).map (p1 σ m)) = (sortAsc (fun q : Ant K => q.2) (s.arch ++ new.map fun p => (p, f p))).map (p1 σ m) := by
      rw [← List.map_append]
      exact Compare.sortAsc_map (K := K) (key := fun q : Ant K => q.2) (φ := p1 σ m) (fun _ _ => Iff.rfl) _
    simp only [e1, e2, e3, ← List.map_take, List.getElem?_map] at e ⊢
    cases ht : ((sortAsc (fun q : Ant K => q.2) (s.arch ++ new.map fun p => (p, f p))).take c.narchive)[0]? with
    | none => rw [ht] at e; cases e
    | some top =>
      rw [ht] at e
      cases hl : listMin (new.map f) with
      | error e' => rw [hl] at e; cases e
      | ok mn =>
        rw [hl] at e
        cases e
        simp [mapState, p1]

theorem run_sel {σ : ℕ → ℕ} {m : ℕ} {c : Conf K} (hB : BoundsOK c.bounds) (hσ : ∀ j < m, σ j < c.bounds.length) {f f' : List K → K}
    (hf : ∀ x : List K, x.length = c.bounds.length → f' (sel σ m x) = f x) (dr : ℕ → ℕ → ℕ → Draw K)
    {pos0 : List (List K)} (h0 : c.narchive ≤ pos0.length ∧ ∀ p ∈ pos0, p.length = c.bounds.length) (g : ℕ) : ∀ {s : State K}, run c f dr pos0 g = .ok s →
    run (conf σ m c) f' (fun g => draws σ (dr g)) (pos0.map (sel σ m)) g = .ok (mapState σ m s) ∧ Rows c s.arch := by
  induction g with
  | zero =>
    intro s hs
    cases hs
    constructor
    · simp only [run, mapState, Except.ok.injEq]
      have e1 : (pos0.map (sel σ m)).map (fun p => (p, f' p)) = (pos0.map fun p => (p, f p)).map (p1 σ m) := by
        rw [List.map_map, List.map_map]
        exact List.map_congr_left fun x hx => by simp only [Function.comp, p1, hf x (h0.2 x hx)]
      rw [e1, Compare.sortAsc_map (K := K) (key := fun q : Ant K => q.2) (φ := p1 σ m) (fun _ _ => Iff.rfl)]
      rfl
    · refine ⟨by simpa using h0.1, fun p hp => ?_⟩
      obtain ⟨q, hq, rfl⟩ := List.mem_map.1 (mem_sortAsc.1 hp)
      exact h0.2 q hq
  | succ g ih =>
    intro s hs
    simp only [run] at hs ⊢
    cases hr : run c f dr pos0 g with
    | error e => rw [hr] at hs; cases hs
    | ok t =>
      rw [hr] at hs
      obtain ⟨i1, i2⟩ := ih hr
      rw [i1]
      exact ⟨gen_sel hB hσ hf (dr g) t i2 hs, full_gen hB i2 hs⟩

theorem evolute_sel {σ : ℕ → ℕ} {m : ℕ} {c : Conf K} (hB : BoundsOK c.bounds) (hσ : ∀ j < m, σ j < c.bounds.length) (b : Bool) {f f' : List K → K}
    (hf : ∀ x : List K, x.length = c.bounds.length → f' (sel σ m x) = f x) (dr : ℕ → ℕ → ℕ → Draw K) {pos0 : List (List K)} (h0 : ∀ p ∈ pos0, p.length = c.bounds.length) {r : Result K}
    (hr : evolute c b f dr pos0 = .ok r) : evolute (conf σ m c) b f' (fun g => draws σ (dr g)) (pos0.map (sel σ m)) = .ok (mapResult σ m r) := by
  unfold evolute at hr ⊢
  have e1 : (conf σ m c).narchive = c.narchive := rfl
  have e2 : (conf σ m c).nants = c.nants := rfl
  have e3 : (conf σ m c).ngen = c.ngen := rfl
  rw [e1, e2, e3, List.length_map]
  by_cases h1 : ¬c.narchive ≤ c.nants
  · rw [if_pos h1] at hr
    cases hr
  rw [if_neg h1] at hr ⊢
  by_cases h2 : pos0.length ≠ c.nants
  · rw [if_pos h2] at hr
    cases hr
  rw [if_neg h2] at hr ⊢
  cases hs : run c (fun x => sgn b (f x)) dr pos0 c.ngen with
  | error e => rw [hs] at hr; cases hr
  | ok s =>
    rw [hs] at hr
    rw [(run_sel hB hσ (f := fun x => sgn b (f x)) (f' := fun x => sgn b (f' x)) (fun x hx => by simp only [hf x hx]) dr (pos0 := pos0) ⟨by omega, h0⟩ c.ngen hs).1]
    simp only at hr ⊢
    by_cases hg : c.ngen = 0
    · rw [if_pos hg] at hr
      cases hr
    · rw [if_neg hg] at hr ⊢
      simp only [mapState, List.getElem?_map]
      cases ht : s.arch[0]? with
      | none => rw [ht] at hr; cases hr
      | some top =>
        rw [ht] at hr
        cases hr
        simp [mapResult, p1, Function.comp_def]

end Neorl.Reorder.ACO

import Verif.Rescale
import Verif.Compare
import Verif.ACO

/-!
# Units of the variables: ant colony

Lemmas behind C138 for ACO.  No new code is modelled here.
-/

set_option linter.unusedSectionVars false
set_option linter.unusedVariables false
set_option linter.unusedSimpArgs false

namespace Neorl.Rescale.ACO

open Neorl.ACO

variable {K : Type} [Field K] [LinearOrder K] [IsStrictOrderedRing K] [FloorRing K]

/-- The arguments in the new units. -/
def conf (a b : ℕ → K) (c : Conf K) : Conf K := { c with bounds := c.bounds.mapIdx fun j p => (a j * p.1 + b j, a j * p.2 + b j) }

def mapState (a b : ℕ → K) (s : State K) : State K :=
  { s with arch := s.arch.map (p1 a b), last := s.last.map (p1 a b), log := s.log.map (pt a b) }

def mapResult (a b : ℕ → K) (r : Result K) : Result K :=
  { r with x := pt a b r.x, lastPop := r.lastPop.map (p1 a b), log := r.log.map (pt a b) }

/-- Enough complete rows. -/
def Full (c : Conf K) (arch : List (Ant K)) : Prop := c.narchive ≤ arch.length ∧ ∀ p ∈ arch, p.1.length = c.bounds.length

theorem clip_ants {a b : ℕ → K} (ha : ∀ j, 0 < a j) {bs : List (K × K)} (hB : BoundsOK bs) (v : List K) :
    ensureBounds (bs.mapIdx fun j p => (a j * p.1 + b j, a j * p.2 + b j)) (pt a b v) = pt a b (ensureBounds bs v) := by
  have hB' : BoundsOK (bs.mapIdx fun j p => (a j * p.1 + b j, a j * p.2 + b j)) := by
    intro q hq
    obtain ⟨j, hj, rfl⟩ := List.mem_mapIdx.1 hq
    have := hB _ (List.getElem_mem hj)
    have := (ha j).le
    simp only
    nlinarith
  rw [ensureBounds_eq_zipWith hB, ensureBounds_eq_zipWith hB']
  apply List.ext_getElem?
  intro j
  rw [List.getElem?_zipWith, pt_get, pt_get, List.getElem?_zipWith]
  simp only [List.getElem?_mapIdx]
  cases hb : bs[j]? with
  | none => rfl
  | some q =>
    cases hv : v[j]? with
    | none => rfl
    | some x =>
      simp only [Option.map_some, clamp]
      have hm : Monotone fun z : K => a j * z + b j := fun y z h => by
        have := mul_le_mul_of_nonneg_left h (ha j).le
        simp only; linarith
      rw [← hm.map_min, ← hm.map_max]

theorem mean_pt (a b : ℕ → K) {c : Conf K} {arch : List (Ant K)} (h : Full c arch) {l j : ℕ} (hl : l < c.narchive) (hj : j < c.bounds.length) :
    mean (arch.map (p1 a b)) l j = a j * mean arch l j + b j := by
  have hl' : l < arch.length := hl.trans_le h.1
  have e1 : ((arch.map (p1 a b)).map fun q => q.1).getD l [] = pt a b (arch[l]).1 := by
    rw [List.getD_eq_getElem?_getD, List.getElem?_map, List.getElem?_map, List.getElem?_eq_getElem hl']
    rfl
  have e2 : (arch.map fun q => q.1).getD l [] = (arch[l]).1 := by
    rw [List.getD_eq_getElem?_getD, List.getElem?_map, List.getElem?_eq_getElem hl']
    rfl
  unfold mean
  rw [e1, e2, pt_getD]
  rw [h.2 _ (List.getElem_mem hl')]
  exact hj

theorem sigma_pt {a : ℕ → K} (ha : ∀ j, 0 < a j) (b : ℕ → K) {c : Conf K} {arch : List (Ant K)} (h : Full c arch) {l j : ℕ} (hl : l < c.narchive) (hj : j < c.bounds.length) :
    sigma (conf a b c) (arch.map (p1 a b)) l j = a j * sigma c arch l j := by
  have e : (List.range c.narchive).map (fun r => |mean (arch.map (p1 a b)) l j - mean (arch.map (p1 a b)) r j|) =
      (List.range c.narchive).map (fun r => a j * |mean arch l j - mean arch r j|) := by
    apply List.map_congr_left
    intro r hr
    rw [mean_pt a b h hl hj, mean_pt a b h (List.mem_range.1 hr) hj, show a j * mean arch l j + b j - (a j * mean arch r j + b j) = a j * (mean arch l j - mean arch r j) by ring, abs_mul, abs_of_pos (ha j)]
  unfold sigma
  show c.Z * ((List.range c.narchive).map (fun r => |mean (arch.map (p1 a b)) l j - mean (arch.map (p1 a b)) r j|)).sum / ((c.narchive : K) - 1) = _
  rw [e, List.sum_map_mul_left]
  ring

theorem roulette_lt {r : K} : ∀ {i : ℕ} {acc : K} {ps : List K} {k : ℕ}, rouletteFrom r i acc ps = .ok k → k < i + ps.length
  | i, acc, [], k, h => by cases h
  | i, acc, p :: ps, k, h => by
    unfold rouletteFrom at h
    split_ifs at h
    · cases h
      simp
    · have := roulette_lt h
      simp only [List.length_cons]
      omega

theorem coord_pt {a : ℕ → K} (ha : ∀ j, 0 < a j) (b : ℕ → K) {c : Conf K} {arch : List (Ant K)} (h : Full c arch) (d : ℕ → Draw K) {j : ℕ} (hj : j < c.bounds.length) (p q : K × K) :
    coord (conf a b c) (arch.map (p1 a b)) d j q = (coord c arch d j p).map fun x => a j * x + b j := by
  unfold coord
  have : probs (conf a b c) = probs c := rfl
  rw [this]
  cases hk : roulette (probs c) (d j).1 with
  | error e => rfl
  | ok k =>
    have hk' : k < c.narchive := by
      have := roulette_lt hk
      simpa [probs] using this
    simp only [Except.map, mean_pt a b h hk' hj, sigma_pt ha b h hk' hj, Except.ok.injEq]
    ring

theorem mapRows_idx {X : Type} {ψ : ℕ → K → K} {f g : ℕ → X → Py K} : ∀ (xs ys : List X) (i : ℕ), xs.length = ys.length →
    (∀ j, i ≤ j → j < i + xs.length → ∀ x y, g j y = (f j x).map (ψ j)) → mapRows g i ys = (mapRows f i xs).map fun l => l.mapIdx fun k x => ψ (i + k) x
  | [], [], i, _, _ => rfl
  | x :: xs, y :: ys, i, hl, h => by
    have h1 := h i le_rfl (by simp) x y
    have h2 := mapRows_idx xs ys (i + 1) (by simpa using hl) fun j h1 h2 => h j (by omega) (by simp only [List.length_cons]; omega)
    simp only [mapRows, h1, h2]
    cases f i x with
    | error e => rfl
    | ok v =>
      simp only [Except.map]
      cases mapRows f (i + 1) xs with
      | error e => rfl
      | ok l =>
        simp only [List.mapIdx_cons, Nat.add_zero, Except.ok.injEq, List.cons.injEq, true_and]
        congr 1
        funext k z
        congr 1
        omega

theorem newAnt_pt {a : ℕ → K} (ha : ∀ j, 0 < a j) (b : ℕ → K) {c : Conf K} (hB : BoundsOK c.bounds) {arch : List (Ant K)} (h : Full c arch) (dr : ℕ → ℕ → Draw K) (i : ℕ) :
    newAnt (conf a b c) (arch.map (p1 a b)) dr i = (newAnt c arch dr i).map (pt a b) := by
  have e := mapRows_idx (ψ := fun j x => a j * x + b j) (f := coord c arch (dr i)) (g := coord (conf a b c) (arch.map (p1 a b)) (dr i)) c.bounds (conf a b c).bounds 0 (by simp [conf])
    fun j _ hj x y => coord_pt ha b h (dr i) (by simpa using hj) x y
  unfold newAnt
  rw [e]
  cases mapRows (coord c arch (dr i)) 0 c.bounds with
  | error e => rfl
  | ok v =>
    simp only [Except.map, Except.ok.injEq]
    have : (v.mapIdx fun k x => a (0 + k) * x + b (0 + k)) = pt a b v := by
      apply List.ext_getElem?
      intro j
      rw [pt_get, List.getElem?_mapIdx]
      simp
    rw [this]
    exact clip_ants ha hB v

theorem newAnts_pt {a : ℕ → K} (ha : ∀ j, 0 < a j) (b : ℕ → K) {c : Conf K} (hB : BoundsOK c.bounds) {arch : List (Ant K)} (h : Full c arch) (dr : ℕ → ℕ → Draw K) :
    newAnts (conf a b c) (arch.map (p1 a b)) dr = (newAnts c arch dr).map (List.map (pt a b)) := by
  have := mapRows_pt (φ := id) (ψ := pt a b) (f := fun i (_ : Unit) => newAnt c arch dr i) (g := fun i _ => newAnt (conf a b c) (arch.map (p1 a b)) dr i) (xs := List.replicate c.nants ())
    (fun i x _ => newAnt_pt ha b hB h dr i) 0
  rw [List.map_id] at this
  exact this

theorem gen_pt {a : ℕ → K} (ha : ∀ j, 0 < a j) (b : ℕ → K) {c : Conf K} (hB : BoundsOK c.bounds) {f f' : List K → K} (hf : ∀ x, f' (pt a b x) = f x) (dr : ℕ → ℕ → Draw K) (s : State K)
    (h : Full c s.arch) : gen (conf a b c) f' dr (mapState a b s) = (gen c f dr s).map (mapState a b) := by
  unfold gen
  have hn : (conf a b c).narchive = c.narchive := rfl
  rw [hn]
  split_ifs
  · rfl
  have e := newAnts_pt ha b hB h dr
  have e0 : (mapState a b s).arch = s.arch.map (p1 a b) := rfl
  rw [e0, e]
  cases newAnts c s.arch dr with
  | error e => rfl
  | ok new =>
    simp only [Except.map]
    have e1 : (new.map (pt a b)).map (fun p => (p, f' p)) = (new.map fun p => (p, f p)).map (p1 a b) := by
      simp [p1, hf, Function.comp_def]
    have e2 : (new.map (pt a b)).map f' = new.map f := by simp [hf, Function.comp_def]
    have e3 : sortAsc (fun q : Ant K => q.2) (s.arch.map (p1 a b) ++ (new.map fun p => (p, f p)).map (p1 a b)) = (sortAsc (fun q : Ant K => q.2) (s.arch ++ new.map fun p => (p, f p))).map (p1 a b) := by
      rw [← List.map_append]
      exact Compare.sortAsc_map (K := K) (key := fun q : Ant K => q.2) (φ := p1 a b) (fun _ _ => Iff.rfl) _
    rw [e1, e2, e3, ← List.map_take, List.getElem?_map]
    cases ((sortAsc (fun q : Ant K => q.2) (s.arch ++ new.map fun p => (p, f p))).take c.narchive)[0]? with
    | none => rfl
    | some top =>
      cases listMin (new.map f) with
      | error e => rfl
      | ok mn => simp [mapState, p1]

theorem full_gen {c : Conf K} (hB : BoundsOK c.bounds) {f : List K → K} {dr : ℕ → ℕ → Draw K} {s t : State K} (h : Full c s.arch) (e : gen c f dr s = .ok t) : Full c t.arch := by
  unfold gen at e
  split_ifs at e
  split at e
  · cases e
  · rename_i new hnew
    simp only at e
    split at e
    · cases e
      constructor
      · simp only [List.length_take, length_sortAsc, List.length_append]
        have := h.1
        omega
      · intro p hp
        rcases List.mem_append.1 (mem_sortAsc.1 (List.mem_of_mem_take hp)) with hp | hp
        · exact h.2 p hp
        · obtain ⟨q, hq, rfl⟩ := List.mem_map.1 hp
          obtain ⟨k, hk⟩ := List.getElem?_of_mem hq
          obtain ⟨x, -, hx⟩ := (mapRows_ok hnew).2 k q hk
          exact (List.Forall₂.length_eq (newAnt_inBox hB hx)).symm
    · cases e
    · cases e

theorem run_pt {a : ℕ → K} (ha : ∀ j, 0 < a j) (b : ℕ → K) {c : Conf K} (hB : BoundsOK c.bounds) {f f' : List K → K} (hf : ∀ x, f' (pt a b x) = f x) (dr : ℕ → ℕ → ℕ → Draw K)
    {pos0 : List (List K)} (h0 : c.narchive ≤ pos0.length ∧ ∀ p ∈ pos0, p.length = c.bounds.length) (g : ℕ) :
    run (conf a b c) f' dr (pos0.map (pt a b)) g = (run c f dr pos0 g).map (mapState a b) ∧ ∀ s, run c f dr pos0 g = .ok s → Full c s.arch := by
  induction g with
  | zero =>
    constructor
    · simp only [run, Except.map, mapState, Except.ok.injEq]
      have e1 : (pos0.map (pt a b)).map (fun p => (p, f' p)) = (pos0.map fun p => (p, f p)).map (p1 a b) := by
        simp [p1, hf, Function.comp_def]
      rw [e1, Compare.sortAsc_map (φ := p1 a b) (fun _ _ => Iff.rfl)]
      rfl
    · intro s hs
      cases hs
      refine ⟨by simpa using h0.1, fun p hp => ?_⟩
      obtain ⟨q, hq, rfl⟩ := List.mem_map.1 (mem_sortAsc.1 hp)
      exact h0.2 q hq
  | succ g ih =>
    obtain ⟨i1, i2⟩ := ih
    simp only [run, i1]
    cases hr : run c f dr pos0 g with
    | error e => exact ⟨rfl, fun s hs => by cases hs⟩
    | ok s => exact ⟨gen_pt ha b hB hf (dr g) s (i2 s hr), fun t ht => full_gen hB (i2 s hr) ht⟩

theorem evolute_pt {a : ℕ → K} (ha : ∀ j, 0 < a j) (b : ℕ → K) {c : Conf K} (hB : BoundsOK c.bounds) (m : Bool) {f f' : List K → K} (hf : ∀ x, f' (pt a b x) = f x)
    (dr : ℕ → ℕ → ℕ → Draw K) {pos0 : List (List K)} (h0 : ∀ p ∈ pos0, p.length = c.bounds.length) :
    evolute (conf a b c) m f' dr (pos0.map (pt a b)) = (evolute c m f dr pos0).map (mapResult a b) := by
  unfold evolute
  have e1 : (conf a b c).narchive = c.narchive := rfl
  have e2 : (conf a b c).nants = c.nants := rfl
  have e3 : (conf a b c).ngen = c.ngen := rfl
  rw [e1, e2, e3, List.length_map]
  by_cases h1 : ¬c.narchive ≤ c.nants
  · rw [if_pos h1, if_pos h1]
    rfl
  rw [if_neg h1, if_neg h1]
  by_cases h2 : pos0.length ≠ c.nants
  · rw [if_pos h2, if_pos h2]
    rfl
  rw [if_neg h2, if_neg h2]
  · have h := (run_pt ha b hB (f := fun x => sgn m (f x)) (f' := fun x => sgn m (f' x)) (fun x => by simp only [hf]) dr (pos0 := pos0) ⟨by omega, h0⟩ c.ngen).1
    rw [h]
    cases run c (fun x => sgn m (f x)) dr pos0 c.ngen with
    | error e => rfl
    | ok s =>
      simp only [Except.map]
      by_cases hg : c.ngen = 0
      · rw [if_pos hg, if_pos hg]
      · rw [if_neg hg, if_neg hg]
        simp only [mapState, List.getElem?_map]
        cases s.arch[0]? with
        | none => rfl
        | some top => simp [mapResult, p1, Function.comp_def]

end Neorl.Rescale.ACO

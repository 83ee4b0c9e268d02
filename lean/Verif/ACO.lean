import Verif.Feasible
import Verif.Best
import Verif.Sort

/-!
# Ant colony optimisation (ACOR)

Model of `neorl/evolu/aco.py`.  Fitness is an arbitrary function of the position.  Variable types are never consulted by the main
loop, so a space is just its list of bounds.  All new ants share one numpy array until line 152 rebinds each position
(`createEmptyNewPopulations`, lines 344-355); every coordinate is overwritten before that, so the sharing is not observable.
-/

set_option linter.unusedSectionVars false
set_option linter.unusedVariables false

namespace Neorl.ACO

section
variable {K : Type} [Field K] [LinearOrder K] [IsStrictOrderedRing K]

/-- Arguments, `neorl/evolu/aco.py` lines 48-80 and 112; `norm` stands for `sqrt(2 pi)`, `expf` for `exp`. -/
structure Conf (K : Type) where
  bounds : List (K × K)
  nants : ℕ
  narchive : ℕ
  ngen : ℕ
  Q : K
  Z : K
  norm : K
  expf : K → K

/-- Draws for one coordinate of one ant: the roulette number and the normal variate. -/
abbrev Draw (K : Type) := K × K

/-- `__computePdf`, lines 81-88: weight of archive rank `l`. -/
def weight (c : Conf K) (l : ℕ) : K :=
  1 / (c.norm * c.Q * (c.narchive : K)) * (c.expf (-(1 / 2) * (((l : K) - 1) / (c.Q * (c.narchive : K))))) ^ 2

/-- `self.__probs`, line 135. -/
def probs (c : Conf K) : List K :=
  let w := (List.range c.narchive).map (weight c)
  w.map (fun v => v / w.sum)

/-- `__rouletteWheelSelection`, lines 90-97: first index whose cumulative sum is at least `r`; `acc` is the sum so far. -/
def rouletteFrom (r : K) : ℕ → K → List K → Py ℕ
  | _, _, [] => .error .indexError
  | i, acc, p :: ps => if r ≤ acc + p then .ok i else rouletteFrom r (i + 1) (acc + p) ps

def roulette (ps : List K) (r : K) : Py ℕ := rouletteFrom r 0 0 ps

/-- A `Population` object: position and cost. -/
abbrev Ant (K : Type) := List K × K

/-- Column `j` of `self.__means` row `l`, line 143. -/
def mean (arch : List (Ant K)) (l j : ℕ) : K := ((arch.map (fun a => a.1)).getD l []).getD j 0

/-- `self.__sigmas[l, j]`, lines 146-150. -/
def sigma (c : Conf K) (arch : List (Ant K)) (l j : ℕ) : K :=
  c.Z * ((List.range c.narchive).map (fun r => |mean arch l j - mean arch r j|)).sum / ((c.narchive : K) - 1)

/-- Coordinate `j` of a new ant, lines 155-158. -/
def coord (c : Conf K) (arch : List (Ant K)) (d : ℕ → Draw K) (j : ℕ) (_ : K × K) : Py K :=
  match roulette (probs c) (d j).1 with
  | .error e => .error e
  | .ok k => .ok (mean arch k j + sigma c arch k j * (d j).2)

/-- One new ant, lines 153-160. -/
def newAnt (c : Conf K) (arch : List (Ant K)) (dr : ℕ → ℕ → Draw K) (i : ℕ) : Py (List K) :=
  match mapRows (coord c arch (dr i)) 0 c.bounds with
  | .error e => .error e
  | .ok v => .ok (ensureBounds c.bounds v)

/-- `nants` new ants. -/
def newAnts (c : Conf K) (arch : List (Ant K)) (dr : ℕ → ℕ → Draw K) : Py (List (List K)) :=
  mapRows (fun i _ => newAnt c arch dr i) 0 (List.replicate c.nants ())

/-- State between iterations. -/
structure State (K : Type) where
  arch : List (Ant K)
  global : List K
  locals : List K
  last : List (Ant K)
  log : List (List K)

/-- `np.min`. -/
def listMin : List K → Py K
  | [] => .error .valueError
  | v :: vs => .ok (vs.foldl min v)

/-- One iteration, lines 139-190.  With `narchive = 1` line 150 divides by zero: numpy returns NaN coordinates, which
`ensure_bounds` drops; that case is outside the model (reported as an error). -/
def gen (c : Conf K) (fit : List K → K) (dr : ℕ → ℕ → Draw K) (s : State K) : Py (State K) :=
  if c.narchive = 1 then .error .zeroDivision else
  match newAnts c s.arch dr with
  | .error e => .error e
  | .ok new =>
    let ants := new.map (fun p => (p, fit p))
    let arch := (sortAsc (fun a : Ant K => a.2) (s.arch ++ ants)).take c.narchive
    match arch[0]?, listMin (new.map fit) with
    | some top, .ok mn =>
      .ok { arch := arch, global := s.global ++ [top.2], locals := s.locals ++ [mn], last := ants, log := s.log ++ new }
    | none, _ => .error .indexError
    | _, .error e => .error e

/-- Initial archive (lines 122-133 and 334-341: all `nants` initial ants, sorted, *not* truncated), then `g` iterations. -/
def run (c : Conf K) (fit : List K → K) (dr : ℕ → ℕ → ℕ → Draw K) (pos0 : List (List K)) : ℕ → Py (State K)
  | 0 => .ok { arch := sortAsc (fun a : Ant K => a.2) (pos0.map (fun p => (p, fit p))), global := [], locals := [], last := [], log := pos0 }
  | g + 1 =>
    match run c fit dr pos0 g with
    | .error e => .error e
    | .ok s => gen c fit (dr g) s

/-- What `evolute` returns, plus the ghost log. -/
structure Result (K : Type) where
  x : List K
  y : K
  global : List K
  locals : List K
  lastPop : List (Ant K)
  log : List (List K)

/-- `evolute`, lines 112-227 (and the assertion of line 51).  With `ngen = 0`, `self.__best_solutions[-1]` raises. -/
def evolute (c : Conf K) (m : Bool) (userFit : List K → K) (dr : ℕ → ℕ → ℕ → Draw K) (pos0 : List (List K)) : Py (Result K) :=
  if ¬ c.narchive ≤ c.nants then .error .assertion else
  if pos0.length ≠ c.nants then .error .assertion else
  match run c (fun x => sgn m (userFit x)) dr pos0 c.ngen with
  | .error e => .error e
  | .ok s =>
    if c.ngen = 0 then .error .indexError else
    match s.arch[0]? with
    | none => .error .indexError
    | some top =>
      .ok { x := top.1, y := sgn m top.2, global := s.global.map (sgn m), locals := s.locals.map (sgn m),
            lastPop := s.last.map (fun a => (a.1, sgn m a.2)), log := s.log }

/-! ### Lemmas -/

theorem listMin_spec {vs : List K} {y : K} (h : listMin vs = .ok y) : y ∈ vs ∧ ∀ v ∈ vs, y ≤ v := by
  have key : ∀ (vs : List K) (a : K), (vs.foldl min a = a ∨ vs.foldl min a ∈ vs) ∧ vs.foldl min a ≤ a ∧ ∀ v ∈ vs, vs.foldl min a ≤ v := by
    intro vs
    induction vs with
    | nil => simp
    | cons v vs ih =>
      intro a
      obtain ⟨h1, h2, h3⟩ := ih (min a v)
      simp only [List.foldl_cons]
      refine ⟨?_, h2.trans (min_le_left _ _), ?_⟩
      · rcases h1 with h1 | h1
        · rw [h1]
          rcases min_choice a v with h | h
          · exact Or.inl h
          · right; rw [h]; simp
        · right; simp [h1]
      · intro w hw
        rcases List.mem_cons.1 hw with rfl | hw
        · exact h2.trans (min_le_right _ _)
        · exact h3 w hw
  cases vs with
  | nil => cases h
  | cons v vs =>
    cases h
    obtain ⟨h1, h2, h3⟩ := key vs v
    refine ⟨?_, ?_⟩
    · rcases h1 with h1 | h1
      · rw [h1]; simp
      · simp [h1]
    · intro w hw
      rcases List.mem_cons.1 hw with rfl | hw
      · exact h2
      · exact h3 w hw

theorem newAnt_inBox {c : Conf K} (hb : BoundsOK c.bounds) {arch : List (Ant K)} {dr : ℕ → ℕ → Draw K} {i : ℕ} {v : List K}
    (h : newAnt c arch dr i = .ok v) : InBox c.bounds v := by
  unfold newAnt at h
  split at h
  · cases h
  · rename_i w hw
    cases h
    exact ensureBounds_inBox hb (mapRows_ok hw).1

/-- Everything known about the state after `g` iterations. -/
structure Inv (c : Conf K) (fit : List K → K) (g : ℕ) (s : State K) : Prop where
  narch : s.arch.length = if g = 0 then c.nants else c.narchive
  sorted : s.arch.Pairwise (fun a b => a.2 ≤ b.2)
  own : ∀ a ∈ s.arch, a.1 ∈ s.log ∧ a.2 = fit a.1
  keep : ∀ z ∈ s.log, (z, fit z) ∈ s.arch ∨ (g ≠ 0 ∧ ∀ a ∈ s.arch, a.2 ≤ fit z)
  box : ∀ z ∈ s.log, InBox c.bounds z
  len : s.log.length = (g + 1) * c.nants
  hist : HistBest true fit c.nants c.nants s.log s.global
  locals : BlockBest true fit c.nants c.nants s.log s.locals
  lens : s.global.length = g ∧ s.locals.length = g
  lastg : g ≠ 0 → ∃ top, s.arch[0]? = some top ∧ s.global.getLast? = some top.2
  last : g ≠ 0 → s.last = (s.log.drop (g * c.nants)).map (fun x => (x, fit x))

theorem top_best {fit : List K → K} {arch : List (Ant K)} {log : List (List K)}
    (hs : arch.Pairwise (fun a b => a.2 ≤ b.2)) (ho : ∀ a ∈ arch, a.1 ∈ log ∧ a.2 = fit a.1)
    (hk : ∀ z ∈ log, (z, fit z) ∈ arch ∨ ∀ a ∈ arch, a.2 ≤ fit z) {top : Ant K} (ht : arch[0]? = some top) :
    IsBest true fit log top.1 top.2 := by
  have htm := List.mem_of_getElem? ht
  obtain ⟨o1, o2⟩ := ho top htm
  refine ⟨o1, o2, ?_⟩
  intro z hz
  simp only [NotWorse, if_true]
  have hmin : ∀ a ∈ arch, top.2 ≤ a.2 := by
    intro a ha
    cases arch with
    | nil => cases ha
    | cons b l =>
      simp at ht
      subst ht
      rcases List.mem_cons.1 ha with rfl | ha
      · exact le_rfl
      · exact (List.pairwise_cons.1 hs).1 a ha
  rcases hk z hz with h | h
  · exact hmin _ h
  · exact h top htm

theorem run_inv {c : Conf K} (hb : BoundsOK c.bounds) (hna : c.narchive ≤ c.nants) {fit : List K → K} {dr : ℕ → ℕ → ℕ → Draw K}
    {pos0 : List (List K)} (hn : pos0.length = c.nants) (hf : ∀ p ∈ pos0, InBox c.bounds p) {g : ℕ} {s : State K}
    (h : run c fit dr pos0 g = .ok s) : Inv c fit g s := by
  induction g generalizing s with
  | zero =>
    cases h
    refine ⟨by simp [hn], sortAsc_sorted _ _, ?_, ?_, hf, by simp [hn], ?_, blockBest_nil _ _ _ _ _, by simp, by simp, by simp⟩
    · intro a ha
      rw [mem_sortAsc] at ha
      obtain ⟨p, hp, rfl⟩ := List.mem_map.1 ha
      exact ⟨hp, rfl⟩
    · intro z hz
      left
      rw [mem_sortAsc]
      exact List.mem_map.2 ⟨z, hz, rfl⟩
    · have := histBest_nil true fit c.nants pos0
      rw [hn] at this
      exact this
  | succ g ih =>
    simp only [run] at h
    split at h
    · cases h
    rename_i s0 h0
    have hi := ih h0
    unfold gen at h
    split_ifs at h with h1
    split at h
    · cases h
    rename_i new hnew
    simp only at h
    split at h
    · rename_i top mn htop hmn
      cases h
      have hln : new.length = c.nants := by rw [(mapRows_ok hnew).1]; simp
      have hnewbox : ∀ z ∈ new, InBox c.bounds z :=
        mapRows_forall (P := fun _ : Unit => True) hnew (fun _ _ => trivial) (fun i x y _ h => newAnt_inBox hb h)
      set A := (sortAsc (fun a : Ant K => a.2) (s0.arch ++ new.map (fun p => (p, fit p)))).take c.narchive with hA
      have hlA : A.length = c.narchive := by
        rw [hA, List.length_take, length_sortAsc, List.length_append, List.length_map, hln]; omega
      have hsA : A.Pairwise (fun a b => a.2 ≤ b.2) := (sortAsc_sorted _ _).sublist (List.take_sublist _ _)
      have hoA : ∀ a ∈ A, a.1 ∈ s0.log ++ new ∧ a.2 = fit a.1 := by
        intro a ha
        have := (mem_sortAsc).1 (List.mem_of_mem_take ha)
        rcases List.mem_append.1 this with h | h
        · exact ⟨List.mem_append_left _ (hi.own a h).1, (hi.own a h).2⟩
        · obtain ⟨p, hp, rfl⟩ := List.mem_map.1 h
          exact ⟨List.mem_append_right _ hp, rfl⟩
      have hpool : ∀ z, (z, fit z) ∈ s0.arch ++ new.map (fun p => (p, fit p)) → (z, fit z) ∈ A ∨ ∀ a ∈ A, a.2 ≤ fit z := by
        intro z hm
        have hm' := (mem_sortAsc (key := fun a : Ant K => a.2)).2 hm
        have hs2 := sortAsc_sorted (fun a : Ant K => a.2) (s0.arch ++ new.map (fun p => (p, fit p)))
        rw [← List.take_append_drop c.narchive (sortAsc _ _)] at hm' hs2
        rcases List.mem_append.1 hm' with h | h
        · exact Or.inl h
        · right
          intro a ha
          rw [List.pairwise_append] at hs2
          exact hs2.2.2 a ha _ h
      have hkA : ∀ z ∈ s0.log ++ new, (z, fit z) ∈ A ∨ ∀ a ∈ A, a.2 ≤ fit z := by
        intro z hz
        rcases List.mem_append.1 hz with hz | hz
        · rcases hi.keep z hz with h | ⟨hg, h⟩
          · exact hpool z (List.mem_append_left _ h)
          · right
            refine sorted_take_small (key := fun a : Ant K => a.2) (sortAsc_sorted _ _) ?_
            rw [(sortAsc_perm _ _).countP_eq, List.countP_append]
            have : s0.arch.countP (fun p => decide (p.2 ≤ fit z)) = s0.arch.length := by
              rw [List.countP_eq_length]
              intro a ha
              simpa using h a ha
            rw [this, hi.narch, if_neg hg]
            omega
        · exact hpool z (List.mem_append_right _ (List.mem_map.2 ⟨z, hz, rfl⟩))
      have htb := top_best hsA hoA hkA htop
      obtain ⟨m1, m2⟩ := listMin_spec hmn
      refine ⟨by simp [hlA], hsA, hoA, fun z hz => (hkA z hz).imp id (fun h => ⟨by omega, h⟩), ?_, ?_, ?_, ?_, by simp [hi.lens], ?_, ?_⟩
      · intro z hz
        rcases List.mem_append.1 hz with hz | hz
        · exact hi.box z hz
        · exact hnewbox z hz
      · rw [List.length_append, hi.len, hln]; ring
      · exact hi.hist.step hln ⟨⟨top.1, htb.1, htb.2.1.symm⟩, htb.2.2⟩
      · refine hi.locals.step (by rw [hi.len, hi.lens.2]; ring) hln ?_
        obtain ⟨z, hz, e⟩ := List.mem_map.1 m1
        exact ⟨⟨z, hz, e⟩, fun z hz => by simpa [NotWorse] using m2 _ (List.mem_map_of_mem hz)⟩
      · intro _; exact ⟨top, htop, by simp⟩
      · intro _
        show new.map _ = _
        rw [← hi.len, List.drop_left]
    · cases h
    · cases h

end
end Neorl.ACO

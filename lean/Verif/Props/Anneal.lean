import Verif.Anneal
import Verif.Best
import Mathlib.Analysis.SpecialFunctions.Log.Basic
import Mathlib.Analysis.SpecialFunctions.Log.Deriv
import Mathlib.Data.List.Perm.Basic

/-!
# Property theorems C119: annealing from an input file
-/

set_option linter.unusedSectionVars false
set_option linter.unusedVariables false

namespace Neorl.Anneal

section
variable {K : Type} [Field K] [LinearOrder K] [IsStrictOrderedRing K] [FloorRing K]

/-! ### Samples and moves -/

theorem randint_ok {b : ℤ × ℤ} {r : ℕ} {z : ℤ} (h : randint b r = .ok z) : b.1 ≤ z ∧ z < b.2 := by
  unfold randint at h
  split at h
  · cases h
  · rename_i hb
    cases h
    have h1 := Int.emod_nonneg (r : ℤ) (b := b.2 - b.1) (by omega)
    have h2 := Int.emod_lt_of_pos (r : ℤ) (b := b.2 - b.1) (by omega)
    omega

theorem twoOf_ok {n a b : ℕ} {p : ℕ × ℕ} (h : twoOf n a b = .ok p) : p.1 < n ∧ p.2 < n ∧ p.1 ≠ p.2 := by
  unfold twoOf at h
  split at h
  · cases h
  · rename_i hn
    cases h
    have h1 := Nat.mod_lt a (show 0 < n by omega)
    have h2 := Nat.mod_lt b (show 0 < n - 1 by omega)
    refine ⟨h1, Nat.mod_lt _ (by omega), ?_⟩
    simp only
    generalize a % n = p at *
    generalize b % (n - 1) = q at *
    by_cases h3 : p + 1 + q < n
    · rw [Nat.mod_eq_of_lt h3]; omega
    · rw [Nat.mod_eq_sub_mod (by omega), Nat.mod_eq_of_lt (by omega)]; omega

theorem until1_ok {b : ℤ × ℤ} {x : K} : ∀ {rs : List (ℕ × ℕ)} {z : ℤ}, until1 b x rs = some (.ok z) → b.1 ≤ z ∧ z < b.2 ∧ x ≠ (z : K)
  | [], _, h => by cases h
  | r :: rs, z, h => by
    unfold until1 at h
    split at h
    · cases h
    · rename_i s hs
      split at h
      · exact until1_ok h
      · rename_i hx
        cases h
        obtain ⟨h1, h2⟩ := randint_ok hs
        exact ⟨h1, h2, hx⟩

theorem until2_ok {b1 b2 : ℤ × ℤ} {x1 x2 : K} : ∀ {rs : List (ℕ × ℕ)} {z : ℤ × ℤ}, until2 b1 b2 x1 x2 rs = some (.ok z) →
    (b1.1 ≤ z.1 ∧ z.1 < b1.2 ∧ x1 ≠ (z.1 : K)) ∧ b2.1 ≤ z.2 ∧ z.2 < b2.2 ∧ x2 ≠ (z.2 : K)
  | [], _, h => by cases h
  | r :: rs, z, h => by
    unfold until2 at h
    split at h
    · cases h
    · rename_i s1 hs1
      split at h
      · cases h
      · rename_i s2 hs2
        split at h
        · exact until2_ok h
        · rename_i hx
          cases h
          obtain ⟨h1, h2⟩ := randint_ok hs1
          obtain ⟨h3, h4⟩ := randint_ok hs2
          push Not at hx
          exact ⟨⟨h1, h2, hx.1⟩, h3, h4, hx.2⟩

/-- **C119 (single).** A `singleswap` that returns changes exactly one coordinate, to a different value within its bounds. -/
theorem C119_single {a : Agent K} {d : Draw K} {x y : List K} (h : singleswap a d x = some (.ok y)) :
    ∃ (i : ℕ) (b : ℤ × ℤ) (z : ℤ), i < a.xsize ∧ i < x.length ∧ a.bound i = .ok b ∧ b.1 ≤ z ∧ z < b.2 ∧ x[i]? ≠ some (z : K) ∧ y = x.set i (z : K) := by
  unfold singleswap at h
  split at h
  · cases h
  rename_i i j hij
  split at h
  · cases h
  rename_i b hb
  split at h
  · cases h
  rename_i v hv
  obtain ⟨o, ho, h⟩ := Option.map_eq_some_iff.1 h
  cases o with
  | error e => cases h
  | ok z =>
    cases h
    obtain ⟨h1, h2, h3⟩ := until1_ok ho
    have hi := (twoOf_ok hij).1
    obtain ⟨hl, -⟩ := List.getElem?_eq_some_iff.1 hv
    exact ⟨i, b, z, hi, hl, hb, h1, h2, by rw [hv]; simpa using h3, rfl⟩

/-- **C119 (dual).** A `dualswap` that returns changes exactly two coordinates, each to a different value within its bounds. -/
theorem C119_dual {a : Agent K} {d : Draw K} {x y : List K} (h : dualswap a d x = some (.ok y)) :
    ∃ (i j : ℕ) (b b' : ℤ × ℤ) (z z' : ℤ), i < a.xsize ∧ j < a.xsize ∧ i ≠ j ∧ i < x.length ∧ j < x.length ∧ a.bound i = .ok b ∧ a.bound j = .ok b' ∧ b.1 ≤ z ∧ z < b.2 ∧ b'.1 ≤ z' ∧ z' < b'.2 ∧
      x[i]? ≠ some (z : K) ∧ x[j]? ≠ some (z' : K) ∧ y = (x.set i (z : K)).set j (z' : K) := by
  unfold dualswap at h
  split at h
  · cases h
  rename_i i j hij
  split at h
  · cases h
  · cases h
  rename_i b b' hb hb'
  split at h
  · rename_i v w hv hw
    obtain ⟨o, ho, h⟩ := Option.map_eq_some_iff.1 h
    cases o with
    | error e => cases h
    | ok z =>
      cases h
      obtain ⟨⟨h1, h2, h3⟩, h4, h5, h6⟩ := until2_ok ho
      obtain ⟨hi, hj, hne⟩ := twoOf_ok hij
      obtain ⟨hl, -⟩ := List.getElem?_eq_some_iff.1 hv
      obtain ⟨hl', -⟩ := List.getElem?_eq_some_iff.1 hw
      exact ⟨i, j, b, b', z.1, z.2, hi, hj, hne, hl, hl', hb, hb', h1, h2, h4, h5, by rw [hv]; simpa using h3, by rw [hw]; simpa using h6, rfl⟩
  · cases h

/-- A vector all of whose entries are integers within the agent's bounds. -/
def Ok (a : Agent K) (v : List K) : Prop := ∀ i x, v[i]? = some x → ∃ (b : ℤ × ℤ) (z : ℤ), a.bound i = .ok b ∧ x = (z : K) ∧ b.1 ≤ z ∧ z < b.2

theorem Ok.set {a : Agent K} {v : List K} (h : Ok a v) {i : ℕ} {b : ℤ × ℤ} {z : ℤ} (hb : a.bound i = .ok b) (h1 : b.1 ≤ z) (h2 : z < b.2) : Ok a (v.set i (z : K)) := by
  intro j x hx
  rw [List.getElem?_set] at hx
  split at hx
  · rename_i e
    subst e
    split at hx
    · cases hx; exact ⟨b, z, hb, rfl, h1, h2⟩
    · cases hx
  · exact h j x hx

theorem perturb_ok {a : Agent K} {d : Draw K} : ∀ {x y : List K} {i : ℕ}, perturb a d i x = .ok y → y.length = x.length ∧
    ∀ k v, y[k]? = some v → x[k]? = some v ∨ ∃ (b : ℤ × ℤ) (z : ℤ), a.bound (i + k) = .ok b ∧ v = (z : K) ∧ b.1 ≤ z ∧ z < b.2
  | [], y, i, h => by cases h; simp
  | x :: xs, y, i, h => by
    simp only [perturb, bind, Except.bind] at h
    split at h
    · cases h
    rename_i w hw
    split at h
    · cases h
    rename_i ys hys
    cases h
    obtain ⟨h1, h2⟩ := perturb_ok hys
    refine ⟨by simp [h1], ?_⟩
    intro k v hv
    cases k with
    | succ k =>
      rw [List.getElem?_cons_succ] at hv
      rcases h2 k v hv with h | ⟨b, z, h3, h4⟩
      · exact .inl (by simpa using h)
      · exact .inr ⟨b, z, by rw [← h3]; congr 1; omega, h4⟩
    | zero =>
      simp only [List.getElem?_cons_zero, Option.some.injEq] at hv
      subst hv
      split at hw
      · split at hw
        · cases hw
        rename_i b hb
        split at hw
        · cases hw
        rename_i z hz
        cases hw
        exact .inr ⟨b, z, hb, rfl, randint_ok hz⟩
      · cases hw; exact .inl rfl

theorem randints_ok {b : ℤ × ℤ} {r : ℕ → ℕ} {n : ℕ} {y : List K} (h : randints b r n = .ok y) : y.length = n ∧ ∀ v ∈ y, ∃ z : ℤ, v = (z : K) ∧ b.1 ≤ z ∧ z < b.2 := by
  unfold randints at h
  split at h
  · cases h
  rename_i hb
  cases h
  refine ⟨by simp, ?_⟩
  intro v hv
  obtain ⟨i, -, rfl⟩ := List.mem_map.1 hv
  refine ⟨_, rfl, ?_⟩
  have h1 := Int.emod_nonneg (r i : ℤ) (b := b.2 - b.1) (by omega)
  have h2 := Int.emod_lt_of_pos (r i : ℤ) (b := b.2 - b.1) (by omega)
  omega

theorem bound_one {a : Agent K} (h : a.one = true) (i : ℕ) : a.bound i = a.bound 0 := by simp [Agent.bound, h]

theorem move_ok {a : Agent K} {d : Draw K} {inds inds' : List ℕ} {x y : List K} {u : Bool} (hx : Ok a x) (hd : ∀ row ∈ a.data, Ok a row) (h : move a d inds x = some (.ok (y, inds', u))) : Ok a y := by
  unfold move at h
  simp only at h
  split at h
  · obtain ⟨o, ho, h⟩ := Option.map_eq_some_iff.1 h
    cases o with
    | error e => cases h
    | ok w =>
      cases h
      obtain ⟨i, b, z, -, -, hb, h1, h2, -, rfl⟩ := C119_single ho
      exact hx.set hb h1 h2
  · obtain ⟨o, ho, h⟩ := Option.map_eq_some_iff.1 h
    cases o with
    | error e => cases h
    | ok w =>
      cases h
      obtain ⟨i, j, b, b', z, z', -, -, -, -, -, hb, hb', h1, h2, h3, h4, -, -, rfl⟩ := C119_dual ho
      exact (hx.set hb h1 h2).set hb' h3 h4
  · obtain ⟨o, ho, h⟩ := Option.map_eq_some_iff.1 h
    cases o with
    | error e => cases h
    | ok w =>
      cases h
      unfold quadswap at ho
      split at ho
      · cases ho
      split at ho
      · cases ho
      cases ho
      exact hx
  · obtain ⟨o, ho, h⟩ := Option.map_eq_some_iff.1 h
    cases o with
    | error e => cases h
    | ok w =>
      cases h
      simp only [Option.some.injEq] at ho
      unfold fullswap at ho
      split at ho
      · rename_i h1
        simp only [bind, Except.bind] at ho
        split at ho
        · cases ho
        rename_i b hb
        obtain ⟨-, h3⟩ := randints_ok ho
        intro i v hv
        obtain ⟨z, hz⟩ := h3 v (List.mem_of_getElem? hv)
        exact ⟨b, z, by rw [bound_one h1, hb], hz⟩
      · intro i v hv
        rcases (perturb_ok ho).2 i v hv with h | ⟨b, z, h1, h2⟩
        · exact hx i v h
        · exact ⟨b, z, by rw [← h1, Nat.zero_add], h2⟩
  · simp only [Option.some.injEq] at h
    unfold kbs at h
    split at h
    · split at h
      · cases h
      split at h
      · cases h
      rename_i row hrow
      cases h
      exact hd _ (List.mem_of_getElem? hrow)
    · split at h
      · cases h
      rename_i w hw
      cases h
      intro i v hv
      rcases (perturb_ok hw).2 i v hv with h | ⟨b, z, h1, h2⟩
      · exact hx i v h
      · exact ⟨b, z, by rw [← h1, Nat.zero_add], h2⟩
  · cases h

theorem move_length {a : Agent K} {d : Draw K} {inds inds' : List ℕ} {x y : List K} {u : Bool} (hd : ∀ row ∈ a.data, row.length = x.length) (h : move a d inds x = some (.ok (y, inds', u))) :
    y.length = x.length := by
  unfold move at h
  simp only at h
  split at h
  · obtain ⟨o, ho, h⟩ := Option.map_eq_some_iff.1 h
    cases o with
    | error e => cases h
    | ok w =>
      cases h
      obtain ⟨i, b, z, -, -, hb, h1, h2, -, rfl⟩ := C119_single ho
      simp
  · obtain ⟨o, ho, h⟩ := Option.map_eq_some_iff.1 h
    cases o with
    | error e => cases h
    | ok w =>
      cases h
      obtain ⟨i, j, b, b', z, z', -, -, -, -, -, hb, hb', h1, h2, h3, h4, -, -, rfl⟩ := C119_dual ho
      simp
  · obtain ⟨o, ho, h⟩ := Option.map_eq_some_iff.1 h
    cases o with
    | error e => cases h
    | ok w =>
      cases h
      unfold quadswap at ho
      split at ho
      · cases ho
      split at ho
      · cases ho
      cases ho
      rfl
  · obtain ⟨o, ho, h⟩ := Option.map_eq_some_iff.1 h
    cases o with
    | error e => cases h
    | ok w =>
      cases h
      simp only [Option.some.injEq] at ho
      unfold fullswap at ho
      split at ho
      · rename_i h1
        simp only [bind, Except.bind] at ho
        split at ho
        · cases ho
        exact (randints_ok ho).1
      · exact (perturb_ok ho).1
  · simp only [Option.some.injEq] at h
    unfold kbs at h
    split at h
    · split at h
      · cases h
      split at h
      · cases h
      rename_i row hrow
      cases h
      exact hd _ (List.mem_of_getElem? hrow)
    · split at h
      · cases h
      rename_i w hw
      cases h
      exact (perturb_ok hw).1
  · cases h

/-! ### The chain -/

variable {accP : K → K → K} {temp : ℕ → K} {fit : List K → K}

/-- Specification: the Metropolis rule for maximising `fit`: a vector that is not worse is always taken, a worse one if the draw is at most the acceptance number. -/
def Metropolis (accP : K → K → K) (temp : ℕ → K) (fit : List K → K) (alpha : K) (e : Entry K) : Prop :=
  (e.accepted = true ↔ fit e.src ≤ fit e.cand ∨ alpha ≤ accP (fit e.src - fit e.cand) (temp e.step)) ∧ e.dst = if e.accepted then e.cand else e.src

/-- The position before entry `k` of a trace that starts in `x0`. -/
def before (x0 : List K) (t : List (Entry K)) (k : ℕ) : List K := ((t.take k).getLast?.map fun e => e.dst).getD x0

/-- The step of the report before report `i`. -/
def lastStep (rs : List (Report K)) (i : ℕ) : ℕ := ((rs.take i).getLast?.map fun r => r.step).getD 0

/-- The steps among the first `n` at which the code reports: the multiples of `check_freq`, and step `steps`. -/
def checks (a : Agent K) (n : ℕ) : List ℕ := (List.range' 1 n).filter fun k => decide (a.checkFreq ∣ (k : ℤ) ∨ (k : ℤ) = a.steps)

/-- All vectors evaluated in a run. -/
def evaluated (x0 : List K) (t : List (Entry K)) : List (List K) := x0 :: t.map fun e => e.cand

/-- What a report has to say about the steps from `p` on. -/
def Says (fit : List K → K) (x0 : List K) (t : List (Entry K)) (p : ℕ) (r : Report K) : Prop :=
  r.trials = r.step - p ∧ r.accepts = ((t.take r.step).drop p).countP (fun e => e.accepted) ∧ r.improves = ((t.take r.step).drop p).countP (fun e => decide (fit e.src < fit e.cand)) ∧
    IsBest false fit (evaluated x0 (t.take r.step)) r.best (-r.energy)

structure Inv (accP : K → K → K) (temp : ℕ → K) (fit : List K → K) (a : Agent K) (dr : ℕ → StepDraw K) (x0 : List K) (n : ℕ) (s : State K) : Prop where
  same : s.x = s.xPrev
  pos : s.xPrev = before x0 s.trace n
  energy : s.ePrev = -fit s.xPrev
  length : s.trace.length = n
  entry : ∀ k e, s.trace[k]? = some e → e.step = k + 1 ∧ e.src = before x0 s.trace k ∧ Metropolis accP temp fit (dr (k + 1)).alpha e ∧
    ∃ i i', move a (dr (k + 1)).mv i e.src = some (.ok (e.cand, i', e.used))
  best : IsBest false fit (evaluated x0 s.trace) s.xBest (-s.eBest)
  bestPrev : s.eBest ≤ s.ePrev
  steps : s.reports.map (fun r => r.step) = checks a n
  told : ∀ i r, s.reports[i]? = some r → Says fit x0 s.trace (lastStep s.reports i) r
  last : lastStep s.reports s.reports.length ≤ n
  trials : s.trials = n - lastStep s.reports s.reports.length
  accepts : s.accepts = (s.trace.drop (lastStep s.reports s.reports.length)).countP (fun e => e.accepted)
  improves : s.improves = (s.trace.drop (lastStep s.reports s.reports.length)).countP (fun e => decide (fit e.src < fit e.cand))

theorem before_append (x0 : List K) (t u : List (Entry K)) (k : ℕ) (h : k ≤ t.length) : before x0 (t ++ u) k = before x0 t k := by
  unfold before; rw [List.take_append_of_le_length h]

theorem before_last (x0 : List K) (t : List (Entry K)) (e : Entry K) : before x0 (t ++ [e]) (t.length + 1) = e.dst := by
  unfold before; rw [List.take_of_length_le (by simp)]; simp

theorem checks_succ (a : Agent K) (n : ℕ) : checks a (n + 1) = if a.checkFreq ∣ ((n + 1 : ℕ) : ℤ) ∨ ((n + 1 : ℕ) : ℤ) = a.steps then checks a n ++ [n + 1] else checks a n := by
  unfold checks
  rw [List.range'_concat, List.filter_append]
  simp only [Nat.one_mul]
  rw [Nat.add_comm 1 n]
  split
  · rename_i h; rw [List.filter_cons_of_pos (by simpa using h)]; simp
  · rename_i h; rw [List.filter_cons_of_neg (by simpa using h)]; simp

theorem Says.mono {x0 : List K} {t u : List (Entry K)} {p : ℕ} {r : Report K} (h : Says fit x0 t p r) (hr : r.step ≤ t.length) : Says fit x0 (t ++ u) p r := by
  unfold Says at *
  rw [List.take_append_of_le_length hr]
  exact h

theorem isBest_snoc {m : Bool} {f : List K → K} {l : List (List K)} {x : List K} {y : K} (h : IsBest m f l x y) (z : List K) (hz : NotWorse m (f z) y) : IsBest m f (l ++ [z]) x y := by
  obtain ⟨h1, h2, h3⟩ := h
  refine ⟨List.mem_append_left _ h1, h2, ?_⟩
  intro w hw
  rcases List.mem_append.1 hw with hw | hw
  · exact h3 w hw
  · rw [List.mem_singleton.1 hw]; exact hz

theorem isBest_new {m : Bool} {f : List K → K} {l : List (List K)} {x : List K} {y : K} (h : IsBest m f l x y) (z : List K) (hz : NotWorse m y (f z)) : IsBest m f (l ++ [z]) z (f z) := by
  obtain ⟨h1, h2, h3⟩ := h
  refine ⟨by simp, rfl, ?_⟩
  intro w hw
  rcases List.mem_append.1 hw with hw | hw
  · exact (h3 w hw).trans hz
  · rw [List.mem_singleton.1 hw]; exact NotWorse.refl _

/-- What a step of the chain preserves, before the check. -/
theorem decide_inv {a : Agent K} {dr : ℕ → StepDraw K} {x0 : List K} {n : ℕ} {s : State K} (hs : Inv accP temp fit a dr x0 n s) {y : List K} {i' : List ℕ} {u : Bool}
    (hm : move a (dr (n + 1)).mv s.inds s.x = some (.ok (y, i', u))) :
    ∃ e : Entry K, ∃ s' : State K, s' = decideStep accP temp fit (n + 1) (dr (n + 1)).alpha y i' u s ∧ s'.trace = s.trace ++ [e] ∧ e.step = n + 1 ∧ e.src = before x0 s.trace n ∧ e.cand = y ∧ e.used = u ∧
      Metropolis accP temp fit (dr (n + 1)).alpha e ∧ s'.x = s'.xPrev ∧ s'.xPrev = e.dst ∧ s'.ePrev = -fit s'.xPrev ∧ IsBest false fit (evaluated x0 s'.trace) s'.xBest (-s'.eBest) ∧ s'.eBest ≤ s'.ePrev ∧
      s'.reports = s.reports ∧ s'.inds = i' ∧ s'.trials = s.trials + 1 ∧ s'.accepts = s.accepts + (if e.accepted then 1 else 0) ∧ s'.improves = s.improves + (if fit e.src < fit e.cand then 1 else 0) := by
  have hev : ∀ e : Entry K, evaluated x0 (s.trace ++ [e]) = evaluated x0 s.trace ++ [e.cand] := fun e => by simp [evaluated]
  unfold decideStep
  simp only
  by_cases hr : 0 < -fit y - s.ePrev ∧ accP (-fit y - s.ePrev) (temp (n + 1)) < (dr (n + 1)).alpha
  · rw [if_pos hr]
    have hle : fit y < fit s.xPrev := by have := hr.1; rw [hs.energy] at this; linarith
    refine ⟨⟨n + 1, s.xPrev, y, s.xPrev, false, u⟩, _, rfl, rfl, rfl, hs.pos, rfl, rfl, ⟨?_, rfl⟩, rfl, rfl, hs.energy, ?_, hs.bestPrev, rfl, rfl, rfl, rfl, ?_⟩
    · simp only [Bool.false_eq_true, false_iff]
      push Not
      refine ⟨hle, ?_⟩
      have := hr.2
      rw [hs.energy] at this
      convert this using 2
      ring
    · simp only
      rw [hev]
      refine isBest_snoc hs.best _ ?_
      show fit y ≤ -s.eBest
      have := hs.bestPrev
      rw [hs.energy] at this
      linarith
    · simp only
      rw [if_neg (by linarith)]
      rfl
  · rw [if_neg hr]
    refine ⟨⟨n + 1, s.xPrev, y, y, true, u⟩, _, rfl, rfl, rfl, hs.pos, rfl, rfl, ⟨?_, rfl⟩, rfl, rfl, rfl, ?_, ?_, rfl, rfl, rfl, rfl, ?_⟩
    · simp only [true_iff]
      by_contra hc
      push Not at hc
      refine hr ⟨by rw [hs.energy]; linarith [hc.1], ?_⟩
      have := hc.2
      rw [hs.energy]
      convert this using 2
      ring
    · simp only
      rw [hev]
      simp only
      split
      · rename_i h1
        rw [neg_neg]
        refine isBest_new hs.best _ ?_
        show -s.eBest ≤ fit y
        linarith
      · rename_i h1
        refine isBest_snoc hs.best _ ?_
        show fit y ≤ -s.eBest
        linarith
    · simp only
      split
      · exact le_rfl
      · rename_i h1; exact not_lt.1 h1
    · simp only
      rw [hs.energy]
      by_cases h : fit s.xPrev < fit y
      · rw [if_pos (by linarith), if_pos h]
      · rw [if_neg (by linarith), if_neg h]; rfl

theorem inv_turn {a : Agent K} {dr : ℕ → StepDraw K} {x0 : List K} {n : ℕ} {s s1 : State K} (hs : Inv accP temp fit a dr x0 n s)
    (h : turn accP temp fit a (n + 1) (dr (n + 1)) s = some (.ok s1)) : Inv accP temp fit a dr x0 (n + 1) s1 := by
  unfold turn at h
  obtain ⟨o, ho, h⟩ := Option.map_eq_some_iff.1 h
  cases o with
  | error e => cases h
  | ok q =>
    obtain ⟨y, i', u⟩ := q
    replace h : check a (n + 1) (decideStep accP temp fit (n + 1) (dr (n + 1)).alpha y i' u s) = .ok s1 := h
    obtain ⟨e, s', hs', ht, e1, e2, e3, e4, e5, e6, e7, e8, e9, e10, e11, e12, e13, e14, e15⟩ := decide_inv hs ho
    rw [← hs'] at h
    have hL := hs.length
    have hlast : lastStep s'.reports s'.reports.length = lastStep s.reports s.reports.length := by rw [e11]
    have hdrop : s'.trace.drop (lastStep s.reports s.reports.length) = s.trace.drop (lastStep s.reports s.reports.length) ++ [e] := by
      rw [ht, List.drop_append_of_le_length (by rw [hL]; exact hs.last)]
    have hst : ∀ r ∈ s.reports, r.step ≤ s.trace.length := by
      intro r hr
      have : r.step ∈ checks a n := by rw [← hs.steps]; exact List.mem_map_of_mem hr
      have := List.mem_range'_1.1 (List.mem_filter.1 this).1
      omega
    -- the facts that do not depend on the check
    have entry : ∀ k e', s'.trace[k]? = some e' → e'.step = k + 1 ∧ e'.src = before x0 s'.trace k ∧ Metropolis accP temp fit (dr (k + 1)).alpha e' ∧
        ∃ i i', move a (dr (k + 1)).mv i e'.src = some (.ok (e'.cand, i', e'.used)) := by
      intro k e' hk
      rw [ht, List.getElem?_append] at hk
      split at hk
      · rename_i hlt
        obtain ⟨g1, g2, g3⟩ := hs.entry k e' hk
        exact ⟨g1, by rw [g2, ht, before_append _ _ _ _ hlt.le], g3⟩
      · rename_i hlt
        have hk0 : k = s.trace.length := by
          by_contra hne
          rw [List.getElem?_eq_none (by simp; omega)] at hk
          cases hk
        subst hk0
        simp only [Nat.sub_self, List.getElem?_cons_zero, Option.some.injEq] at hk
        subst hk
        rw [hL]
        refine ⟨e1, by rw [e2, ht, before_append _ _ _ _ hL.ge], e5, s.inds, i', ?_⟩
        rw [e2, ← hs.pos, ← hs.same, e3, e4]
        exact ho
    have pos : s'.xPrev = before x0 s'.trace (n + 1) := by rw [e7, ht, ← hL, before_last]
    have acc' : s'.accepts = (s'.trace.drop (lastStep s.reports s.reports.length)).countP (fun e => e.accepted) := by
      rw [e14, hs.accepts, hdrop, List.countP_append, List.countP_singleton]
    have imp' : s'.improves = (s'.trace.drop (lastStep s.reports s.reports.length)).countP (fun e => decide (fit e.src < fit e.cand)) := by
      rw [e15, hs.improves, hdrop, List.countP_append, List.countP_singleton]
      simp
    have tri' : s'.trials = n + 1 - lastStep s.reports s.reports.length := by rw [e13, hs.trials]; have := hs.last; omega
    have len' : s'.trace.length = n + 1 := by rw [ht]; simp [hL]
    have told' : ∀ i r, s'.reports[i]? = some r → Says fit x0 s'.trace (lastStep s'.reports i) r := by
      intro i r hr
      rw [e11] at hr ⊢
      rw [ht]
      exact (hs.told i r hr).mono (hst r (List.mem_of_getElem? hr))
    unfold check at h
    split at h
    · cases h
    rename_i hf
    split at h
    · rename_i hc
      cases h
      have hc' : a.checkFreq ∣ ((n + 1 : ℕ) : ℤ) ∨ ((n + 1 : ℕ) : ℤ) = a.steps := by
        rcases hc with hc | hc
        · exact .inl (Int.dvd_of_emod_eq_zero hc)
        · exact .inr hc
      have hlast2 : ∀ r : Report K, lastStep (s'.reports ++ [r]) (s'.reports ++ [r]).length = r.step := by
        intro r; unfold lastStep; rw [List.take_of_length_le le_rfl]; simp
      refine ⟨e6, pos, e8, len', entry, e9, e10, ?_, ?_, ?_, ?_, ?_, ?_⟩
      · simp only [List.map_append, e11, hs.steps, checks_succ, if_pos hc', List.map_cons, List.map_nil]
      · intro i r hr
        simp only at hr ⊢
        rw [List.getElem?_append] at hr
        split at hr
        · rename_i hlt
          have := told' i r hr
          unfold lastStep at this ⊢
          rw [List.take_append_of_le_length hlt.le]
          exact this
        · rename_i hlt
          have hi0 : i = s'.reports.length := by
            by_contra hne
            rw [List.getElem?_eq_none (by simp; omega)] at hr
            cases hr
          subst hi0
          simp only [Nat.sub_self, List.getElem?_cons_zero, Option.some.injEq] at hr
          subst hr
          have hl : lastStep (s'.reports ++ [⟨n + 1, s'.trials, s'.accepts, s'.improves, s'.xBest, s'.eBest⟩]) s'.reports.length = lastStep s.reports s.reports.length := by
            unfold lastStep; rw [List.take_append_of_le_length le_rfl, e11]
          rw [hl]
          refine ⟨tri', ?_, ?_, ?_⟩
          · simp only; rw [List.take_of_length_le len'.le]; exact acc'
          · simp only; rw [List.take_of_length_le len'.le]; exact imp'
          · simp only; rw [List.take_of_length_le len'.le]; exact e9
      · simp only; rw [hlast2]
      · simp only; rw [hlast2]; simp
      · simp only; rw [hlast2, List.drop_of_length_le (by rw [len'])]; rfl
      · simp only; rw [hlast2, List.drop_of_length_le (by rw [len'])]; rfl
    · rename_i hc
      cases h
      have hc' : ¬ (a.checkFreq ∣ ((n + 1 : ℕ) : ℤ) ∨ ((n + 1 : ℕ) : ℤ) = a.steps) := by
        rintro (h | h)
        · exact hc (.inl (Int.emod_eq_zero_of_dvd h))
        · exact hc (.inr h)
      refine ⟨e6, pos, e8, len', entry, e9, e10, ?_, told', ?_, ?_, ?_, ?_⟩
      · rw [e11, hs.steps, checks_succ, if_neg hc']
      · rw [hlast]; exact hs.last.trans (by omega)
      · rw [hlast]; exact tri'
      · rw [hlast]; exact acc'
      · rw [hlast]; exact imp'

theorem inv_turns {a : Agent K} {dr : ℕ → StepDraw K} {x0 : List K} : ∀ {n : ℕ} {s : State K}, turns accP temp fit a dr x0 n = some (.ok s) → Inv accP temp fit a dr x0 n s
  | 0, s, h => by
    simp only [turns, Option.some.injEq, Except.ok.injEq] at h
    subst h
    refine ⟨rfl, by simp [before, initial], rfl, rfl, ?_, ?_, le_rfl, rfl, ?_, ?_, ?_, ?_, ?_⟩
    · intro k e h; simp [initial] at h
    · exact ⟨by simp [evaluated, initial], by simp [initial], by intro z hz; simp [evaluated, initial] at hz ⊢; subst hz; exact NotWorse.refl _⟩
    · intro i r h; simp [initial] at h
    all_goals simp [initial, lastStep]
  | n + 1, s, h => by
    simp only [turns] at h
    split at h
    · cases h
    · cases h
    · rename_i s' hs'
      exact inv_turn (inv_turns hs') h

theorem build_turns {a : Agent K} {r : ℕ → ℕ} {dr : ℕ → StepDraw K} {s : State K} (h : build accP temp fit a r dr = some (.ok s)) :
    ∃ x0, start a r = .ok x0 ∧ turns accP temp fit a dr x0 (a.steps + 1).toNat = some (.ok s) := by
  unfold build at h
  split at h
  · cases h
  rename_i x0 hx
  refine ⟨x0, hx, ?_⟩
  split at h
  · cases h
  · exact h

/-- **C119 (chain).** Every run that ends is a Metropolis chain: each candidate is a move away from the position reached before, and it is kept exactly if it is not worse or the draw is at most the acceptance
number at the temperature of the step; otherwise the position stays. -/
theorem C119_chain {a : Agent K} {r : ℕ → ℕ} {dr : ℕ → StepDraw K} {s : State K} (h : build accP temp fit a r dr = some (.ok s)) :
    ∃ x0, start a r = .ok x0 ∧ s.xPrev = before x0 s.trace s.trace.length ∧ ∀ k e, s.trace[k]? = some e → e.step = k + 1 ∧ e.src = before x0 s.trace k ∧ Metropolis accP temp fit (dr (k + 1)).alpha e ∧
      ∃ i i', move a (dr (k + 1)).mv i e.src = some (.ok (e.cand, i', e.used)) := by
  obtain ⟨x0, h1, h2⟩ := build_turns h
  have := inv_turns h2
  exact ⟨x0, h1, by rw [this.pos, this.length], this.entry⟩

/-- **C119 (reports).** There is a report exactly at the multiples of `check_freq` and at step `steps`.  Each gives the best of all vectors evaluated so far (the first included) with its energy, and counts exactly the
trials, the accepted steps and the improvements since the report before. -/
theorem C119_reports {a : Agent K} {r : ℕ → ℕ} {dr : ℕ → StepDraw K} {s : State K} (h : build accP temp fit a r dr = some (.ok s)) :
    ∃ x0, start a r = .ok x0 ∧ s.reports.map (fun r => r.step) = checks a s.trace.length ∧ ∀ i r, s.reports[i]? = some r → Says fit x0 s.trace (lastStep s.reports i) r := by
  obtain ⟨x0, h1, h2⟩ := build_turns h
  have := inv_turns h2
  exact ⟨x0, h1, by rw [this.steps, this.length], this.told⟩

/-- **C119 (rates).** The printed rates lie between 0 and 100 %, the rate of improvements not above the rate of acceptance, and no rate divides by zero. -/
theorem C119_rates {a : Agent K} {r : ℕ → ℕ} {dr : ℕ → StepDraw K} {s : State K} (h : build accP temp fit a r dr = some (.ok s)) :
    ∀ q ∈ s.reports, 0 < q.trials ∧ q.improves ≤ q.accepts ∧ q.accepts ≤ q.trials := by
  obtain ⟨x0, h1, h2⟩ := build_turns h
  have inv := inv_turns h2
  intro q hq
  obtain ⟨i, hi⟩ := List.getElem?_of_mem hq
  obtain ⟨g1, g2, g3, -⟩ := inv.told i q hi
  have hsorted : (s.reports.map (fun r => r.step)).Pairwise (· < ·) := by
    rw [inv.steps]; exact List.Pairwise.filter _ (List.pairwise_lt_range' _)
  have hpos : ∀ r ∈ s.reports, 0 < r.step ∧ r.step ≤ s.trace.length := by
    intro r hr
    have : r.step ∈ checks a (a.steps + 1).toNat := by rw [← inv.steps]; exact List.mem_map_of_mem hr
    have := List.mem_range'_1.1 (List.mem_filter.1 this).1
    have := inv.length
    omega
  have hlt : lastStep s.reports i < q.step := by
    unfold lastStep
    cases hl : (s.reports.take i).getLast? with
    | none => simpa using (hpos q hq).1
    | some w =>
      simp only [Option.map_some, Option.getD_some]
      have hw : w ∈ s.reports.take i := List.mem_of_getLast? hl
      obtain ⟨j, hj⟩ := List.getElem?_of_mem hw
      rw [List.getElem?_take] at hj
      split at hj
      · rename_i hji
        have h3 := List.pairwise_iff_getElem.1 hsorted
        obtain ⟨l1, e1⟩ := List.getElem?_eq_some_iff.1 hj
        obtain ⟨l2, e2⟩ := List.getElem?_eq_some_iff.1 hi
        have := h3 j i (by simpa using l1) (by simpa using l2) hji
        simpa [e1, e2] using this
      · cases hj
  refine ⟨by rw [g1]; omega, ?_, ?_⟩
  · rw [g2, g3]
    refine List.countP_mono_left fun e he hd => ?_
    obtain ⟨k, hk⟩ := List.getElem?_of_mem (List.mem_of_mem_take (List.mem_of_mem_drop he))
    obtain ⟨-, -, hm, -⟩ := inv.entry k e hk
    exact hm.1.2 (.inl (le_of_lt (by simpa using hd)))
  · rw [g1, g2]
    refine List.countP_le_length.trans ?_
    simp only [List.length_drop, List.length_take]
    omega

/-- **C119 (steps, defect).** The chain makes one step more than `steps`, and at least one whenever `steps` is not negative. -/
theorem C119_steps {a : Agent K} {r : ℕ → ℕ} {dr : ℕ → StepDraw K} {s : State K} (h : build accP temp fit a r dr = some (.ok s)) (hs : 0 ≤ a.steps) : (s.trace.length : ℤ) = a.steps + 1 := by
  obtain ⟨x0, h1, h2⟩ := build_turns h
  rw [(inv_turns h2).length]
  omega

/-- **C119 (last, defect).** That last step is in no report, unless its number happens to be a multiple of `check_freq`. -/
theorem C119_last {a : Agent K} {r : ℕ → ℕ} {dr : ℕ → StepDraw K} {s : State K} (h : build accP temp fit a r dr = some (.ok s)) (hf : ¬ a.checkFreq ∣ a.steps + 1) :
    ∀ q ∈ s.reports, (q.step : ℤ) ≤ a.steps := by
  obtain ⟨x0, h1, h2⟩ := build_turns h
  have inv := inv_turns h2
  intro q hq
  have hq : q.step ∈ checks a (a.steps + 1).toNat := by rw [← inv.steps]; exact List.mem_map_of_mem hq
  obtain ⟨g1, g2⟩ := List.mem_filter.1 hq
  have := List.mem_range'_1.1 g1
  rcases (by simpa using g2 : a.checkFreq ∣ (q.step : ℤ) ∨ (q.step : ℤ) = a.steps) with g | g
  · by_contra hc
    have : (q.step : ℤ) = a.steps + 1 := by omega
    exact hf (this ▸ g)
  · exact g.le

/-! ### Bounds -/

/-- Specification: every entry of `v` is an integer between the bounds the user gave, which apply to all coordinates if there is only one of each. -/
def Within (L U : List K) (v : List K) : Prop :=
  ∀ i x, v[i]? = some x → (∃ z : ℤ, x = (z : K)) ∧ ∃ l u, L[if L.length = 1 then 0 else i]? = some l ∧ U[if L.length = 1 then 0 else i]? = some u ∧ l ≤ x ∧ x ≤ u

theorem construct_eq {c : Card K} {a : Agent K} {L U : List K} (hL : c.lbound = some L) (hU : c.ubound = some U) (h : construct c = .ok a) :
    a.lb = L.map truncZ ∧ a.ub = U.map (fun u => truncZ u + 1) ∧ a.data = c.data.getD [] ∧ a.initstate = c.initstate ∧ a.xsize = c.xsize ∧ a.steps = c.steps ∧ a.checkFreq = c.checkFreq ∧ a.swap = c.swap ∧
      a.indpb = c.indpb ∧ a.indpbKbs = c.indpbKbs := by
  unfold construct at h
  simp only [hL, hU, ints, bind, Except.bind] at h
  split at h
  · cases h
  · cases h
    simp [List.map_map, Function.comp_def]

theorem bound_eq {c : Card K} {a : Agent K} {L U : List K} (hL : c.lbound = some L) (hU : c.ubound = some U) (hlen : L.length = U.length) (h : construct c = .ok a) (i : ℕ) {b : ℤ × ℤ} :
    a.bound i = .ok b ↔ ∃ l u, L[if L.length = 1 then 0 else i]? = some l ∧ U[if L.length = 1 then 0 else i]? = some u ∧ b = (truncZ l, truncZ u + 1) := by
  obtain ⟨h1, h2, -⟩ := construct_eq hL hU h
  have ho : a.one = true ↔ L.length = 1 := by simp [Agent.one, h1, h2, ← hlen]
  have hi : (if a.one = true then 0 else i) = if L.length = 1 then 0 else i := by
    by_cases h : L.length = 1
    · rw [if_pos h, if_pos (ho.2 h)]
    · rw [if_neg h, if_neg (fun h' => h (ho.1 h'))]
  unfold Agent.bound
  rw [hi, h1, h2, List.getElem?_map, List.getElem?_map]
  cases L[if L.length = 1 then 0 else i]? <;> cases U[if L.length = 1 then 0 else i]? <;> simp [eq_comm]

theorem ok_iff {c : Card K} {a : Agent K} {L U : List K} (hL : c.lbound = some L) (hU : c.ubound = some U) (hlen : L.length = U.length) (h : construct c = .ok a)
    (hi : ∀ l ∈ L, ∃ z : ℤ, l = (z : K)) (hu : ∀ u ∈ U, ∃ z : ℤ, u = (z : K)) (v : List K) : Ok a v ↔ Within L U v := by
  constructor
  · intro hv i x hx
    obtain ⟨b, z, hb, rfl, h1, h2⟩ := hv i x hx
    obtain ⟨l, u, hl, hu', rfl⟩ := (bound_eq hL hU hlen h i).1 hb
    refine ⟨⟨z, rfl⟩, l, u, hl, hu', ?_, ?_⟩
    · obtain ⟨w, rfl⟩ := hi l (List.mem_of_getElem? hl)
      rw [truncZ_intCast] at h1
      exact_mod_cast h1
    · obtain ⟨w, rfl⟩ := hu u (List.mem_of_getElem? hu')
      rw [truncZ_intCast] at h2
      exact_mod_cast Int.lt_add_one_iff.1 h2
  · intro hv i x hx
    obtain ⟨⟨z, rfl⟩, l, u, hl, hu', h1, h2⟩ := hv i x hx
    refine ⟨(truncZ l, truncZ u + 1), z, (bound_eq hL hU hlen h i).2 ⟨l, u, hl, hu', rfl⟩, rfl, ?_, ?_⟩
    · obtain ⟨w, rfl⟩ := hi l (List.mem_of_getElem? hl)
      rw [truncZ_intCast]
      exact_mod_cast h1
    · obtain ⟨w, rfl⟩ := hu u (List.mem_of_getElem? hu')
      rw [truncZ_intCast]
      exact Int.lt_add_one_iff.2 (by exact_mod_cast h2)

theorem start_ok {a : Agent K} {r : ℕ → ℕ} {x0 : List K} (hlen : a.lb.length = a.ub.length) (hi : ∀ v, a.initstate = some v → Ok a v) (h : start a r = .ok x0) : Ok a x0 := by
  unfold start at h
  split at h
  · rename_i v hv
    split at h
    · cases h; exact hi _ hv
    · cases h
  · split at h
    · rename_i h1
      simp only [bind, Except.bind] at h
      split at h
      · cases h
      rename_i b hb
      obtain ⟨-, h3⟩ := randints_ok h
      intro i v hv
      obtain ⟨z, hz⟩ := h3 v (List.mem_of_getElem? hv)
      exact ⟨b, z, by rw [bound_one h1, hb], hz⟩
    · rename_i h1
      unfold randvec at h
      simp only [hlen, max_self, true_or, and_self, if_true] at h
      split at h
      · cases h
      rename_i hb
      cases h
      intro i v hv
      rw [List.getElem?_mapIdx] at hv
      cases hz : (List.zip a.lb a.ub)[i]? with
      | none => rw [hz] at hv; cases hv
      | some b =>
        rw [hz] at hv
        simp only [Option.map_some, Option.some.injEq] at hv
        have hm := List.mem_of_getElem? hz
        have hb' : ¬ b.2 ≤ b.1 := fun hc => hb (List.any_eq_true.2 ⟨b, hm, by simpa using hc⟩)
        refine ⟨b, _, ?_, hv.symm, ?_⟩
        · rw [List.getElem?_zip_eq_some] at hz
          unfold Agent.bound
          rw [if_neg h1, hz.1, hz.2]
        · have h1 := Int.emod_nonneg (r i : ℤ) (b := b.2 - b.1) (by omega)
          have h2 := Int.emod_lt_of_pos (r i : ℤ) (b := b.2 - b.1) (by omega)
          omega

/-- **C119 (range).** If the bounds are integers, every vector evaluated in a run consists of integers within them, provided the rows of the data set do (and a start vector given by the user). -/
theorem C119_range {c : Card K} {a : Agent K} {L U : List K} (hL : c.lbound = some L) (hU : c.ubound = some U) (hlen : L.length = U.length) (hc : construct c = .ok a)
    (hi : ∀ l ∈ L, ∃ z : ℤ, l = (z : K)) (hu : ∀ u ∈ U, ∃ z : ℤ, u = (z : K)) (hd : ∀ t, c.data = some t → ∀ row ∈ t, Within L U row) (h0 : ∀ v, c.initstate = some v → Within L U v)
    {r : ℕ → ℕ} {dr : ℕ → StepDraw K} {s : State K} (h : build accP temp fit a r dr = some (.ok s)) :
    ∃ x0, start a r = .ok x0 ∧ ∀ v ∈ evaluated x0 s.trace, Within L U v := by
  obtain ⟨x0, h1, h2⟩ := build_turns h
  have inv := inv_turns h2
  obtain ⟨a1, a2, a3, a4, -⟩ := construct_eq hL hU hc
  have key := ok_iff hL hU hlen hc hi hu
  refine ⟨x0, h1, ?_⟩
  have hx0 : Ok a x0 := start_ok (by simp [a1, a2, hlen]) (fun v hv => (key v).2 (h0 v (a4 ▸ hv))) h1
  have hdata : ∀ row ∈ a.data, Ok a row := by
    intro row hrow
    rw [a3] at hrow
    cases hcd : c.data with
    | none => rw [hcd] at hrow; cases hrow
    | some t => rw [hcd] at hrow; exact (key row).2 (hd t hcd row hrow)
  have all : ∀ k : ℕ, (∀ e : Entry K, s.trace[k]? = some e → Ok a e.src ∧ Ok a e.cand ∧ Ok a e.dst) := by
    intro k
    induction k using Nat.strong_induction_on with
    | _ k ih =>
      intro e he
      obtain ⟨g1, g2, g3, i, i', g4⟩ := inv.entry k e he
      have hsrc : Ok a e.src := by
        rw [g2]
        unfold before
        cases hl : (s.trace.take k).getLast? with
        | none => exact hx0
        | some w =>
          simp only [Option.map_some, Option.getD_some]
          obtain ⟨j, hj⟩ := List.getElem?_of_mem (List.mem_of_getLast? hl)
          rw [List.getElem?_take] at hj
          split at hj
          · rename_i hjk; exact (ih j hjk w hj).2.2
          · cases hj
      have hcand := move_ok hsrc hdata g4
      refine ⟨hsrc, hcand, ?_⟩
      rw [g3.2]
      split
      · exact hcand
      · exact hsrc
  intro v hv
  rcases List.mem_cons.1 hv with rfl | hv
  · exact (key _).1 hx0
  · obtain ⟨e, he, rfl⟩ := List.mem_map.1 hv
    obtain ⟨k, hk⟩ := List.getElem?_of_mem he
    exact (key _).1 (all k e hk).2.1

/-- **C119 (length).** All evaluated vectors have the length of the first one, if the rows of the data set have it; without a start vector this is `xsize` if there is one bound for all, otherwise the number of bounds. -/
theorem C119_length {a : Agent K} {r : ℕ → ℕ} {dr : ℕ → StepDraw K} {s : State K} (h : build accP temp fit a r dr = some (.ok s)) :
    ∃ x0, start a r = .ok x0 ∧ ((∀ row ∈ a.data, row.length = x0.length) → ∀ v ∈ evaluated x0 s.trace, v.length = x0.length) ∧
      (a.initstate = none → a.lb.length = a.ub.length → x0.length = if a.lb.length = 1 then a.xsize else a.lb.length) := by
  obtain ⟨x0, h1, h2⟩ := build_turns h
  have inv := inv_turns h2
  refine ⟨x0, h1, ?_, ?_⟩
  · intro hd
    have all : ∀ k : ℕ, (∀ e : Entry K, s.trace[k]? = some e → e.src.length = x0.length ∧ e.cand.length = x0.length ∧ e.dst.length = x0.length) := by
      intro k
      induction k using Nat.strong_induction_on with
      | _ k ih =>
        intro e he
        obtain ⟨g1, g2, g3, i, i', g4⟩ := inv.entry k e he
        have hsrc : e.src.length = x0.length := by
          rw [g2]
          unfold before
          cases hl : (s.trace.take k).getLast? with
          | none => rfl
          | some w =>
            simp only [Option.map_some, Option.getD_some]
            obtain ⟨j, hj⟩ := List.getElem?_of_mem (List.mem_of_getLast? hl)
            rw [List.getElem?_take] at hj
            split at hj
            · rename_i hjk; exact (ih j hjk w hj).2.2
            · cases hj
        have hcand := (move_length (by rw [hsrc]; exact hd) g4).trans hsrc
        refine ⟨hsrc, hcand, ?_⟩
        rw [g3.2]
        split
        · exact hcand
        · exact hsrc
    intro v hv
    rcases List.mem_cons.1 hv with rfl | hv
    · rfl
    · obtain ⟨e, he, rfl⟩ := List.mem_map.1 hv
      obtain ⟨k, hk⟩ := List.getElem?_of_mem he
      exact (all k e hk).2.1
  · intro hi hlen
    unfold start at h1
    rw [hi] at h1
    simp only at h1
    have ho : a.one = true ↔ a.lb.length = 1 := by simp [Agent.one, ← hlen]
    split at h1
    · rename_i g
      simp only [bind, Except.bind] at h1
      split at h1
      · cases h1
      rw [(randints_ok h1).1, if_pos (ho.1 g)]
    · rename_i g
      rw [if_neg (fun h => g (ho.2 h))]
      unfold randvec at h1
      simp only [hlen, max_self, true_or, and_self, if_true] at h1
      split at h1
      · cases h1
      cases h1
      simp [hlen]

/-! ### The data set -/

/-- The vectors taken from the data set, in order. -/
def usedRows (t : List (Entry K)) : List (List K) := (t.filter fun e => e.used).map fun e => e.cand

/-- Rows of the data set with the given numbers. -/
def rowsOf (data : List (List K)) (inds : List ℕ) : List (List K) := inds.filterMap fun i => data[i]?

theorem rowsOf_range (data : List (List K)) : rowsOf data (List.range data.length) = data := by
  unfold rowsOf
  induction data using List.reverseRecOn with
  | nil => rfl
  | append_singleton l x ih =>
    rw [List.length_append, List.length_singleton, List.range_succ, List.filterMap_append]
    have h1 : (List.range l.length).filterMap (fun i => (l ++ [x])[i]?) = (List.range l.length).filterMap (fun i => l[i]?) := by
      refine List.filterMap_congr fun i hi => ?_
      rw [List.getElem?_append_left (List.mem_range.1 hi)]
    rw [h1, ih]
    simp

/-- Bookkeeping of the data set: complete rounds, and the present one with the rows left. -/
def Rounds (data : List (List K)) (used : List (List K)) (inds : List ℕ) : Prop :=
  ∃ q : ℕ, (∀ j < q, ((used.drop (j * data.length)).take data.length).Perm data) ∧ q * data.length ≤ used.length ∧ (used.drop (q * data.length) ++ rowsOf data inds).Perm data ∧ inds ≠ [] ∧
    (∀ i ∈ inds, i < data.length)

theorem rounds_use {data used : List (List K)} {inds : List ℕ} (hd : data ≠ []) (h : Rounds data used inds) {k : ℕ} {i : ℕ} (hi : inds[k]? = some i) {row : List K} (hrow : data[i]? = some row) :
    Rounds data (used ++ [row]) (if (inds.erase i).isEmpty then List.range data.length else inds.erase i) := by
  obtain ⟨q, h1, h2, h3, h4, h5⟩ := h
  have hmem := List.mem_of_getElem? hi
  have hperm : (rowsOf data inds).Perm (row :: rowsOf data (inds.erase i)) := by
    have := (List.perm_cons_erase hmem).filterMap fun i => data[i]?
    rwa [List.filterMap_cons_some (by exact hrow)] at this
  have hnew : ((used ++ [row]).drop (q * data.length) ++ rowsOf data (inds.erase i)).Perm data := by
    rw [List.drop_append_of_le_length h2, List.append_assoc]
    exact (List.Perm.append_left _ hperm.symm).trans h3
  have hold : ∀ j < q, (((used ++ [row]).drop (j * data.length)).take data.length).Perm data := by
    intro j hj
    have hle : (j + 1) * data.length ≤ used.length := (Nat.mul_le_mul_right _ hj).trans h2
    rw [Nat.succ_mul] at hle
    rw [List.drop_append_of_le_length (by omega), List.take_append_of_le_length (by rw [List.length_drop]; omega)]
    exact h1 j hj
  split
  · rename_i he
    have he' : inds.erase i = [] := List.isEmpty_iff.1 he
    rw [he'] at hnew
    simp only [rowsOf, List.filterMap_nil, List.append_nil] at hnew
    have hl := hnew.length_eq
    rw [List.length_drop] at hl
    have hpos : 0 < data.length := List.length_pos_iff.2 hd
    have hlen : (q + 1) * data.length = (used ++ [row]).length := by rw [Nat.succ_mul]; omega
    refine ⟨q + 1, ?_, hlen.le, ?_, ?_, fun i hi => List.mem_range.1 hi⟩
    · intro j hj
      rcases Nat.lt_succ_iff_lt_or_eq.1 hj with hj | rfl
      · exact hold j hj
      · rw [List.take_of_length_le (by rw [List.length_drop]; omega)]
        exact hnew
    · rw [List.drop_of_length_le (by rw [hlen]), List.nil_append, rowsOf_range]
    · intro hc
      have := congrArg List.length hc
      simp at this
      exact hd this
  · rename_i he
    refine ⟨q, hold, ?_, hnew, fun hc => he (by rw [hc]; rfl), fun j hj => h5 j (List.mem_of_mem_erase hj)⟩
    rw [List.length_append]
    omega

theorem turns_rounds {a : Agent K} {dr : ℕ → StepDraw K} {x0 : List K} (hd : a.data ≠ []) : ∀ {n : ℕ} {s : State K}, turns accP temp fit a dr x0 n = some (.ok s) →
    Rounds a.data (usedRows s.trace) s.inds
  | 0, s, h => by
    simp only [turns, Option.some.injEq, Except.ok.injEq] at h
    subst h
    refine ⟨0, by simp, by simp, ?_, ?_, fun i hi => List.mem_range.1 hi⟩
    · simp [usedRows, initial, rowsOf_range]
    · intro hc
      have := congrArg List.length hc
      simp [initial] at this
      exact hd this
  | n + 1, s1, h => by
    simp only [turns] at h
    split at h
    · cases h
    · cases h
    · rename_i s hs
      have inv := inv_turns hs
      have ih := turns_rounds hd hs
      unfold turn at h
      obtain ⟨o, ho, h⟩ := Option.map_eq_some_iff.1 h
      cases o with
      | error e => cases h
      | ok q =>
        obtain ⟨y, i', u⟩ := q
        replace h : check a (n + 1) (decideStep accP temp fit (n + 1) (dr (n + 1)).alpha y i' u s) = .ok s1 := h
        obtain ⟨e, s', hs', ht, e1, e2, e3, e4, e5, e6, e7, e8, e9, e10, e11, e12, e13, e14, e15⟩ := decide_inv inv ho
        rw [← hs'] at h
        have hk : s1.trace = s'.trace ∧ s1.inds = s'.inds := by
          unfold check at h
          split at h
          · cases h
          split at h <;> cases h <;> exact ⟨rfl, rfl⟩
        rw [hk.1, hk.2, e12, ht]
        have hrows : usedRows (s.trace ++ [e]) = usedRows s.trace ++ if u then [y] else [] := by
          unfold usedRows
          rw [List.filter_append, List.map_append]
          cases u <;> simp [e4, e3]
        rw [hrows]
        -- the cases of the move
        have same : u = false → i' = s.inds → Rounds a.data (usedRows s.trace ++ if u then [y] else []) i' := by
          rintro rfl rfl; simpa using ih
        unfold move at ho
        simp only at ho
        split at ho
        case h_5 =>
          simp only [Option.some.injEq] at ho
          unfold kbs at ho
          split at ho
          · split at ho
            · cases ho
            rename_i i hi
            split at ho
            · cases ho
            rename_i row hrow
            cases ho
            exact rounds_use hd ih hi hrow
          · split at ho
            · cases ho
            cases ho
            exact same rfl rfl
        case h_6 => cases ho
        all_goals
          obtain ⟨o, ho, hh⟩ := Option.map_eq_some_iff.1 ho
          cases o with
          | error e => cases hh
          | ok w => cases hh; exact same rfl rfl

/-- **C119 (rows).** In the mode `kbs` the rows of the data set come in rounds: in each complete round every row is tried exactly once, and in the round under way none twice. -/
theorem C119_rows {a : Agent K} (hd : a.data ≠ []) {r : ℕ → ℕ} {dr : ℕ → StepDraw K} {s : State K} (h : build accP temp fit a r dr = some (.ok s)) :
    ∃ q : ℕ, q * a.data.length ≤ (usedRows s.trace).length ∧ (∀ j < q, (((usedRows s.trace).drop (j * a.data.length)).take a.data.length).Perm a.data) ∧
      ((usedRows s.trace).drop (q * a.data.length)).Subperm a.data ∧ ((usedRows s.trace).drop (q * a.data.length)).length < a.data.length := by
  obtain ⟨x0, -, h2⟩ := build_turns h
  obtain ⟨q, h1, h2, h3, h4, h5⟩ := turns_rounds hd h2
  refine ⟨q, h2, h1, ?_, ?_⟩
  · exact (List.sublist_append_left _ _).subperm.trans h3.subperm
  · have hl := h3.length_eq
    rw [List.length_append] at hl
    have : 0 < (rowsOf a.data s.inds).length := by
      obtain ⟨i, l, hi⟩ := List.exists_cons_of_ne_nil h4
      have hlt := h5 i (by rw [hi]; simp)
      rw [hi]
      unfold rowsOf
      rw [List.filterMap_cons_some (List.getElem?_eq_getElem hlt)]
      simp
    omega

/-! ### Defects -/

/-- **C119 (none, defect).** Without bounds, the default, the agent cannot even be constructed; the modes that shuffle a permutation are never reached. -/
theorem C119_none (c : Card K) (h : c.lbound = none ∨ c.ubound = none) : construct c = .error .typeError := by
  unfold construct
  rcases h with h | h
  · simp [h, ints, bind, Except.bind]
  · rw [h]
    cases c.lbound <;> simp [ints, bind, Except.bind]

/-- **C119 (start, defect).** A start vector with more than one entry is refused with a ValueError. -/
theorem C119_start (a : Agent K) (v : List K) (h : a.initstate = some v) (hv : 2 ≤ v.length) (r : ℕ → ℕ) (dr : ℕ → StepDraw K) : build accP temp fit a r dr = some (.error .valueError) := by
  have : start a r = .error .valueError := by
    unfold start; rw [h]; simp only; rw [if_neg (by omega)]
  unfold build; rw [this]

/-- **C119 (quad, defect).** `quadswap` never moves: with one bound for all it fails, with several every evaluated vector is the first one. -/
theorem C119_quad {a : Agent K} (hq : a.swap = .quad) {r : ℕ → ℕ} {dr : ℕ → StepDraw K} :
    (a.one = true → 4 ≤ a.xsize → 0 ≤ a.steps → ∀ x0, start a r = .ok x0 → build accP temp fit a r dr = some (.error .typeError)) ∧
    (∀ s, build accP temp fit a r dr = some (.ok s) → ∃ x0, start a r = .ok x0 ∧ ∀ v ∈ evaluated x0 s.trace, v = x0) := by
  constructor
  · intro h1 h4 hs x0 hx
    have hm : ∀ d inds x, move a d inds x = some (.error .typeError) := by
      intro d inds x
      unfold move
      simp only [hq, quadswap, h1, if_true]
      rw [if_neg (by omega)]
      rfl
    have ht : turns accP temp fit a dr x0 1 = some (.error .typeError) := by
      simp only [turns, turn, hm]
      rfl
    have hn : ∀ n, turns accP temp fit a dr x0 (n + 1) = some (.error .typeError) := by
      intro n
      induction n with
      | zero => exact ht
      | succ n ih => rw [turns, ih]
    obtain ⟨m, hm'⟩ : ∃ m, (a.steps + 1).toNat = m + 1 := ⟨(a.steps + 1).toNat - 1, by omega⟩
    unfold build
    rw [hx, hq]
    simp only
    rw [hm', hn]
  · intro s h
    obtain ⟨x0, h1, h2⟩ := build_turns h
    have inv := inv_turns h2
    refine ⟨x0, h1, ?_⟩
    have all : ∀ k : ℕ, (∀ e : Entry K, s.trace[k]? = some e → e.src = x0 ∧ e.cand = x0 ∧ e.dst = x0) := by
      intro k
      induction k using Nat.strong_induction_on with
      | _ k ih =>
        intro e he
        obtain ⟨g1, g2, g3, i, i', g4⟩ := inv.entry k e he
        have hsrc : e.src = x0 := by
          rw [g2]
          unfold before
          cases hl : (s.trace.take k).getLast? with
          | none => rfl
          | some w =>
            simp only [Option.map_some, Option.getD_some]
            obtain ⟨j, hj⟩ := List.getElem?_of_mem (List.mem_of_getLast? hl)
            rw [List.getElem?_take] at hj
            split at hj
            · rename_i hjk; exact (ih j hjk w hj).2.2
            · cases hj
        have hcand : e.cand = x0 := by
          unfold move at g4
          simp only [hq, quadswap] at g4
          split at g4
          · cases g4
          split at g4
          · cases g4
          simp only [Option.map_some, Except.map, Option.some.injEq, Except.ok.injEq, Prod.mk.injEq] at g4
          rw [← g4.1, hsrc]
        refine ⟨hsrc, hcand, ?_⟩
        rw [g3.2, hsrc, hcand, ite_self]
    intro v hv
    rcases List.mem_cons.1 hv with rfl | hv
    · rfl
    · obtain ⟨e, he, rfl⟩ := List.mem_map.1 hv
      obtain ⟨k, hk⟩ := List.getElem?_of_mem he
      exact (all k e hk).2.1

/-- **C119 (stuck, defect).** If the bounds of a coordinate are equal, so that its value is fixed, `singleswap` and `dualswap` never return once they choose it: they wait for another value. -/
theorem C119_stuck {a : Agent K} {d : Draw K} {i j : ℕ} (hij : twoOf a.xsize d.a d.b = .ok (i, j)) {l : ℤ} (hb : a.bound i = .ok (l, l + 1)) {x : List K} (hx : x[i]? = some (l : K)) :
    singleswap a d x = none ∧ ∀ {b' : ℤ × ℤ}, a.bound j = .ok b' → b'.1 < b'.2 → j < x.length → dualswap a d x = none := by
  have hr : ∀ r, randint (l, l + 1) r = .ok l := by intro r; simp [randint]
  have h1 : ∀ rs : List (ℕ × ℕ), until1 (l, l + 1) (l : K) rs = none := by
    intro rs
    induction rs with
    | nil => rfl
    | cons r rs ih => simp [until1, hr, ih]
  refine ⟨by simp [singleswap, hij, hb, hx, h1], ?_⟩
  intro b' hb' hlt hj
  have h2 : ∀ (rs : List (ℕ × ℕ)) (w : K), until2 (l, l + 1) b' (l : K) w rs = none := by
    intro rs w
    induction rs with
    | nil => rfl
    | cons r rs ih =>
      have : randint b' r.2 = .ok (b'.1 + (r.2 : ℤ) % (b'.2 - b'.1)) := by simp [randint, not_le.2 hlt]
      simp [until2, hr, this, ih]
  simp [dualswap, hij, hb, hb', hx, List.getElem?_eq_getElem hj, h2]

/-- **C119 (small, defect).** With fewer than two inputs `singleswap` and `dualswap` fail, although the first changes only one. -/
theorem C119_small {a : Agent K} (h : a.xsize < 2) (d : Draw K) (x : List K) : singleswap a d x = some (.error .valueError) ∧ dualswap a d x = some (.error .valueError) := by
  simp [singleswap, dualswap, twoOf, h]

end

/-! ### Temperatures -/

/-- **C119 (cooling).** All schedules fall strictly and stay positive.  The fast one reaches `Tmin` exactly at step `steps`; the step after it, which the loop still makes, is colder than `Tmin`.  The Boltzmann schedule
starts above `Tmax`. -/
theorem C119_cooling {tmax tmin : ℝ} (h0 : 0 < tmin) (h1 : tmin < tmax) {steps : ℤ} (hs : 0 < steps) (c : Cooling) :
    (∀ k : ℕ, 1 ≤ k → 0 < coolT Real.exp Real.log tmax tmin steps c k ∧ coolT Real.exp Real.log tmax tmin steps c (k + 1) < coolT Real.exp Real.log tmax tmin steps c k) ∧
    coolT Real.exp Real.log tmax tmin steps .fast steps.toNat = tmin ∧ coolT Real.exp Real.log tmax tmin steps .fast (steps.toNat + 1) < tmin ∧ tmax < coolT Real.exp Real.log tmax tmin steps .boltzmann 1 := by
  have hm : 0 < tmax := h0.trans h1
  have hS : (0 : ℝ) < steps := by exact_mod_cast hs
  have hl : 0 < Real.log (tmax / tmin) := Real.log_pos ((one_lt_div h0).2 h1)
  have hfast : ∀ k : ℕ, coolT Real.exp Real.log tmax tmin steps .fast (k + 1) < coolT Real.exp Real.log tmax tmin steps .fast k := by
    intro k
    simp only [coolT]
    refine mul_lt_mul_of_pos_left (Real.exp_lt_exp.2 ?_) hm
    push_cast
    rw [div_lt_div_iff_of_pos_right hS]
    nlinarith
  have hend : coolT Real.exp Real.log tmax tmin steps .fast steps.toNat = tmin := by
    simp only [coolT]
    have e : ((steps.toNat : ℕ) : ℝ) = (steps : ℝ) := by
      have : ((steps.toNat : ℕ) : ℤ) = steps := Int.toNat_of_nonneg hs.le
      exact_mod_cast this
    rw [e, mul_div_assoc, div_self hS.ne', mul_one, Real.exp_neg, Real.exp_log (div_pos hm h0), inv_div]
    field_simp
  refine ⟨?_, hend, (hfast _).trans_eq hend, ?_⟩
  · intro k hk
    have hk' : (1 : ℝ) ≤ k := by exact_mod_cast hk
    cases c with
    | fast => exact ⟨mul_pos hm (Real.exp_pos _), hfast k⟩
    | boltzmann =>
      simp only [coolT]
      have g1 : 0 < Real.log ((k : ℝ) + 1) := Real.log_pos (by linarith)
      refine ⟨div_pos hm g1, ?_⟩
      push_cast
      exact div_lt_div_of_pos_left hm g1 (Real.log_lt_log (by linarith) (by linarith))
    | cauchy =>
      simp only [coolT]
      refine ⟨by positivity, ?_⟩
      push_cast
      exact div_lt_div_of_pos_left hm (by linarith) (by linarith)
  · simp only [coolT]
    have g1 : 0 < Real.log (((1 : ℕ) : ℝ) + 1) := Real.log_pos (by norm_num)
    have g2 : Real.log (((1 : ℕ) : ℝ) + 1) < 1 := by
      have := Real.log_lt_sub_one_of_pos (show (0 : ℝ) < 2 by norm_num) (by norm_num)
      norm_num at this ⊢
      linarith
    rw [lt_div_iff₀ g1]
    nlinarith

/-- **C119 (schedules).** The Cauchy schedule is `Tmax` over the step plus one, the Boltzmann schedule `Tmax` over its logarithm. -/
theorem C119_schedules {tmax tmin : ℝ} {steps : ℤ} (k : ℕ) : coolT Real.exp Real.log tmax tmin steps .cauchy k * (k + 1) = tmax ∧
    (1 ≤ k → coolT Real.exp Real.log tmax tmin steps .boltzmann k * Real.log (k + 1) = tmax) := by
  refine ⟨?_, fun hk => ?_⟩
  · have : (k : ℝ) + 1 ≠ 0 := by positivity
    simp only [coolT]
    field_simp
  · have : 0 < Real.log ((k : ℝ) + 1) := Real.log_pos (by have : (1 : ℝ) ≤ k := by exact_mod_cast hk
                                                          linarith)
    simp only [coolT]
    field_simp

section

variable {K : Type} [Field K] [LinearOrder K] [IsStrictOrderedRing K] [FloorRing K]

/-- **C119 (perturbation).** With several bounds `fullswap` redraws exactly the coordinates whose draw is below `indpb`, from their bounds; the others stay. -/
theorem C119_full {a : Agent K} (h1 : a.one = false) {d : Draw K} {x y : List K} (h : fullswap a d x = .ok y) : y.length = x.length ∧
    ∀ k < x.length, (a.indpb ≤ d.u k → y[k]? = x[k]?) ∧ (d.u k < a.indpb → ∃ (b : ℤ × ℤ) (z : ℤ), a.bound k = .ok b ∧ b.1 ≤ z ∧ z < b.2 ∧ y[k]? = some (z : K)) := by
  have key : ∀ (x y : List K) (i : ℕ), perturb a d i x = .ok y → y.length = x.length ∧
      ∀ k < x.length, (a.indpb ≤ d.u (i + k) → y[k]? = x[k]?) ∧ (d.u (i + k) < a.indpb → ∃ (b : ℤ × ℤ) (z : ℤ), a.bound (i + k) = .ok b ∧ b.1 ≤ z ∧ z < b.2 ∧ y[k]? = some (z : K)) := by
    intro x
    induction x with
    | nil => intro y i h; cases h; simp
    | cons v x ih =>
      intro y i h
      simp only [perturb, bind, Except.bind] at h
      split at h
      · cases h
      rename_i w hw
      split at h
      · cases h
      rename_i ys hys
      cases h
      obtain ⟨h1, h2⟩ := ih ys (i + 1) hys
      refine ⟨by simp [h1], ?_⟩
      intro k hk
      cases k with
      | succ k =>
        have := h2 k (by simpa using hk)
        rw [show i + 1 + k = i + (k + 1) by omega] at this
        simpa using this
      | zero =>
        rw [Nat.add_zero]
        by_cases hu : d.u i < a.indpb
        · refine ⟨fun h => absurd hu (not_lt.mpr h), fun _ => ?_⟩
          rw [if_pos hu] at hw
          split at hw
          · cases hw
          rename_i b hb
          split at hw
          · cases hw
          rename_i z hz
          cases hw
          obtain ⟨r1, r2⟩ := randint_ok hz
          exact ⟨b, z, hb, r1, r2, rfl⟩
        · rw [if_neg hu] at hw
          cases hw
          exact ⟨fun _ => rfl, fun h => absurd h hu⟩
  unfold fullswap at h
  rw [h1] at h
  simp only [Bool.false_eq_true, if_false] at h
  have := key x y 0 h
  simpa using this

/-- **C119 (data).** A `kbs` move takes a row of the data exactly if its draw is below `indpb_kbs`: one whose number is still in the list, which is then struck from the list; after the last one all numbers are
back.  Otherwise the list stays, and each coordinate is redrawn with `indpb`. -/
theorem C119_kbs {a : Agent K} {d : Draw K} {inds inds' : List ℕ} {x y : List K} {u : Bool} (h : kbs a d inds x = .ok (y, inds', u)) :
    (u = true ↔ d.p < a.indpbKbs) ∧
    (u = true → ∃ i ∈ inds, a.data[i]? = some y ∧ (inds.length = 1 → inds' = List.range a.data.length) ∧ (1 < inds.length → inds.Perm (i :: inds'))) ∧
    (u = false → inds' = inds ∧ (a.one = false → fullswap a d x = .ok y)) := by
  unfold kbs at h
  split_ifs at h with hp
  · split at h
    · cases h
    rename_i i hi
    split at h
    · cases h
    rename_i row hrow
    cases h
    have hm := List.mem_of_getElem? hi
    have hl := List.length_erase_of_mem hm
    refine ⟨by simp [hp], fun _ => ⟨i, hm, hrow, fun h1 => ?_, fun h1 => ?_⟩, by simp⟩
    · rw [if_pos]
      rw [List.isEmpty_iff, ← List.length_eq_zero_iff]
      omega
    · rw [if_neg]
      · exact List.perm_cons_erase hm
      · rw [List.isEmpty_iff, ← List.length_eq_zero_iff]
        omega
  · split at h
    · cases h
    rename_i w hw
    cases h
    refine ⟨by simp [hp], by simp, fun _ => ⟨rfl, fun h1 => ?_⟩⟩
    unfold fullswap
    rw [h1]
    exact hw

end

/-! ### Examples -/

section examples

def card : Card ℚ := { xsize := 3, steps := 2, checkFreq := 2, swap := .single, lbound := some [0], ubound := some [5], initstate := none, indpb := 1 / 2, indpbKbs := 1 / 2, data := none }

def drw : ℕ → StepDraw ℚ := fun n => { mv := { a := n, b := 0, rs := [(n + 2, n + 4), (n + 3, n + 2), (n, n + 1)], u := fun _ => 0, r := fun i => i, p := 0, k := n }, alpha := 1 / 2 }

def sumFit : List ℚ → ℚ := fun v => v.sum

def runOf (c : Card ℚ) : Option (Py (State ℚ)) :=
  match construct c with
  | .error e => some (.error e)
  | .ok a => build (fun _ _ => 0) (fun _ => 1) sumFit a (fun i => i) drw

/-- What the examples look at: the candidates and the reports. -/
def view : Option (Py (State ℚ)) → Option (List (List ℚ) × List (List ℕ × List ℚ))
  | some (.ok s) => some (s.trace.map (fun e => e.cand), s.reports.map fun r => ([r.step, r.trials, r.accepts, r.improves], r.best ++ [r.energy]))
  | _ => none

/-- **C119 (lost, defect).** A run of three steps with one report; the last step improves on what is reported as best, and nothing is returned. -/
theorem C119_lost : view (runOf card) = some ([[0, 3, 2], [0, 3, 4], [5, 3, 4]], [([2, 2, 2, 2], [0, 3, 4, -7])]) := by
  decide +kernel

/-- **C119 (trunc, defect).** Bounds are truncated towards zero: with the lower bound 1/2 the value 0 is evaluated. -/
theorem C119_trunc : ∃ (c : Card ℚ) (v : List ℚ), c.lbound = some [1 / 2] ∧ (∃ w, view (runOf c) = some w ∧ v ∈ w.1) ∧ (0 : ℚ) ∈ v :=
  ⟨{ card with lbound := some [1 / 2] }, [0, 3, 2], rfl, ⟨_, (by decide +kernel : view (runOf { card with lbound := some [1 / 2] }) = some ([[0, 3, 2], [0, 3, 4], [5, 3, 4]], [([2, 2, 2, 2], [0, 3, 4, -7])])), by simp⟩, by simp⟩

/-- With a data set of two rows, three uses make a round and a half. -/
example : view (runOf { card with swap := .kbs, indpbKbs := 1, data := some [[1, 1, 1], [2, 2, 2]] }) =
    some ([[2, 2, 2], [1, 1, 1], [2, 2, 2]], [([2, 2, 1, 1], [2, 2, 2, -6])]) := by decide +kernel

/-- Two swaps. -/
example : view (runOf { card with swap := .dual }) = some ([[0, 3, 5], [3, 3, 2], [5, 1, 2]], [([2, 2, 2, 1], [0, 3, 5, -8])]) := by decide +kernel

end examples

end Neorl.Anneal

import Verif.JAYA

/-!
# Property theorems C21: JAYA
-/

set_option linter.unusedSectionVars false
set_option linter.unusedVariables false

namespace Neorl.JAYA

section
variable {K : Type} [Field K] [LinearOrder K] [IsStrictOrderedRing K] [FloorRing K]

/-- **C21.** The result is the best of everything evaluated, with its fitness; histories are exact; `npop * (ngen + 1)` evaluations, all
feasible; the returned last population is the last trial population with its own fitness. -/
theorem C21_evolute {c : Conf K} (hS : c.S.OK) {m : Bool} {userFit : List K → K} {dr : ℕ → ℕ → Draw K}
    {pos0 : List (List K)} (hf : ∀ p ∈ pos0, c.S.Feasible p) {r : Result K} (h : evolute c m userFit dr pos0 = .ok r) :
    IsBest m userFit r.log r.x r.y ∧
    HistBest m userFit c.npop c.npop r.log r.global ∧ r.global.Pairwise (NotWorse m) ∧ r.global.getLast? = some r.y ∧
    BlockBest m userFit c.npop c.npop r.log r.locals ∧ r.global.length = c.ngen ∧ r.locals.length = c.ngen ∧
    r.log.length = c.npop * (c.ngen + 1) ∧ (∀ x ∈ r.log, c.S.Feasible x) ∧ c.S.Feasible r.x ∧
    r.lastPop = (r.log.drop (c.ngen * c.npop)).map (fun x => (x, userFit x)) := by
  unfold evolute at h
  by_cases hn : pos0.length = c.npop
  swap
  · rw [if_pos hn] at h; cases h
  rw [if_neg (by simpa using hn)] at h
  split at h
  · cases h
  rename_i s hs
  have hi := run_inv hS hn hf hs
  by_cases h0 : c.ngen = 0
  · rw [if_pos h0] at h; cases h
  rw [if_neg h0] at h
  split at h
  · cases h
  rename_i x hx
  cases h
  have hb := hi.isBest hx
  refine ⟨hb.flip, hi.hist.flip, hi.hist.flip.pairwise, ?_, hi.locals.flip, by simp [hi.lens], by simp [hi.lens], ?_, hi.feas,
    hi.feas _ hb.1, ?_⟩
  · simp only [List.getLast?_map, hi.lastg h0]; rfl
  · show s.log.length = _
    rw [hi.len]; ring
  · rw [hi.last h0, List.map_map]
    exact List.map_congr_left (fun p _ => by simp)

/-- **C21.** After `g` generations row `i` of the population is the best of the `g + 1` points evaluated for that row (so it never
gets worse), and its stored fitness is its own. -/
theorem C21_rows {c : Conf K} (hS : c.S.OK) {fit : List K → K} {dr : ℕ → ℕ → Draw K} {pos0 : List (List K)}
    (hn : pos0.length = c.npop) (hf : ∀ p ∈ pos0, c.S.Feasible p) {g : ℕ} {s : State K} (h : run c fit dr pos0 g = .ok s) :
    s.pos.length = c.npop ∧ s.fits = s.pos.map fit ∧
    ∀ i p, s.pos[i]? = some p → SlotBest false fit c.npop (g + 1) s.log i p (fit p) :=
  let hi := run_inv hS hn hf h
  ⟨hi.npos, hi.fits, hi.slots⟩

/-- **C21, defect.** The row used as "worst" is, forever, the row that was worst in the initial population, and the worst score is
never updated. -/
theorem C21_worst_frozen {c : Conf K} (hS : c.S.OK) {fit : List K → K} {dr : ℕ → ℕ → Draw K} {pos0 : List (List K)}
    (hn : pos0.length = c.npop) (hf : ∀ p ∈ pos0, c.S.Feasible p) {g : ℕ} {s : State K} (h : run c fit dr pos0 g = .ok s) :
    ∃ w, pos0[s.worst.2]? = some w ∧ s.worst.1 = fit w ∧ (∀ p ∈ pos0, fit w ≤ fit p) ∧
    ∀ g', g' ≤ g → ∃ s', run c fit dr pos0 g' = .ok s' ∧ s'.worst = s.worst := by
  induction g generalizing s with
  | zero =>
    have hi := run_inv hS hn hf h
    obtain ⟨x, h1, h2, h3⟩ := hi.widx
    have hl : s.log = pos0 := by
      simp only [run, init] at h
      split at h <;> cases h
      rfl
    have hw := hi.wmin
    rw [hl] at h1 hw
    refine ⟨x, h1, h2, ?_, ?_⟩
    · intro p hp
      rw [← h2]
      exact hw p (by rw [List.take_of_length_le (by omega)]; exact hp)
    · intro g' hg'
      obtain rfl : g' = 0 := by omega
      exact ⟨s, h, rfl⟩
  | succ g ih =>
    have h' := h
    simp only [run] at h
    split at h
    · cases h
    rename_i s0 h0
    have hw := (gen_inv hS (run_inv hS hn hf h0) h).2
    obtain ⟨w, e1, e2, e3, e4⟩ := ih h0
    rw [hw]
    refine ⟨w, e1, e2, e3, ?_⟩
    intro g' hg'
    rcases Nat.lt_or_ge g' (g + 1) with hlt | hge
    · exact e4 g' (by omega)
    · obtain rfl : g' = g + 1 := by omega
      exact ⟨s, h', hw⟩

/-- **C21.** With `nearest_int`, a non-empty population and at least one generation the call returns. -/
theorem C21_total {c : Conf K} (hS : c.S.OK) (hm : c.S.method = .nearestInt) {m : Bool} {userFit : List K → K}
    {dr : ℕ → ℕ → Draw K} {pos0 : List (List K)} (hf : ∀ p ∈ pos0, c.S.Feasible p) (hn : pos0.length = c.npop)
    (h0 : 0 < c.npop) (hg : 0 < c.ngen) : ∃ r, evolute c m userFit dr pos0 = .ok r := by
  have hr : ∀ g, ∃ s, run c (fun x => sgn (!m) (userFit x)) dr pos0 g = .ok s := by
    intro g
    induction g with
    | zero =>
      cases pos0 with
      | nil => simp at hn; omega
      | cons p ps => exact ⟨_, rfl⟩
    | succ g ih =>
      obtain ⟨s, hs⟩ := ih
      have hi := run_inv hS hn hf hs
      obtain ⟨b, hb, -⟩ := hi.bidx
      obtain ⟨-, -, -, hw⟩ := hi.widx
      have hw' : s.pos[s.worst.2]? = some (s.pos[s.worst.2]'(by rw [hi.npos]; exact hw)) := List.getElem?_eq_getElem _
      set w := s.pos[s.worst.2]'(by rw [hi.npos]; exact hw)
      obtain ⟨new, hnew⟩ := mapRows_total (i := 0) (f := fun i row => repair c g (dr g i) (trial b w (dr g i) row)) (xs := s.pos)
        (P := fun x : List K => x.length = c.S.bounds.length) (fun p hp => (hi.feas p (hi.mem p hp)).1.length_eq)
        (fun k x hx => Space.disc_nearest_total hS hm _ _ (by rw [Space.length_clip hS (by simp [trial, hx])]))
      have hlnew := (mapRows_ok hnew).1
      have hmx : ∃ mx, listMax (new.map (fun x => sgn (!m) (userFit x))) = .ok mx := by
        cases new with
        | nil => rw [hi.npos] at hlnew; simp at hlnew; omega
        | cons q qs => exact ⟨_, rfl⟩
      obtain ⟨mx, hmx⟩ := hmx
      cases hfin : run c (fun x => sgn (!m) (userFit x)) dr pos0 (g + 1) with
      | ok s' => exact ⟨s', rfl⟩
      | error e => simp only [run, hs, gen, hb, hw', hnew, hmx] at hfin; cases hfin
  obtain ⟨s, hs⟩ := hr c.ngen
  have hi := run_inv hS hn hf hs
  obtain ⟨b, hb, -⟩ := hi.bidx
  unfold evolute
  rw [if_neg (by simpa using hn), hs]
  simp only
  rw [if_neg (by omega)]
  simp only [hb]
  exact ⟨_, rfl⟩

/-! ### A concrete run -/

def exS : Space ℚ := { bounds := [(-5, 5), (0, 3)], types := [.float, .int], method := .nearestInt, expf := fun x => x }
def exC : Conf ℚ := { S := exS, npop := 4, ngen := 2 }
def exFit : List ℚ → ℚ := fun x => (x.map (fun v => v * v)).sum
def exPos : List (List ℚ) := [[3, 1], [-2, 2], [5, 3], [1, 1]]
def exDr : ℕ → ℕ → Draw ℚ := fun g i => { r1 := fun _ => if i = 2 then 1 / 2 else 0, r2 := fun _ => if i = 2 then 1 / 2 else 0, disc := fun _ => (0, 0) }

example : exS.OK := Space.ok_of_okB (by decide +kernel)
example : ∀ p ∈ exPos, exS.Feasible p := Space.feasible_all (by decide +kernel)
example : (match evolute exC true exFit exDr exPos with
    | .ok r => decide (r.log.length = 12 ∧ r.y = 2 ∧ r.y = exFit r.x) | _ => false) = true := by decide +kernel

/-- **C21, defect, witness.** After two generations the initial worst row 2 has become `[2, 1]`; row 0 with `[3, 1]` is strictly
worse, yet row 2 is still the one used as the worst. -/
theorem C21_worst_not_worst : ∃ (s : State ℚ) (w p : List ℚ), run exC (fun x => sgn false (exFit x)) exDr exPos 2 = .ok s ∧
    s.pos[s.worst.2]? = some w ∧ p ∈ s.pos ∧ exFit w < exFit p := by
  have key : (match run exC (fun x => sgn false (exFit x)) exDr exPos 2 with
    | .ok s => decide (s.pos[s.worst.2]? = some [2, 1] ∧ [3, 1] ∈ s.pos) | _ => false) = true := by decide +kernel
  split at key
  · rename_i s hs
    simp only [decide_eq_true_eq] at key
    exact ⟨s, [2, 1], [3, 1], hs, key.1, key.2, by decide +kernel⟩
  · cases key

end
end Neorl.JAYA

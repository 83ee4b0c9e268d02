import Verif.CS

/-!
# Property theorems C23: cuckoo search
-/

set_option linter.unusedSectionVars false
set_option linter.unusedVariables false

namespace Neorl.CS

section
variable {K : Type} [Field K] [LinearOrder K] [IsStrictOrderedRing K] [FloorRing K]

/-- **C23.** The returned fitness is the best of everything evaluated and is the fitness of the *clamped* returned nest; both histories
are the exact best so far (the "local" one is not per generation); `ncuckoos * (2 ngen + 1)` evaluations at feasible points;
int coordinates of the returned nest are integers inside their bounds. -/
theorem C23_evolute {c : Conf K} (hS : c.S.OK) {m : Bool} {userFit : List K → K} {dr : ℕ → Draw K}
    {pos0 : List (List K)} (hf : ∀ p ∈ pos0, c.S.Feasible p) {r : Result K} (h : evolute c m userFit dr pos0 = .ok r) :
    IsBest m userFit r.log (c.S.clip r.x) r.y ∧
    HistBest m userFit c.ncuckoos (2 * c.ncuckoos) r.log r.global ∧ r.global.Pairwise (NotWorse m) ∧
    r.global.length = c.ngen ∧ r.global.getLast? = some r.y ∧ r.locals = r.global ∧
    r.log.length = c.ncuckoos * (2 * c.ngen + 1) ∧ (∀ z ∈ r.log, c.S.Feasible z) ∧ Half c.S r.x ∧
    r.lastPop.length = c.ncuckoos ∧
    ∀ (i : ℕ) (q : List K × K), r.lastPop[i]? = some q → SlotBest m userFit c.ncuckoos (1 + 2 * c.ngen) r.log i (c.S.clip q.1) q.2 := by
  unfold evolute at h
  by_cases hn : pos0.length = c.ncuckoos
  swap
  · rw [if_pos hn] at h; cases h
  rw [if_neg (by simpa using hn)] at h
  split at h
  · cases h
  rename_i s hs
  have hi := run_inv hS hn hf hs
  by_cases h0 : c.ngen = 0
  · rw [if_pos h0] at h; cases h
  rw [if_neg h0] at h
  cases h
  have hh : HistBest m userFit c.ncuckoos (2 * c.ncuckoos) s.log (s.global.map (sgn m)) := by
    refine ⟨by simpa using hi.hist.1, ?_⟩
    intro k y hy
    rw [List.getElem?_map] at hy
    cases hk : s.global[k]? with
    | none => rw [hk] at hy; cases hy
    | some v =>
      rw [hk] at hy; cases hy
      obtain ⟨e1, e2⟩ := hi.hist.2 k v hk
      exact MinOn.bestOn ⟨e1, fun z hz => by simpa [NotWorse] using e2 z hz⟩
  refine ⟨?_, hh, hh.pairwise, by simp [hi.lens], ?_, by rw [hi.locals], ?_, hi.flog, hi.bhalf, by simp [hi.mem.nn], ?_⟩
  · obtain ⟨b1, b2, b3⟩ := hi.best
    refine ⟨b1, by rw [b2, sgn_sgn], fun z hz => ?_⟩
    rw [notWorse_iff, sgn_sgn]
    simpa [NotWorse] using b3 z hz
  · simp only [List.getLast?_map, hi.lastg h0]; rfl
  · show s.log.length = _
    rw [hi.mem.len]; ring
  · intro i q hq
    rw [List.getElem?_map] at hq
    cases e : s.nests[i]? with
    | none => rw [e] at hq; cases hq
    | some w =>
      rw [e] at hq; cases hq
      obtain ⟨e1, e2, e3⟩ := hi.mem.slots i w e
      refine ⟨e1, by show sgn m w.2 = _; rw [e2, sgn_sgn], fun k hk z hz => ?_⟩
      rw [notWorse_iff, sgn_sgn]
      simpa [NotWorse] using e3 k hk z hz

/-- **C23.** In an all-integer (or grid) space the returned nest itself is feasible and is the best evaluated point. -/
theorem C23_integer_space {c : Conf K} (hS : c.S.OK) (ht : ∀ t ∈ c.S.types, t = VType.int) {m : Bool} {userFit : List K → K}
    {dr : ℕ → Draw K} {pos0 : List (List K)} (hf : ∀ p ∈ pos0, c.S.Feasible p) {r : Result K}
    (h : evolute c m userFit dr pos0 = .ok r) : c.S.Feasible r.x ∧ IsBest m userFit r.log r.x r.y := by
  obtain ⟨h1, -, -, -, -, -, -, -, h2, -⟩ := C23_evolute hS hf h
  have := h2.inBox hS ht
  refine ⟨this, ?_⟩
  rw [Space.clip_of_inBox this.1] at h1
  exact h1

/-- **C23.** With `nearest_int`, at least one cuckoo and one generation the call returns. -/
theorem C23_total {c : Conf K} (hS : c.S.OK) (hm : c.S.method = .nearestInt) {m : Bool} {userFit : List K → K} {dr : ℕ → Draw K}
    {pos0 : List (List K)} (hf : ∀ p ∈ pos0, c.S.Feasible p) (hn : pos0.length = c.ncuckoos) (h0 : 0 < c.ncuckoos)
    (hg : 0 < c.ngen) : ∃ r, evolute c m userFit dr pos0 = .ok r := by
  have hr : ∀ g, ∃ s, run c (fun x => sgn m (userFit x)) dr pos0 g = .ok s := by
    intro g
    induction g with
    | zero =>
      cases pos0 with
      | nil => simp at hn; omega
      | cons p ps => exact ⟨_, rfl⟩
    | succ g ih =>
      obtain ⟨s, hs⟩ := ih
      have hi := run_inv hS hn hf hs
      obtain ⟨new1, hnew1⟩ := mapRows_total (i := 0) (f := levyRow c g (dr g) s.best.2) (xs := s.nests.map (fun q => q.1))
        (P := fun x : List K => x.length = c.S.bounds.length)
        (fun p hp => by obtain ⟨q, hq, rfl⟩ := List.mem_map.1 hp; exact (hi.mem.half q hq).1)
        (fun k x hx => Space.disc_nearest_total hS hm _ _ (by simp [hx]))
      have hl1 : new1.length = c.ncuckoos := by rw [(mapRows_ok hnew1).1]; simp [hi.mem.nn]
      have hh1 : ∀ p ∈ new1, Half c.S p :=
        mapRows_forall (P := fun x : List K => x.length = c.S.bounds.length) hnew1
          (fun p hp => by obtain ⟨q, hq, rfl⟩ := List.mem_map.1 hp; exact (hi.mem.half q hq).1)
          (fun i x y hx h => half_disc hS (by simp [hx]) h)
      obtain ⟨new2, hnew2⟩ := mapRows_total (i := 0) (f := discoverRow c g (dr g) new1) (xs := new1)
        (P := fun x : List K => x.length = c.S.bounds.length) (fun p hp => (hh1 p hp).1)
        (fun k x hx => Space.disc_nearest_total hS hm _ _ (by rw [Space.length_clip hS (by simp [hx])]))
      have hl2 : new2.length = c.ncuckoos := by rw [(mapRows_ok hnew2).1, hl1]
      have hne : ∃ q qs, accept (fun p => sgn m (userFit (c.S.clip p))) (accept (fun p => sgn m (userFit (c.S.clip p))) s.nests new1) new2 = q :: qs := by
        cases e : accept (fun p => sgn m (userFit (c.S.clip p))) (accept (fun p => sgn m (userFit (c.S.clip p))) s.nests new1) new2 with
        | cons q qs => exact ⟨q, qs, rfl⟩
        | nil =>
          have e1 := (accept_spec (f := fun p => sgn m (userFit (c.S.clip p))) (qs := s.nests) (ps := new1) (by rw [hl1, hi.mem.nn])).1
          have e2 := (accept_spec (f := fun p => sgn m (userFit (c.S.clip p)))
            (qs := accept (fun p => sgn m (userFit (c.S.clip p))) s.nests new1) (ps := new2) (by rw [e1, hl2, hi.mem.nn])).1
          rw [e, e1, hi.mem.nn] at e2
          simp at e2
          omega
      obtain ⟨q, qs, hq⟩ := hne
      cases hfin : run c (fun x => sgn m (userFit x)) dr pos0 (g + 1) with
      | ok s' => exact ⟨s', rfl⟩
      | error e => simp only [run, hs, gen, hnew1, hnew2, hq] at hfin; cases hfin
  obtain ⟨s, hs⟩ := hr c.ngen
  unfold evolute
  rw [if_neg (by simpa using hn), hs]
  simp only
  rw [if_neg (by omega)]
  exact ⟨_, rfl⟩

/-! ### Concrete runs -/

def exS : Space ℚ := { bounds := [(-5, 5), (0, 3)], types := [.float, .int], method := .nearestInt, expf := fun x => x }
def exC : Conf ℚ := { S := exS, ncuckoos := 2, ngen := 1, pa := 1 / 4 }
def exFit : List ℚ → ℚ := fun x => - x.sum
def exPos : List (List ℚ) := [[3, 1], [4, 3]]
def exDr : ℕ → Draw ℚ := fun _ =>
  { levy := fun i _ => if i = 0 then -10 else 1 / 100, disc1 := fun _ _ => (0, 0), scale := 99 / 100, perm1 := fun i => i + 1, perm2 := fun i => i,
    u := fun _ j => if j = 0 then 1 / 2 else 0, disc2 := fun _ _ => (0, 0) }

example : exS.OK := Space.ok_of_okB (by decide +kernel)
example : ∀ p ∈ exPos, exS.Feasible p := Space.feasible_all (by decide +kernel)

/-- **C23, defect, witness.** One generation with two cuckoos: the returned position has first coordinate 13 although the upper bound is
5, and the reported fitness is not the fitness of the returned position but that of its clamped image. -/
theorem C23_out_of_box : ∃ (c : Conf ℚ) (dr : ℕ → Draw ℚ) (pos0 : List (List ℚ)) (r : Result ℚ), c.S.OK ∧
    (∀ p ∈ pos0, c.S.Feasible p) ∧ evolute c true exFit dr pos0 = .ok r ∧ ¬ InBox c.S.bounds r.x ∧ r.y ≠ exFit r.x := by
  have key : (match evolute exC true exFit exDr exPos with
    | .ok r => decide (r.x = [13, 3] ∧ r.y = -8) | _ => false) = true := by decide +kernel
  split at key
  · rename_i r hr
    simp only [decide_eq_true_eq] at key
    refine ⟨exC, exDr, exPos, r, Space.ok_of_okB (by decide +kernel), Space.feasible_all (by decide +kernel), hr, ?_, ?_⟩
    · rw [key.1]
      intro hb
      have := (inBox_getElem? (d := 0) hb rfl rfl).2
      norm_num at this
    · rw [key.1, key.2]; decide +kernel
  · cases key

end
end Neorl.CS

import Verif.Props.AEOMembers

/-!
# Ensemble runs: hypotheses of C40-C43 met by concrete data, and defects

The generator and sorting laws assumed in C41 are met by the instances below; a two-population ensemble satisfies all hypotheses of
`C41_ensemble_total`.
-/

set_option linter.unusedSectionVars false
set_option linter.unusedVariables false

namespace Neorl.AEO

section

/-- Numeric keys only. -/
def keyed (l : List (Option ℚ)) : Bool := l.all Option.isSome

/-- A sorting routine with the assumed laws. -/
def exSorts : Sorts ℚ where
  pairs r l := if keyed (l.map Prod.fst) then (if r then sortDesc (fun p => p.1.getD 0) l else sortAsc (fun p => p.1.getD 0) l) else l
  keys r l := if keyed l then (if r then sortDesc (fun p => p.getD 0) l else sortAsc (fun p => p.getD 0) l) else l

theorem exSorts_ok : exSorts.OK where
  pairs_perm r l := by
    simp only [exSorts]
    split_ifs
    · exact sortDesc_perm _ _
    · exact sortAsc_perm _ _
    · exact List.Perm.refl _
  keys_perm r l := by
    simp only [exSorts]
    split_ifs
    · exact sortDesc_perm _ _
    · exact sortAsc_perm _ _
    · exact List.Perm.refl _
  pairs_sorted r l h := by
    have hk : keyed (l.map Prod.fst) = true := by
      simp only [keyed, List.all_map, List.all_eq_true, Function.comp]
      exact fun p hp => Option.isSome_iff_ne_none.2 (h p hp)
    simp only [exSorts, hk, if_true]
    cases r
    · refine (sortAsc_sorted (fun p : Option ℚ × List ℚ => p.1.getD 0) l).imp ?_
      intro a b hab x y hx hy
      simpa [hx, hy] using hab
    · refine (sortDesc_sorted (fun p : Option ℚ × List ℚ => p.1.getD 0) l).imp ?_
      intro a b hab x y hx hy
      simpa [hx, hy] using hab
  keys_sorted r l h := by
    have hk : keyed l = true := by
      simp only [keyed, List.all_eq_true]
      exact fun p hp => Option.isSome_iff_ne_none.2 (h p hp)
    simp only [exSorts, hk, if_true]
    cases r
    · refine (sortAsc_sorted (fun p : Option ℚ => p.getD 0) l).imp ?_
      intro a b hab x y hx hy
      simpa [hx, hy] using hab
    · refine (sortDesc_sorted (fun p : Option ℚ => p.getD 0) l).imp ?_
      intro a b hab x y hx hy
      simpa [hx, hy] using hab

/-- Generators inside their supports: half the members leave, the first ones are drawn, the pool is reversed, everybody goes to the first
population. -/
def exRng : Rng ℚ where
  binomial _ _ n _ := n / 2
  choice _ _ n k _ := List.range k
  shuffle _ l := l.reverse
  multinomial _ n w := n :: List.replicate (w.length - 1) 0

theorem exRng_ok : exRng.OK where
  binomial_le _ _ n _ := Nat.div_le_self n 2
  choice_ok _ _ n k _ h := ⟨List.nodup_range, List.length_range, fun i hi => lt_of_lt_of_le (List.mem_range.1 hi) h⟩
  shuffle_perm _ l := List.reverse_perm l
  multinomial_ok _ n w h := by
    have : 0 < w.length := List.length_pos_iff.2 h
    constructor
    · simp [exRng]; omega
    · simp [exRng]

def exPow : ℚ → ℚ → ℚ := fun s _ => s

theorem exPow_ok : PowOK exPow := ⟨fun s a h _ => h, fun s a h _ => h⟩

def exS : Space ℚ := { bounds := [(-5, 5), (0, 3)], types := [.float, .int], method := .nearestInt, expf := fun x => x }
def exFit : List ℚ → ℚ := fun x => (x.map (fun v => v * v)).sum
def exMem : ℕ → ℕ → Member ℚ := fun j _ =>
  if j = 0 then .gwo { S := exS, nwolves := 5, ngen := 1, a := none } true GWO.exDr
  else .jaya { S := exS, npop := 5, ngen := 1 } true JAYA.exDr
def exConf : Conf ℚ :=
  { opts := [⟨.gwo, 1, false, 0, 0, id⟩, ⟨.jaya, 1, false, 0, 0, id⟩], gpc := 2, Ncyc := 3, alpha := .num 1, beta := .up, gImprove := false, gBurden := true,
    bImprove := true, bBurden := false, q := .down, wt := .lin, order := .awb, pow := exPow, T := ⟨id, id, 3⟩, so := exSorts, rng := exRng,
    evolver := fun j cyc => (exMem j cyc).ev exFit 2 }
def exX0 : List (List ℚ × ℕ) := (List.range 10).map (fun i : ℕ => ([(i : ℚ) / 3 - 2, 1], i % 2))

/-- **C40-C43, hypotheses met.** A grey wolf population and a JAYA population of five members each on a mixed space, three cycles of two generations,
half of every population migrating. -/
theorem C41_example : (∃ r, evolute exConf exFit (fun _ => false) exX0 = .ok r) ∧
    ∀ r, evolute exConf exFit (fun _ => false) exX0 = .ok r →
      IsBest true exFit r.final.log r.x r.y ∧ exS.Feasible r.x ∧ (flatMembers r.final.pops).length = 10 := by
  have hS : exS.OK := Space.ok_of_okB (by decide +kernel)
  have hmem : ∀ j cyc, (exMem j cyc).OK ∧ (exMem j cyc).space = exS := by
    intro j cyc
    by_cases h : j = 0
    · subst h; exact ⟨hS, rfl⟩
    · simp only [exMem, h, if_false]; exact ⟨hS, rfl⟩
  have hx : ∀ p ∈ exX0, exS.Feasible p.1 ∧ p.2 < 2 := by
    have h1 : ∀ x ∈ exX0.map Prod.fst, exS.Feasible x := Space.feasible_all (by decide +kernel)
    have h2 : ∀ p ∈ exX0, p.2 < 2 := by decide +kernel
    exact fun p hp => ⟨h1 p.1 (List.mem_map_of_mem hp), h2 p hp⟩
  constructor
  · refine C41_ensemble_total (c := exConf) exSorts_ok exRng_ok (Or.inr (by decide)) exPow_ok (by simp [exConf, Sched.NonNeg]) (by simp [exConf, Sched.NonNeg])
      (by simp [exConf, Sched.Unit]) (by decide) (by decide) (by simp [exConf]) (by simp [exConf]) (S := exS) (mem := exMem) hmem ?_ (fun _ _ => rfl) hx ?_
    · intro j o cyc hj
      match j, hj with
      | 0, hj => cases hj; exact ⟨rfl, rfl⟩
      | 1, hj => cases hj; exact ⟨rfl, rfl⟩
      | j + 2, hj => simp [exConf] at hj
    · intro j o hj
      match j, hj with
      | 0, hj => cases hj; decide +kernel
      | 1, hj => cases hj; decide +kernel
      | j + 2, hj => simp [exConf] at hj
  · intro r h
    obtain ⟨a1, a2, -, -, a5⟩ := C41_ensemble (c := exConf) exSorts_ok exRng_ok hmem (fun _ _ => rfl) hx h
    exact ⟨a1, a2, a5⟩

/-- The same run stopped after one cycle: two members of the second population have moved to the first. -/
example : (match evolute exConf exFit (fun n => n == 1) exX0 with
    | .ok r => r.final.pops.map (fun p : Pop ℚ => p.members.length)
    | .error _ => []) = [7, 3] := by decide +kernel

/-- **C40, defect.** The constructor accepts any number for `q` (lines 571-573 check only the type), but outside `[-1, 1]` the export weights leave `[0, 1]`
and the binomial draw raises: two populations of fitness 0 and 1. -/
theorem C40_q_unchecked : ∃ (c : Conf ℚ) (ps : List (Pop ℚ)), (∀ p ∈ ps, Good p) ∧ c.so.OK ∧ c.rng.OK ∧ PowOK c.pow ∧ c.q = .num 2 ∧ 2 ≤ c.Ncyc ∧
    ∃ e, migrate c 1 ps = .error e := by
  refine ⟨{ exConf with q := .num 2 }, [⟨[[0, 0]], [some 0], 1, [0], 0⟩, ⟨[[1, 0]], [some 1], 1, [1], 0⟩], ?_, exSorts_ok, exRng_ok, exPow_ok, rfl, by decide,
    .valueError, ?_⟩
  · intro p hp
    simp only [List.mem_cons, List.not_mem_nil, or_false] at hp
    rcases hp with rfl | rfl <;> exact ⟨rfl, rfl, by simp⟩
  · have h : (match migrate { exConf with q := .num 2 } 1 [⟨[[0, 0]], [some 0], 1, [0], 0⟩, ⟨[[1, 0]], [some 1], 1, [1], 0⟩] with
      | .error .valueError => true
      | _ => false) = true := by decide +kernel
    revert h
    generalize migrate { exConf with q := .num 2 } 1 [⟨[[0, 0]], [some 0], 1, [0], 0⟩, ⟨[[1, 0]], [some 1], 1, [1], 0⟩] = x
    intro h
    split at h
    · rfl
    · cases h

/-- Every hawk dives twice without finding anything better. -/
def divers : ℕ → ℕ → HHO.Draw ℚ := fun g i =>
  { e0 := 2 / 3, q := 0, hawk := i + 1, u1 := 1 / 2, u2 := 1 / 3, r := 0, uJ := 1 / 2, jump := fun _ => 1 / 5, dY := fun _ => (0, 0),
    dZ := fun _ => (0, 0), dF := fun _ => (0, 0) }

/-- **C43, defect.** Two evaluations per hawk and generation, announced as an upper bound by the code (lines 216-219), is not an upper bound: with a constant fitness and
hawks that dive every time there are three. -/
theorem C43_hho_not_bound : ∃ (mem : Member ℚ) (ms : List (List ℚ)) (last : List (List ℚ × ℚ)) (log : List (List ℚ)), mem.OK ∧ mem.algo = .hho ∧
    (∀ x ∈ ms, mem.space.Feasible x) ∧ 5 ≤ ms.length ∧ mem.ev (fun _ => 1) 2 [("E1", [2, 1])] ms = .ok (last, log) ∧
    conv .hho 2 ms.length < log.length ∧ log.length = 3 * (2 * ms.length) := by
  have h : (match (Member.hho { S := exS, nhawks := 5, ngen := 2, kwE1 := none } true divers).ev (fun _ => 1) 2 [("E1", [2, 1])]
      (List.replicate 5 [1, 1]) with
    | .ok (_, log) => log.length
    | .error _ => 0) = 30 := by decide +kernel
  cases e : (Member.hho { S := exS, nhawks := 5, ngen := 2, kwE1 := none } true divers).ev (fun _ => 1) 2 [("E1", [2, 1])] (List.replicate 5 [1, 1]) with
  | error _ => rw [e] at h; cases h
  | ok r =>
    rw [e] at h
    refine ⟨Member.hho { S := exS, nhawks := 5, ngen := 2, kwE1 := none } true divers, List.replicate 5 [1, 1], r.1, r.2,
      Space.ok_of_okB (S := exS) (by decide +kernel), rfl, Space.feasible_all (S := exS) (by decide +kernel), by decide, e, ?_, ?_⟩
    · dsimp only at h; rw [h]; decide
    · dsimp only at h; rw [h]; decide

end
end Neorl.AEO

import Verif.Props.InitRuns
import Verif.Props.HCLPSO
import Verif.Props.EPSO
import Verif.Props.EDEV
import Verif.Props.NSGA

/-!
# Property theorems C137, continued: the ensemble and multi-objective optimisers and annealing
-/

set_option linter.unusedSectionVars false
set_option linter.unusedVariables false

namespace Neorl.InitPop
open Neorl Neorl.Informed

section
variable {K : Type} [Field K] [LinearOrder K] [IsStrictOrderedRing K] [FloorRing K]

/-- **C137, from the user's arguments to the evaluated points, the remaining population methods.** Heterogeneous and ensemble particle swarms, the ensemble of
differential evolution variants, the multi-objective evolution strategies and simulated annealing with the default move, all started from the population built from
the user's bounds and guesses, evaluate only points that decode to the user's own space; so do the point they report and every member of the reported front. -/
theorem C137_end_to_end_rest {bs : Bounds K} (hk : (bs.map Prod.fst).Nodup) (hd : GridsDistinct bs) (hb : BoundsFine bs) {st : Store} {g : Gen} {n : ℕ}
    {x0 : List (Row K)} (hx : GuessesOK bs n x0) {dr : ℕ → ℕ → Draw K} (hdr : ∀ i j, DrawOK (dr i j)) {pop : List (Row K)}
    (hp : initial st g bs n x0 dr = .ok pop) {pos0 : List (List K)} (hn : numRows pop = .ok pos0) {S : Space K} (hS : S.OK)
    (e1 : S.bounds = (space bs).bounds) (e2 : S.types = (space bs).types) :
    (∀ g1 g2 ngen pc m userFit (D0 : HCLPSO.Draws0 K) D r, D0.OK → HCLPSO.evolute S g1 g2 ngen pc m userFit (some pos0) D0 D = .ok r →
      (∀ x ∈ r.log0 ++ r.log, InUser bs x) ∧ InUser bs r.x) ∧
    (∀ (C : EPSO.Cfg K) pc m userFit v0 D0 D r, C.S = S → EPSO.Unit01 v0 → EPSO.evolute C pc m userFit pos0 v0 D0 D = .ok r →
      (∀ x ∈ r.log, InUser bs x) ∧ InUser bs r.x) ∧
    (∀ npop ngen ng m userFit d0 d1 perm0 (D : ℕ → EDEV.Draws K) r, EDEV.IsPerm npop perm0 → (∀ k, EDEV.IsPerm npop (D k).perm) →
      EDEV.evolute S npop ngen ng m userFit pos0 d0 d1 perm0 D = .ok r → (∀ x ∈ r.logged ++ r.extra, InUser bs x) ∧ InUser bs r.x) ∧
    (∀ (c : ES.Conf K) m sel lg mm userFit d r (strat : List (List K)), c.S = S → c.smin ≤ c.smax → NSGA.Sound sel → (∀ x, (userFit x).length = mm) → 1 ≤ mm →
      (∀ s ∈ strat, s.length = bs.length) → NSGA.evolute c m sel lg userFit d (pos0.zip strat) = .ok r →
      (∀ x ∈ r.log, InUser bs x) ∧ (∀ p ∈ r.lastPop, InUser bs p.1) ∧ ∀ p ∈ r.front, InUser bs p.1) ∧
    (∀ (c : SA.Conf K) m userFit (d : ℕ → SA.GDraw K) r, c.S = S → (∀ i j, SA.IsDefMove c.S ((d i).core j)) → SA.evolute c m userFit d pos0 = .ok r →
      ∀ x ∈ r.log, InUser bs x) := by
  obtain ⟨hl, hf⟩ := start_feasible hk hd hb hx hdr hp hn e1 e2
  have fin : ∀ x, S.Feasible x → InUser bs x := fun x h => inUser_of_feasible hk e1 e2 h
  have hbl : S.bounds.length = bs.length := by
    rw [e1]
    have h4 := congrArg List.length (C05_encoded_bounds bs).1
    simp only [List.length_map] at h4
    simp [space, h4]
  refine ⟨?_, ?_, ?_, ?_, ?_⟩
  · intro g1 g2 ngen pc m userFit D0 D r h0 h
    obtain ⟨h1, _, _, h2, _⟩ := HCLPSO.C56_run hS h0 h
    exact ⟨fun x hx => fin x (h1 x hx), fin _ (h1 _ (List.mem_append_right _ h2.1))⟩
  · rintro C pc m userFit v0 D0 D r rfl hv h
    obtain ⟨h1, _, h2, _⟩ := EPSO.C55_run hS (fun x hx => (hf x hx).1.length_eq) hv h
    exact ⟨fun x hx => fin x (h1 x hx), fin _ (h1 _ h2.1)⟩
  · intro npop ngen ng m userFit d0 d1 perm0 D r hp0 hD h
    obtain ⟨h1, _, _, _, h2, _⟩ := EDEV.C44_run hS (fun x hx => (hf x hx).1.length_eq) hp0 hD h
    exact ⟨fun x hx => fin x (h1 x hx), fin _ (h1 _ (List.mem_append_left _ h2.1))⟩
  · rintro c m sel lg mm userFit d r strat rfl hs hsel hm hm1 hst h
    have hyp : NSGA.Setup c sel lg mm userFit (pos0.zip strat) := by
      refine ⟨hS, hs, hsel, hm, hm1, fun p hp => ?_⟩
      have h5 := List.of_mem_zip (show (p.1, p.2) ∈ pos0.zip strat from hp)
      exact ⟨hf _ h5.1, (hst _ h5.2).trans hbl.symm⟩
    obtain ⟨_, h1, h2, h3, _⟩ := NSGA.C59_evolute hyp h
    exact ⟨fun x hx => fin x (h3 x hx), fun p hp => fin _ (h1 p hp).1, fun p hp => fin _ (h1 p ((h2 p).1 hp).1).1⟩
  · rintro c m userFit d r rfl hm h
    exact fun x hx => fin x (SA.C25_feasible hS hm hf h x hx)

end

/-- The hypotheses on the space and the guesses hold for three variables of different types and two guesses. -/
example : GuessesOK exB 2 [[.pyint 2, .float (1 / 2), .str "hi"], [.pyint 1, .float 0, .str "hi"]] ∧ (space exB).OK ∧ (exB.map Prod.fst).Nodup := by
  refine ⟨⟨.inr rfl, ?_⟩, Space.ok_of_okB (by decide +kernel), by decide +kernel⟩
  intro r hr
  simp only [List.mem_cons, List.not_mem_nil, or_false] at hr
  rcases hr with rfl | rfl
  · refine ⟨.cons ⟨2, rfl, by norm_num, by norm_num⟩ (.cons ⟨1 / 2, rfl, by norm_num, by norm_num⟩ (.cons ⟨.str "hi", by simp, rfl⟩ .nil)), ?_⟩
    intro v hv n
    simp only [List.mem_cons, List.not_mem_nil, or_false] at hv
    rcases hv with rfl | rfl | rfl <;> simp
  · refine ⟨.cons ⟨1, rfl, by norm_num, by norm_num⟩ (.cons ⟨0, rfl, by norm_num, by norm_num⟩ (.cons ⟨.str "hi", by simp, rfl⟩ .nil)), ?_⟩
    intro v hv n
    simp only [List.mem_cons, List.not_mem_nil, or_false] at hv
    rcases hv with rfl | rfl | rfl <;> simp

end Neorl.InitPop

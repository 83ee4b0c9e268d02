import Verif.ReorderMore

/-!
# C141: the order of the variables, variables without influence

`BOUNDS` is a dictionary: a user who writes its entries in another order, leaves out a parameter the fitness never looks at, or lists a parameter twice
describes the same problem and expects the same search.
-/

set_option linter.unusedSectionVars false
set_option linter.unusedVariables false

namespace Neorl.Reorder

open Neorl.Rescale (Cont disc_cont mapRows_pt)

section
variable {K : Type} [Field K] [LinearOrder K] [IsStrictOrderedRing K] [FloorRing K]

/-- C141: what "the same problem" means.  The new listing has `m` variables, the `j`-th with bounds, type and value of the old variable `σ j`, and points in the old box
are points in the new one.  For a reordering, the fitness that undoes it describes the same problem; for any listing, a fitness describing the same problem exists
exactly when the old fitness looks only at the listed variables. -/
theorem C141_same_problem {σ : ℕ → ℕ} {m : ℕ} {S : Space K} (hS : S.OK) (hσ : Within σ m S) (f : List K → K) :
    (space σ m S).bounds = (List.range m).map (fun j => S.bounds.getD (σ j) (0, 0)) ∧
    (space σ m S).types = (List.range m).map (fun j => S.types.getD (σ j) .float) ∧
    (∀ x : List K, x.length = S.bounds.length → sel σ m x = (List.range m).map fun j => x.getD (σ j) 0) ∧
    (∀ x : List K, x.length = S.bounds.length → (∀ k < x.length, (S.bounds.getD k (0, 0)).1 ≤ x.getD k 0 ∧ x.getD k 0 ≤ (S.bounds.getD k (0, 0)).2) →
      ∀ j < m, ((space σ m S).bounds.getD j (0, 0)).1 ≤ (sel σ m x).getD j 0 ∧ (sel σ m x).getD j 0 ≤ ((space σ m S).bounds.getD j (0, 0)).2) ∧
    (∀ τ : ℕ → ℕ, m = S.bounds.length → (∀ j < m, τ j < m ∧ σ (τ j) = j) → Same σ m S f fun y => f (sel τ m y)) ∧
    ((∃ f', Same σ m S f f') ↔
      ∀ x y : List K, x.length = S.bounds.length → y.length = S.bounds.length → (∀ j < m, x.getD (σ j) 0 = y.getD (σ j) 0) → f x = f y) := by
  have hx : ∀ x : List K, x.length = S.bounds.length → sel σ m x = (List.range m).map fun j => x.getD (σ j) 0 := fun x h => sel_full 0 (hσ.at h)
  refine ⟨sel_full _ hσ, sel_full _ (by rw [hS.ntypes]; exact hσ), hx, ?_, ?_, ?_, ?_⟩
  · intro x hl hb j hj
    have e : (space σ m S).bounds.getD j (0, 0) = S.bounds.getD (σ j) (0, 0) := sel_getD _ hσ hj
    rw [e, sel_getD 0 (hσ.at hl) hj]
    exact hb _ (by rw [hl]; exact hσ j hj)
  · intro τ hm hτ x hl
    have e : sel τ m (sel σ m x) = x := by
      have h1 : (sel σ m x).length = m := sel_length (hσ.at hl)
      apply List.ext_getElem?
      intro j
      rw [sel_get_full (by rw [h1]; exact fun j hj => (hτ j hj).1)]
      by_cases hj : j < m
      · rw [if_pos hj, sel_get_full (hσ.at hl), if_pos (hτ j hj).1, (hτ j hj).2]
      · rw [if_neg hj, List.getElem?_eq_none (by omega)]
    simp only [e]
  · rintro ⟨f', h⟩ x y h1 h2 h3
    rw [← h x h1, ← h y h2, hx x h1, hx y h2]
    congr 1
    exact List.map_congr_left fun j hj => h3 j (List.mem_range.1 hj)
  · intro h
    classical
    refine ⟨fun y => if e : ∃ x : List K, x.length = S.bounds.length ∧ sel σ m x = y then f e.choose else 0, fun x hl => ?_⟩
    have e : ∃ x' : List K, x'.length = S.bounds.length ∧ sel σ m x' = sel σ m x := ⟨x, hl, rfl⟩
    simp only [dif_pos e]
    refine h _ _ e.choose_spec.1 hl fun j hj => ?_
    rw [← sel_getD 0 (hσ.at e.choose_spec.1) hj, ← sel_getD 0 (hσ.at hl) hj, e.choose_spec.2]

/-- C141: eight optimizers do not depend on how the variables are listed.  With each variable keeping its random draws, the run on the new listing evaluates the same
points, rewritten, in the same order and returns the same point, rewritten, with the same fitness values (or fails in the same way).  Integer variables are covered
when they are rounded (`nearest_int`, the default), except for particle swarm. -/
theorem C141_listing {σ : ℕ → ℕ} {m : ℕ} (b : Bool) {f f' : List K → K} (pos0 : List (List K)) :
    (∀ (c : Neorl.DE.Conf K) (dr : ℕ → ℕ → Neorl.DE.Draw K) (rl : ℕ → List (ℕ × List K)), c.S.OK → Plain c.S → Within σ m c.S → Same σ m c.S f f' → Full c.S pos0 → (∀ g, ∀ r ∈ rl g, r.2.length = c.S.bounds.length) →
      Neorl.DE.evolute { c with S := space σ m c.S } b f' (fun g i => { dr g i with cross := fun j => (dr g i).cross (σ j) }) (fun g => (rl g).map fun r => (r.1, sel σ m r.2)) (pos0.map (sel σ m))
        = (Neorl.DE.evolute c b f dr rl pos0).map fun r =>
          { r with x := sel σ m r.x, lastPop := r.lastPop.map fun p => (sel σ m p.1, p.2), log := r.log.map (sel σ m) }) ∧
    (∀ (c : Neorl.JAYA.Conf K) (dr : ℕ → ℕ → Neorl.JAYA.Draw K), c.S.OK → Plain c.S → Within σ m c.S → Same σ m c.S f f' → Full c.S pos0 →
      Neorl.JAYA.evolute { c with S := space σ m c.S } b f' (fun g i => { dr g i with r1 := fun j => (dr g i).r1 (σ j), r2 := fun j => (dr g i).r2 (σ j) }) (pos0.map (sel σ m))
        = (Neorl.JAYA.evolute c b f dr pos0).map fun r =>
          { r with x := sel σ m r.x, lastPop := r.lastPop.map fun p => (sel σ m p.1, p.2), log := r.log.map (sel σ m) }) ∧
    (∀ (c : Neorl.GWO.Conf K) (dr : ℕ → Neorl.GWO.Draw K), c.S.OK → Plain c.S → Within σ m c.S → Same σ m c.S f f' → Full c.S pos0 →
      Neorl.GWO.evolute { c with S := space σ m c.S } b f' (fun g => { dr g with r := fun i j => (dr g).r i (σ j) }) (pos0.map (sel σ m))
        = (Neorl.GWO.evolute c b f dr pos0).map fun r =>
          { r with x := sel σ m r.x, lastPop := r.lastPop.map fun p => (sel σ m p.1, p.2), log := r.log.map (sel σ m) }) ∧
    (∀ (c : Neorl.WOA.Conf K) (dr : ℕ → ℕ → Neorl.WOA.Draw K), c.S.OK → Plain c.S → Within σ m c.S → Same σ m c.S f f' → Full c.S pos0 →
      Neorl.WOA.evolute { c with S := space σ m c.S } b f' (fun g i => { dr g i with pick := fun j => (dr g i).pick (σ j) }) (pos0.map (sel σ m))
        = (Neorl.WOA.evolute c b f dr pos0).map fun r =>
          { r with x := sel σ m r.x, lastPop := r.lastPop.map fun p => (sel σ m p.1, p.2), log := r.log.map (sel σ m) }) ∧
    (∀ (c : Neorl.SSA.Conf K) (dr : ℕ → ℕ → Neorl.SSA.Draw K), c.S.OK → Plain c.S → Within σ m c.S → Same σ m c.S f f' → 0 < c.nsalps → Full c.S pos0 →
      Neorl.SSA.evolute { c with S := space σ m c.S } b f' (fun g i => { dr g i with c2 := fun j => (dr g i).c2 (σ j), c3 := fun j => (dr g i).c3 (σ j) }) (pos0.map (sel σ m))
        = (Neorl.SSA.evolute c b f dr pos0).map fun r =>
          { r with x := sel σ m r.x, lastPop := r.lastPop.map fun p => (sel σ m p.1, p.2), log := r.log.map (sel σ m) }) ∧
    (∀ (c : Neorl.MFO.Conf K) (dr : ℕ → ℕ → Neorl.MFO.Draw K), c.S.OK → Plain c.S → Within σ m c.S → Same σ m c.S f f' → Neorl.MFO.SortOK c.srt → Rescale.MFO.SortFit c.srt → Full c.S pos0 →
      Neorl.MFO.evolute { c with S := space σ m c.S } b f' (fun g i => { dr g i with u := fun j => (dr g i).u (σ j) }) (pos0.map (sel σ m))
        = (Neorl.MFO.evolute c b f dr pos0).map fun r =>
          { r with x := sel σ m r.x, lastPop := r.lastPop.map fun p => (sel σ m p.1, p.2), log := r.log.map (sel σ m) }) ∧
    (∀ (c : Neorl.CS.Conf K) (dr : ℕ → Neorl.CS.Draw K), c.S.OK → Plain c.S → Within σ m c.S → Same σ m c.S f f' → Full c.S pos0 →
      Neorl.CS.evolute { c with S := space σ m c.S } b f' (fun g => { dr g with levy := fun i j => (dr g).levy i (σ j), u := fun i j => (dr g).u i (σ j) }) (pos0.map (sel σ m))
        = (Neorl.CS.evolute c b f dr pos0).map fun r =>
          { r with x := sel σ m r.x, lastPop := r.lastPop.map fun p => (sel σ m p.1, p.2), log := r.log.map (sel σ m) }) ∧
    (∀ (c : Neorl.PSO.Conf K) (dr : ℕ → ℕ → Neorl.PSO.Draw K), c.S.OK → Cont c.S → Within σ m c.S → Same σ m c.S f f' → Full c.S pos0 →
      Neorl.PSO.evolute { c with S := space σ m c.S } b f' (fun g i => { r1 := fun j => (dr g i).r1 (σ j), r2 := fun j => (dr g i).r2 (σ j), wr := fun j => (dr g i).wr (σ j), u := fun j => (dr g i).u (σ j), pick := fun j => (dr g i).pick (σ j) }) (pos0.map (sel σ m))
        = (Neorl.PSO.evolute c b f dr pos0).map fun r =>
          { r with x := sel σ m r.x, lastPop := r.lastPop.map fun p => (sel σ m p.1, p.2), log := r.log.map (sel σ m) }) :=
  ⟨fun c dr rl hS hc hσ hf hp hr => DE.evolute_sel hS hc hσ b hf dr hr hp, fun c dr hS hc hσ hf hp => JAYA.evolute_sel hS hc hσ b hf dr hp,
   fun c dr hS hc hσ hf hp => GWO.evolute_sel hS hc hσ b hf dr hp, fun c dr hS hc hσ hf hp => WOA.evolute_sel hS hc hσ b hf dr hp,
   fun c dr hS hc hσ hf hn hp => SSA.evolute_sel hS hc hσ hn b hf dr hp, fun c dr hS hc hσ hf ho hs hp => MFO.evolute_sel hS hc hσ ho hs b hf dr hp,
   fun c dr hS hc hσ hf hp => CS.evolute_sel hS hc hσ b hf dr hp, fun c dr hS hc hσ hf hp => PSO.evolute_sel hS hc hσ b hf dr hp⟩

/-- C141: the repair of integer variables by rounding works on each entry alone: clamp, truncate, clamp. -/
theorem C141_rounding {S : Space K} (hS : S.OK) (h : S.method = .nearestInt) (al : K) (d : ℕ → K × ℕ) {v : List K} (hv : v.length = S.bounds.length) :
    ∃ w, S.disc al d v = .ok w ∧ w.length = v.length ∧ ∀ (j : ℕ) (x : K) (p : K × K), v[j]? = some x → S.bounds[j]? = some p →
      w[j]? = some (if S.types[j]? = some VType.int then ((max (truncZ p.1) (min (truncZ x) (truncZ p.2)) : ℤ) : K) else x) := by
  refine ⟨_, disc_plain (Or.inr h) al d hv, by simp, fun j x p hx hp => ?_⟩
  rw [List.getElem?_mapIdx, hx]
  have hb : S.bounds.getD j (0, 0) = p := by rw [List.getD_eq_getElem?_getD, hp]; rfl
  simp only [Option.map_some, rnd, hb]
  cases ht : S.types[j]? with
  | none => simp
  | some t =>
    cases t with
    | float => simp
    | int =>
      simp only [if_true]
      have hle : truncZ p.1 ≤ truncZ p.2 := truncZ_mono (hS.ordered p (List.mem_of_getElem? hp))
      congr 2
      simp only [clampInt]
      split_ifs <;> omega

end

/-! ### Where the listing does matter -/

/-- A box with two integer variables and one continuous variable, integers made by `minmax`. -/
def exM (ts : List VType) (bs : List (ℚ × ℚ)) (me : IntMethod) : Space ℚ := { bounds := bs, types := ts, method := me, expf := fun x => 1 + x }

def exD : ℕ → ℚ × ℕ := fun _ => (1 / 4, 0)

/-- C141 (defect): with `int_transform='minmax'` or `'sigmoid'` the repair of an integer variable depends on the values of all other variables (the minimum and maximum
are taken over the whole vector, whatever the variables mean) and, when there are several integers, on the order in which they are listed: the same value 1 of the
same variable is kept when another variable, without influence on it, is 9, replaced when that variable is 1/2 or is not there; and listing the two integers
(1, 4) the other way round replaces another one of them. -/
theorem C141_minmax :
    (exM [.int, .float] [(0, 5), (0, 10)] .minmax).disc 1 exD [1, 9] = .ok [1, 9] ∧
    (exM [.int, .float] [(0, 5), (0, 10)] .minmax).disc 1 exD [1, 1 / 2] = .ok [0, 1 / 2] ∧
    (exM [.int] [(0, 5)] .minmax).disc 1 exD [1] = .ok [0] ∧
    (exM [.int, .int] [(0, 5), (0, 5)] .minmax).disc 1 exD [1, 4] = .ok [1, 0] ∧
    (exM [.int, .int] [(0, 5), (0, 5)] .minmax).disc 1 exD [4, 1] = .ok [0, 0] ∧
    (exM [.int, .float] [(0, 5), (0, 10)] .sigmoid).disc 1 (fun _ => (2 / 5, 0)) [1, 9] = .ok [0, 9] ∧
    (exM [.int, .float] [(0, 5), (0, 10)] .sigmoid).disc 1 (fun _ => (2 / 5, 0)) [1, 1 / 2] = .ok [1, 1 / 2] := by
  refine ⟨?_, ?_, ?_, ?_, ?_, ?_, ?_⟩ <;> decide +kernel

/-! ### The hypotheses are met -/

/-- Swap two variables. -/
def exSwap : ℕ → ℕ := fun j => 1 - j

def exS2 : Space ℚ := { bounds := [(0, 10), (-3, 3)], types := [.float, .int], method := .nearestInt, expf := fun _ => 1 }
def exF2 (v : List ℚ) : ℚ := v.getD 0 0 + v.getD 1 0 * v.getD 1 0

theorem exS2_ok : exS2.OK := Space.ok_of_okB (by decide +kernel)
theorem exS2_plain : Plain exS2 := Or.inr rfl
theorem exS2_within : Within exSwap 2 exS2 := fun j hj => by simp only [exSwap, exS2, List.length_cons, List.length_nil]; omega

theorem exS2_same : Same exSwap 2 exS2 exF2 fun y => exF2 (sel exSwap 2 y) :=
  (C141_same_problem exS2_ok exS2_within exF2).2.2.2.2.1 exSwap rfl fun j hj => by simp only [exSwap]; omega

/-- A fitness that looks at the second variable only: the first may be left out (`σ j = j + 1`). -/
example : ∃ f', Same (fun j => j + 1) 1 exS2 (fun v => v.getD 1 0) f' :=
  (C141_same_problem exS2_ok (fun j hj => by simp [exS2]; omega) _).2.2.2.2.2.2 fun x y _ _ h => h 0 (by omega)

def exDE : Neorl.DE.Conf ℚ := { S := exS2, F := 1 / 2, CR := 1 / 2, npop := 4, ngen := 1 }
def exDEd : ℕ → ℕ → Neorl.DE.Draw ℚ := fun _ i =>
  { i1 := (i + 1) % 4, i2 := (i + 2) % 4, i3 := (i + 3) % 4, cross := fun j => if j = 0 then 1 / 4 else 3 / 4, discT := fun _ => (0, 0), discV := fun _ => (0, 0) }

/-- Differential evolution on both listings. -/
example : (Neorl.DE.evolute exDE true exF2 exDEd (fun _ => []) [[2, 1], [4, 2], [6, -1], [9, 0]]).toOption.map (fun r => (r.x, r.y)) = some ([1, 0], 1) ∧
    (Neorl.DE.evolute { exDE with S := space exSwap 2 exS2 } true (fun y => exF2 (sel exSwap 2 y)) (fun g i => { exDEd g i with cross := fun j => (exDEd g i).cross (exSwap j) })
      (fun _ => []) [[1, 2], [2, 4], [-1, 6], [0, 9]]).toOption.map (fun r => (r.x, r.y)) = some ([0, 1], 1) := by
  constructor <;> decide +kernel

end Neorl.Reorder

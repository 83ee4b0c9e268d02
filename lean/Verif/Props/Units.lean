import Verif.Units
import Verif.Props.NSGA

/-!
# C136: units and offsets of the objectives do not matter to NSGA-II
-/

set_option linter.unusedSectionVars false
set_option linter.unusedVariables false

namespace Neorl.Units

open Neorl.ND Neorl.ES Neorl.NSGA

section
variable {K : Type} [Field K] [LinearOrder K] [IsStrictOrderedRing K]

/-- **C136.** Both non-dominated sorts give the same fronts, in the same order, when every objective is changed by a strictly increasing function of
its own. -/
theorem C136_fronts {φ : ℕ → K → K} (h : ∀ i, StrictMono (φ i)) {lg : Bool} {vals : List (List K)} {m : ℕ} (hm : lg = true → 2 ≤ m)
    (hv : ∀ v ∈ vals, v.length = m) (k : ℕ) : ndSort lg (vals.map fun v => v.mapIdx φ) k = ndSort lg vals k := ndSort_tr h hm hv k

/-- **C136.** The crowding distances do not change with the units and offsets of the objectives. -/
theorem C136_crowding {a b : ℕ → K} (ha : ∀ i, 0 < a i) {vals : List (List K)} {m : ℕ} (hv : ∀ v ∈ vals, v.length = m) :
    crowding (vals.map fun v => v.mapIdx fun i x => a i * x + b i) = crowding vals := crowding_tr ha hv

/-- **C136.** NSGA-II selects the same individuals, in the same order. -/
theorem C136_select {a b : ℕ → K} (ha : ∀ i, 0 < a i) {lg : Bool} {vals : List (List K)} {m : ℕ} (hm : lg = true → 2 ≤ m) (hv : ∀ v ∈ vals, v.length = m) (k : ℕ) :
    selectII lg (vals.map fun v => v.mapIdx fun i x => a i * x + b i) k = selectII lg vals k := selectII_tr ha hm hv k

end

section
variable {K : Type} [Field K] [LinearOrder K] [IsStrictOrderedRing K] [FloorRing K]

/-- Specification: the fitness vector of a reported pair is changed by `g`, the point is the same. -/
def pairMap (g : ℕ → K → K) (p : List K × List K) : List K × List K := (p.1, p.2.mapIdx g)

theorem inner_aff (m m' : Bool) (a b : ℕ → K) : (fun i => Compare.inner (!m) (!m') fun x => a i * x + b i) =
    aff (fun i => if m = m' then a i else -a i) (fun i => sgn (!m') (b i)) := by
  funext i x
  cases m <;> cases m' <;> simp [Compare.inner, aff, sgn] <;> ring

theorem tr_sgn (m m' : Bool) (g : ℕ → K → K) (v : List K) : (tr g v).map (sgn (!m')) = tr (fun i => Compare.inner (!m) (!m') (g i)) (v.map (sgn (!m))) := by
  apply List.ext_getElem?
  intro i
  rw [List.getElem?_map, tr_get, tr_get, List.getElem?_map]
  cases v[i]? with
  | none => rfl
  | some x => simp [Compare.inner]

theorem sgn_tr (m m' : Bool) (g : ℕ → K → K) (v : List K) : (tr (fun i => Compare.inner (!m) (!m') (g i)) v).map (sgn (!m')) = tr g (v.map (sgn (!m))) := by
  apply List.ext_getElem?
  intro i
  rw [List.getElem?_map, tr_get, tr_get, List.getElem?_map]
  cases v[i]? with
  | none => rfl
  | some x => simp [Compare.inner]

/-- **C136.** A run of NSGA-II on objectives in other units or with other offsets (with the other mode: also of other sign) fails with the same error
or evaluates the same points in the same order, and reports the same Pareto sets in every generation, the same last population and the same best points,
each with its changed fitness.  In mode `max` the reported best values are changed likewise. -/
theorem C136_run {a b : ℕ → K} {m m' : Bool} (ha : ∀ i, 0 < if m = m' then a i else -a i) (c : Conf K) (lg : Bool) {mm : ℕ} (hmm : 1 ≤ mm)
    {userFit : List K → List K} (hF : ∀ x, (userFit x).length = mm) (dr : ℕ → ℕ → Draw K) (pop0 : List (List K × List K)) :
    Same (fun r r' : NSGA.Result K => r'.log = r.log ∧ r'.x = r.x ∧ r'.front = r.front.map (pairMap fun i x => a i * x + b i) ∧
        r'.hist = r.hist.map (fun f => f.map (pairMap fun i x => a i * x + b i)) ∧
        r'.lastPop = r.lastPop.map (pairMap fun i x => a i * x + b i) ∧
        (m = false → m' = false → r'.y = r.y.mapIdx fun i x => a i * x + b i))
      (NSGA.evolute c m sel2 lg userFit dr pop0) (NSGA.evolute c m' sel2 lg (fun x => (userFit x).mapIdx fun i x => a i * x + b i) dr pop0) := by
  unfold NSGA.evolute
  by_cases hc : ¬ c.cxpb + c.mutpb ≤ 1 ∨ pop0.length ≠ c.lam
  · rw [if_pos hc, if_pos hc]; exact rfl
  rw [if_neg hc, if_neg hc]
  cases hp : pop0[1]? with
  | none => exact rfl
  | some p1 =>
    dsimp only
    have eF : (fun x => ((userFit x).mapIdx fun i x => a i * x + b i).map (sgn (!m'))) =
        fun x => tr (fun i => Compare.inner (!m) (!m') fun x => a i * x + b i) ((userFit x).map (sgn (!m))) := by
      funext x
      exact tr_sgn m m' _ _
    simp only [List.length_map, List.length_mapIdx]
    rw [eF]
    generalize hlg : (if (userFit p1.1).length = 1 then false else lg) = lg'
    have hm : lg' = true → 2 ≤ mm := by
      intro e
      rw [← hlg, hF] at e
      by_cases h1 : mm = 1
      · rw [if_pos h1] at e; cases e
      · omega
    have hmono : ∀ i, StrictMono (Compare.inner (!m) (!m') fun x => a i * x + b i) := by
      intro i
      have := congrFun (inner_aff m m' a b) i
      rw [this]
      exact aff_mono ha i
    have hsel : ∀ g, SelInv (fun i => Compare.inner (!m) (!m') fun x => a i * x + b i) mm (sel2 (K := K) lg' g) := by
      intro g vals hv k
      rw [inner_aff]
      exact selectII_tr ha hm hv k
    have hr := run_tr hmono (c := c) (m := m) (m' := m') hm hsel (F := fun x => (userFit x).map (sgn (!m))) (fun x => by simp [hF]) dr pop0 c.ngen
    have hfix : ∀ (p : List K × List K), (p.1, (tr (fun i => Compare.inner (!m) (!m') fun x => a i * x + b i) p.2).map (sgn (!m'))) =
        pairMap (fun i x => a i * x + b i) (p.1, p.2.map (sgn (!m))) := by
      intro p
      rw [sgn_tr]; rfl
    cases h1 : NSGA.run c m (sel2 lg') lg' (fun x => (userFit x).map (sgn (!m))) dr pop0 c.ngen with
    | error e =>
      cases h2 : NSGA.run c m' (sel2 lg') lg' (fun x => tr (fun i => Compare.inner (!m) (!m') fun x => a i * x + b i) ((userFit x).map (sgn (!m)))) dr pop0 c.ngen with
      | error e' => rw [h1, h2] at hr; exact hr
      | ok s' => rw [h1, h2] at hr; exact hr.elim
    | ok s =>
      cases h2 : NSGA.run c m' (sel2 lg') lg' (fun x => tr (fun i => Compare.inner (!m) (!m') fun x => a i * x + b i) ((userFit x).map (sgn (!m)))) dr pop0 c.ngen with
      | error e' => rw [h1, h2] at hr; exact hr.elim
      | ok s' =>
        rw [h1, h2] at hr
        obtain ⟨al, _⟩ := hr
        dsimp only
        have hsome := al.some
        cases hy : s.y with
        | none =>
          rw [hy] at hsome
          cases hy' : s'.y with
          | none => exact rfl
          | some y' => rw [hy'] at hsome; cases hsome
        | some y =>
          rw [hy] at hsome
          cases hy' : s'.y with
          | none => rw [hy'] at hsome; cases hsome
          | some y' =>
            refine ⟨al.log, al.x, ?_, ?_, ?_, ?_⟩
            · dsimp only
              rw [al.front, List.map_map, List.map_map]
              exact List.map_congr_left fun p _ => hfix p
            · dsimp only
              rw [al.hist, List.map_map, List.map_map]
              apply List.map_congr_left
              intro f _
              simp only [Function.comp_apply, List.map_map]
              exact List.map_congr_left fun p _ => hfix p
            · dsimp only
              rw [al.pop, List.map_map, List.map_map]
              exact List.map_congr_left fun p _ => hfix (p.ind, p.fit)
            · rintro rfl rfl
              have := al.y ⟨rfl, rfl⟩
              rw [hy, hy'] at this
              have := Option.some.inj this
              dsimp only
              rw [this]
              exact sgn_tr false false _ y

/-- **C136.** In particular, minimising all objectives is maximising their negations. -/
theorem C136_negate (m : Bool) (c : Conf K) (lg : Bool) {mm : ℕ} (hmm : 1 ≤ mm) {userFit : List K → List K} (hF : ∀ x, (userFit x).length = mm)
    (dr : ℕ → ℕ → Draw K) (pop0 : List (List K × List K)) :
    Same (fun r r' : NSGA.Result K => r'.log = r.log ∧ r'.x = r.x ∧ r'.front = r.front.map (fun p => (p.1, p.2.map Neg.neg)) ∧
        r'.hist = r.hist.map (fun f => f.map fun p => (p.1, p.2.map Neg.neg)) ∧ r'.lastPop = r.lastPop.map (fun p => (p.1, p.2.map Neg.neg)))
      (NSGA.evolute c m sel2 lg userFit dr pop0) (NSGA.evolute c (!m) sel2 lg (fun x => (userFit x).map Neg.neg) dr pop0) := by
  have h := C136_run (a := fun _ => (-1 : K)) (b := fun _ => 0) (m := m) (m' := !m) (by intro i; cases m <;> simp) c lg hmm hF dr pop0
  have e : ∀ v : List K, v.mapIdx (fun (_ : ℕ) x => (-1 : K) * x + 0) = v.map Neg.neg := by
    intro v
    apply List.ext_getElem?
    intro i
    rw [List.getElem?_mapIdx, List.getElem?_map]
    congr 1
    funext x; ring
  have e' : pairMap (fun (_ : ℕ) x => (-1 : K) * x + 0) = fun p : List K × List K => (p.1, p.2.map Neg.neg) := by
    funext p
    simp only [pairMap, e]
  simp only [e, e'] at h
  revert h
  cases NSGA.evolute c m sel2 lg userFit dr pop0 <;> cases NSGA.evolute c (!m) sel2 lg (fun x => (userFit x).map Neg.neg) dr pop0
  · exact id
  · exact id
  · exact id
  · rintro ⟨h1, h2, h3, h4, h5, _⟩
    exact ⟨h1, h2, h3, h4, h5⟩

end

/-! ### Limits and concrete cases -/

/-- Five vectors that do not dominate one another. -/
def exV : List (List ℚ) := [[0, 10], [1, 9], [4, 6], [9, 1], [10, 0]]

example : (∀ v ∈ exV, v.length = 2) ∧ crowding exV = some [⊤, ((4 / 10 : ℚ) : WithTop ℚ), ((8 / 10 : ℚ) : WithTop ℚ), ((6 / 10 : ℚ) : WithTop ℚ), ⊤] := by decide +kernel

/-- **C136.** The limit: crowding measures distances, so a change of an objective that is increasing but not linear may change the selection (the cube
of the first objective here), though not the fronts. -/
theorem C136_nonlinear : selectII false exV 3 = .ok [0, 4, 2] ∧ selectII false (exV.map fun v => v.mapIdx fun i x => if i = 0 then x * x * x else x) 3 = .ok [0, 4, 3] ∧
    ndSort false (exV.map fun v => v.mapIdx fun i x => if i = 0 then x * x * x else x) 3 = ndSort false exV 3 := by decide +kernel

example : selectII false (exV.map fun v => v.mapIdx fun i x => (if i = 0 then 1000 else 1 / 7) * x + (if i = 0 then -3 else 12)) 3 = .ok [0, 4, 2] := by decide +kernel

/-- The hypotheses of `C136_run` for two objectives given in other units. -/
example : (∀ i : ℕ, (0 : ℚ) < if true = true then (if i = 0 then 1000 else 1 / 7) else -(if i = 0 then 1000 else 1 / 7)) ∧
    ∀ x : List ℚ, ([x.headD 0 * x.headD 0, (x.headD 0 - 2) * (x.headD 0 - 2)] : List ℚ).length = 2 :=
  ⟨fun i => by rw [if_pos rfl]; split_ifs <;> norm_num, fun _ => rfl⟩

end Neorl.Units

import Verif.Moves
import Verif.Props.HHO

/-!
# Property theorems C63: how a hawk moves
-/

set_option linter.unusedSectionVars false
set_option linter.unusedVariables false

namespace Neorl.HHO

section
variable {K : Type} [Field K] [LinearOrder K] [IsStrictOrderedRing K] [FloorRing K]

/-- Specification: all uniform draws are in `[0, 1]`. -/
def Draw.Unit (d : Draw K) : Prop :=
  (0 ≤ d.e0 ∧ d.e0 ≤ 1) ∧ (0 ≤ d.q ∧ d.q ≤ 1) ∧ (0 ≤ d.u1 ∧ d.u1 ≤ 1) ∧ (0 ≤ d.u2 ∧ d.u2 ≤ 1) ∧ (0 ≤ d.r ∧ d.r ≤ 1) ∧ (0 ≤ d.uJ ∧ d.uJ ≤ 1)

/-- **C63.** Without the keyword `E1` the energy bound falls linearly from 2 and is still positive in the last generation. -/
theorem C63_hho_schedule {c : Conf K} (hE : c.kwE1 = none) (hg : c.ngen ≠ 0) :
    coefE1 c 0 = .ok 2 ∧ ∀ t < c.ngen, ∃ e : K, coefE1 c t = .ok e ∧ 0 < e ∧ e ≤ 2 ∧ coefE1 c (t + 1) = .ok (e - 2 / (c.ngen : K)) := by
  have hp : (0 : K) < (c.ngen : K) := by exact_mod_cast Nat.pos_of_ne_zero hg
  refine ⟨by simp [coefE1, hE], fun t ht => ⟨2 * (1 - (t : K) / (c.ngen : K)), by simp [coefE1, hE], ?_, ?_, ?_⟩⟩
  · have h1 : (t : K) / (c.ngen : K) < 1 := by
      rw [div_lt_one hp]; exact_mod_cast ht
    linarith
  · have : (0 : K) ≤ (t : K) / (c.ngen : K) := by positivity
    linarith
  · simp only [coefE1, hE]; push_cast; congr 1; field_simp; ring

/-- Hawk `i` is moved when the hawks before it have been moved already. -/
theorem updTo_row {c : Conf K} {fit : List K → K} {t : ℕ} {E1 : K} {dr : ℕ → Draw K} {rabbit fits : List K} {n : ℕ} {pop q ev : List (List K)}
    (h : updTo c fit t E1 dr rabbit fits n pop = .ok (q, ev)) :
    (∀ j, n ≤ j → q[j]? = pop[j]?) ∧ ∀ i < n, ∃ p row row' hf ev', pop[i]? = some row ∧ q[i]? = some row' ∧ fits[i]? = some hf ∧
      updHawk c fit t E1 (dr i) rabbit hf p row = .ok (row', ev') ∧ ∀ z ∈ ev', z ∈ ev := by
  induction n generalizing q ev with
  | zero => cases h; exact ⟨fun _ _ => rfl, fun i hi => by omega⟩
  | succ n ih =>
    simp only [updTo] at h
    split at h
    · cases h
    · rename_i p ev0 hp
      obtain ⟨h1, h2⟩ := ih hp
      split at h
      · rename_i row hf hrow hfit
        split at h
        · cases h
        · rename_i row' ev' hr
          cases h
          refine ⟨fun j hj => by rw [List.getElem?_set_ne (by omega)]; exact h1 j (by omega), ?_⟩
          intro i hi
          rcases Nat.lt_or_ge i n with hi' | hi'
          · obtain ⟨p', r, r', f, ev1, e1, e2, e3, e4, e5⟩ := h2 i hi'
            exact ⟨p', r, r', f, ev1, e1, by rw [List.getElem?_set_ne (by omega)]; exact e2, e3, e4, fun z hz => List.mem_append_left _ (e5 z hz)⟩
          · obtain rfl : i = n := by omega
            refine ⟨p, row, row', hf, ev', by rw [← h1 i le_rfl]; exact hrow, ?_, hfit, hr, fun z hz => List.mem_append_right _ hz⟩
            rw [List.getElem?_set_self (List.getElem?_eq_some_iff.1 hrow).1]
      · cases h

/-- A dive: the hawk stays, or goes to an evaluated feasible point that is strictly better. -/
theorem dive_cases {c : Conf K} (hS : c.S.OK) {fit : List K → K} {t : ℕ} {E : K} {d : Draw K} {rabbit : List K} {hf : K} {pop : List (List K)}
    {row row' : List K} {ev : List (List K)} (hl : row.length = c.S.bounds.length) (h : dive c fit t E d rabbit hf pop row = .ok (row', ev)) :
    row' = row ∨ (c.S.Feasible row' ∧ row' ∈ ev ∧ fit row' < hf ∧
      (repair c t d.dY (diveTarget E d rabbit pop false row) = .ok row' ∨ repair c t d.dZ (diveTarget E d rabbit pop true row) = .ok row')) := by
  unfold dive at h
  split at h
  · cases h
  · rename_i Y hY
    have fY : c.S.Feasible Y := repair_feasible hS (by simp [diveTarget, hl]) hY
    rw [Space.clip_of_inBox fY.1] at h
    split at h
    · rename_i h3
      cases h
      exact Or.inr ⟨fY, by simp, h3, Or.inl hY⟩
    · split at h
      · cases h
      · rename_i Z hZ
        have fZ : c.S.Feasible Z := repair_feasible hS (by simp [diveTarget, hl]) hZ
        rw [Space.clip_of_inBox fZ.1] at h
        split at h
        · rename_i h4
          cases h
          exact Or.inr ⟨fZ, by simp, h4, Or.inr hZ⟩
        · cases h; exact Or.inl rfl

/-- **C63.** How a hawk gets from one generation to the next, from any feasible population.  There is an energy `E` with `|E| <= 2(1 - t/ngen)`, and the hawk
explores only if `|E| >= 1`, so never in the second half of the run.  Otherwise it pounces: for `|E| < 1/2` each float coordinate lands within `|E|` times
its distance from the rabbit, that is at less than half the distance; for `|E| >= 1/2` within `|E|` times the reach of the point `rabbit - x`.  Or it
dives: then it stays where it is, or moves to an evaluated point with strictly better fitness; a dive never makes a hawk worse.  The rabbit is the best
point evaluated at the start of a generation so far. -/
theorem C63_hho_move {c : Conf K} (hS : c.S.OK) (hm : c.S.method = .nearestInt) (hE : c.kwE1 = none) {fit : List K → K} {t : ℕ} (ht : t < c.ngen)
    {dr : ℕ → Draw K} (hd : ∀ i, (dr i).Unit) {s s' : State K} (hfs : ∀ p ∈ s.pos, c.S.Feasible p) (hn : s.pos.length = c.nhawks)
    (h : gen c fit t dr s = .ok s') {i : ℕ} (hi : i < c.nhawks) {p q : List K} (hp : s.pos[i]? = some p) (hq : s'.pos[i]? = some q) :
    ∃ E : K, |E| ≤ 2 * (1 - (t : K) / (c.ngen : K)) ∧
      ((1 ≤ |E| ∧ 2 * t ≤ c.ngen) ∨
       (|E| < 1 / 2 ∧ ∀ (j : ℕ) (b : K × K) (x y : K), c.S.types[j]? = some VType.float → c.S.bounds[j]? = some b → p[j]? = some x → q[j]? = some y →
          |y - clamp b.1 b.2 (s'.rabbit.2.getD j 0)| ≤ |E| * |s'.rabbit.2.getD j 0 - x|) ∨
       (1 / 2 ≤ |E| ∧ |E| < 1 ∧ ∀ (j : ℕ) (b : K × K) (x y : K), c.S.types[j]? = some VType.float → c.S.bounds[j]? = some b → p[j]? = some x → q[j]? = some y →
          |y - clamp b.1 b.2 (s'.rabbit.2.getD j 0 - x)| ≤ |E| * reach (s'.rabbit.2.getD j 0) x) ∨
       (|E| < 1 ∧ (q = p ∨ (q ∈ s'.dives ∧ fit q < fit p)))) := by
  have hpos : (0 : K) < (c.ngen : K) := by exact_mod_cast (by omega : 0 < c.ngen)
  unfold gen at h
  split at h
  · cases h
  rename_i E1 hE1
  have eE : E1 = 2 * (1 - (t : K) / (c.ngen : K)) := by simp only [coefE1, hE] at hE1; cases hE1; rfl
  simp only at h
  split at h
  · cases h
  rename_i b hb
  split at h
  · cases h
  rename_i pp ev hu
  split at h
  · cases h
  rename_i pos' hpos'
  cases h
  simp only at hq ⊢
  generalize hR : updAll (fun p => fit (c.S.clip p)) s.rabbit s.pos = R at hu ⊢
  obtain ⟨-, hrow⟩ := updTo_row hu
  obtain ⟨p0, row, row', hf, ev', e1, e2, e3, e4, e5⟩ := hrow i hi
  rw [hp] at e1; cases e1
  have hpf : c.S.Feasible p := hfs p (List.mem_of_getElem? hp)
  have ehf : hf = fit p := by
    rw [List.getElem?_map, hp] at e3
    simp only [Option.map_some, Option.some.injEq] at e3
    rw [← e3, Space.clip_of_inBox hpf.1]
  obtain ⟨r2, hr2, hrep⟩ := (mapRows_ok hpos').2 i q hq
  rw [e2] at hr2; cases hr2
  simp only [Nat.zero_add] at hrep
  obtain ⟨⟨d1, d2⟩, -, -, -, -, ⟨d3, d4⟩⟩ := hd i
  have hE1p : 0 ≤ E1 := by
    rw [eE]
    have h1 : (t : K) / (c.ngen : K) ≤ 1 := by rw [div_le_one hpos]; exact_mod_cast ht.le
    linarith
  have hEle : |E1 * (2 * (dr i).e0 - 1)| ≤ E1 := by
    rw [abs_mul, abs_of_nonneg hE1p]
    have : |2 * (dr i).e0 - 1| ≤ 1 := by rw [abs_le]; constructor <;> linarith
    nlinarith
  refine ⟨E1 * (2 * (dr i).e0 - 1), by rw [← eE]; exact hEle, ?_⟩
  unfold updHawk at e4
  simp only at e4
  generalize E1 * (2 * (dr i).e0 - 1) = E at e4 hEle ⊢
  by_cases h1 : |E| ≥ 1
  · refine Or.inl ⟨h1, ?_⟩
    have h2 : (1 : K) ≤ 2 * (1 - (t : K) / (c.ngen : K)) := by rw [← eE]; exact le_trans h1 hEle
    have h3 : (t : K) / (c.ngen : K) ≤ 1 / 2 := by linarith
    rw [div_le_div_iff₀ hpos (by norm_num)] at h3
    have : ((2 * t : ℕ) : K) ≤ ((c.ngen : ℕ) : K) := by push_cast; linarith
    exact_mod_cast this
  rw [if_neg h1] at e4
  right
  by_cases h2 : (dr i).r ≥ 1 / 2
  · rw [if_pos h2] at e4
    cases e4
    by_cases h3 : |E| < 1 / 2
    · refine Or.inl ⟨h3, ?_⟩
      intro j b x y hty hbd hx hy
      have hv : (pounce E (dr i) R.2 p)[j]? = some (R.2.getD j 0 - E * |R.2.getD j 0 - x|) := by
        simp only [pounce, List.getElem?_mapIdx, hx, Option.map_some, if_pos h3]
      have hc := Space.repair_float hS hrep hty hbd hv
      rw [hy] at hc; cases hc
      refine le_trans (clamp_lipschitz _ _ _ _) ?_
      rw [sub_sub_cancel_left, abs_neg, abs_mul, abs_abs]
    · refine Or.inr (Or.inl ⟨not_lt.1 h3, not_le.1 h1, ?_⟩)
      intro j b x y hty hbd hx hy
      have hv : (pounce E (dr i) R.2 p)[j]? = some ((R.2.getD j 0 - x) - E * |2 * (1 - (dr i).uJ) * R.2.getD j 0 - x|) := by
        simp only [pounce, List.getElem?_mapIdx, hx, Option.map_some, if_neg h3]
      have hc := Space.repair_float hS hrep hty hbd hv
      rw [hy] at hc; cases hc
      refine le_trans (clamp_lipschitz _ _ _ _) ?_
      rw [sub_sub_cancel_left, abs_neg, abs_mul, abs_abs]
      exact mul_le_mul_of_nonneg_left (abs_le_reach (by linarith) (by linarith)) (abs_nonneg _)
  · rw [if_neg h2] at e4
    refine Or.inr (Or.inr ⟨not_le.1 h1, ?_⟩)
    rcases dive_cases hS hpf.1.length_eq e4 with rfl | ⟨g1, g2, g3, -⟩
    · rw [repair_id hS hm _ _ hpf] at hrep
      cases hrep; exact Or.inl rfl
    · rw [repair_id hS hm _ _ g1] at hrep
      cases hrep
      exact Or.inr ⟨e5 _ g2, by rw [← ehf]; exact g3⟩

/-- **C63.** Where a dive aims: the first try is within `|E|` times the reach of the rabbit from the hawk's own coordinate (`|E| >= 1/2`) or from the mean of the population
(`|E| < 1/2`); the second try is the first plus the Lévy step. -/
theorem C63_hho_dive {E : K} {d : Draw K} (hd : d.Unit) (rabbit : List K) (pop : List (List K)) {row : List K} {j : ℕ} {x : K} (hx : row[j]? = some x) :
    ∃ v, (diveTarget E d rabbit pop false row)[j]? = some v ∧ (diveTarget E d rabbit pop true row)[j]? = some (v + d.jump j) ∧
      (1 / 2 ≤ |E| → |v - rabbit.getD j 0| ≤ |E| * reach (rabbit.getD j 0) x) ∧
      (|E| < 1 / 2 → |v - rabbit.getD j 0| ≤ |E| * reach (rabbit.getD j 0) ((pop.map (fun p => p.getD j 0)).sum / (pop.length : K))) := by
  obtain ⟨-, -, -, -, -, ⟨d3, d4⟩⟩ := hd
  refine ⟨rabbit.getD j 0 - E * |2 * (1 - d.uJ) * rabbit.getD j 0 - (if |E| ≥ 1 / 2 then x else colMean pop j)|, ?_, ?_, ?_, ?_⟩
  · simp [diveTarget, List.getElem?_mapIdx, hx]
  · simp [diveTarget, List.getElem?_mapIdx, hx]
  · intro h
    rw [if_pos h, sub_sub_cancel_left, abs_neg, abs_mul, abs_abs]
    exact mul_le_mul_of_nonneg_left (abs_le_reach (by linarith) (by linarith)) (abs_nonneg _)
  · intro h
    rw [if_neg (not_le.2 h), sub_sub_cancel_left, abs_neg, abs_mul, abs_abs]
    exact mul_le_mul_of_nonneg_left (abs_le_reach (by linarith) (by linarith)) (abs_nonneg _)

/-- **C63.** Where exploration goes: with `q < 1/2` towards a hawk of the current population, at most its `reach` below it and never above it; otherwise to the difference of rabbit
and mean, shifted by a fraction of a point of the box. -/
theorem C63_hho_explore {c : Conf K} {d : Draw K} (hd : d.Unit) (hS : c.S.OK) (rabbit : List K) (pop : List (List K)) {row : List K} {j : ℕ} {x : K}
    {b : K × K} (hb : c.S.bounds[j]? = some b) (hx : row[j]? = some x) : ∃ v, (explore c d rabbit pop row)[j]? = some v ∧
      (d.q < 1 / 2 → v ≤ (pop.getD (d.hawk % c.nhawks) []).getD j 0 ∧
        (pop.getD (d.hawk % c.nhawks) []).getD j 0 - v ≤ reach x ((pop.getD (d.hawk % c.nhawks) []).getD j 0)) ∧
      (1 / 2 ≤ d.q → ∃ u z, 0 ≤ u ∧ u ≤ 1 ∧ b.1 ≤ z ∧ z ≤ b.2 ∧
        v = rabbit.getD j 0 - (pop.map (fun p => p.getD j 0)).sum / (pop.length : K) - u * z) := by
  obtain ⟨-, -, ⟨u1, u2⟩, ⟨w1, w2⟩, -, -⟩ := hd
  by_cases hq : d.q < 1 / 2
  · generalize hh : (pop.getD (d.hawk % c.nhawks) []).getD j 0 = w
    refine ⟨w - d.u1 * |w - 2 * d.u2 * x|, ?_, ?_, fun h => absurd hq (not_lt.2 h)⟩
    · simp only [explore, List.getElem?_mapIdx, hx, Option.map_some, if_pos hq, hh]
    · intro _
      have h1 : |w - 2 * d.u2 * x| ≤ reach x w := by rw [abs_sub_comm]; exact abs_le_reach w1 w2
      have h2 := abs_nonneg (w - 2 * d.u2 * x)
      constructor
      · nlinarith
      · nlinarith
  · refine ⟨(rabbit.getD j 0 - colMean pop j) - d.u1 * ((b.2 - b.1) * d.u2 + b.1), ?_, fun h => absurd h hq, ?_⟩
    · have : c.S.bounds.getD j (0, 0) = b := by rw [List.getD_eq_getElem?_getD, hb]; rfl
      simp only [explore, List.getElem?_mapIdx, hx, Option.map_some, if_neg hq, this]
    · intro _
      have hbb : b.1 ≤ b.2 := hS.ordered b (List.mem_of_getElem? hb)
      exact ⟨d.u1, (b.2 - b.1) * d.u2 + b.1, u1, u2, by nlinarith, by nlinarith, rfl⟩

/-! ### Concrete cases -/

example : ∀ g i, (exDr g i).Unit := by
  intro g i
  refine ⟨⟨?_, ?_⟩, ⟨?_, ?_⟩, ⟨?_, ?_⟩, ⟨?_, ?_⟩, ⟨?_, ?_⟩, ?_, ?_⟩ <;> simp only [exDr] <;> first | (split <;> norm_num; done) | (norm_num; done)

/-- The run of `Props/HHO.lean`: the second hawk dives to a better point in the first generation. -/
example : exRes.starts[3]? = some [(-9 / 5 : ℚ), 2] ∧ exFit [-9 / 5, 2] < exFit [-2, 2] := by decide +kernel

end
end Neorl.HHO

import Verif.Assoc
import Verif.Props.Niche
import Mathlib.Analysis.Real.Sqrt
import Mathlib.Data.Fin.VecNotation

/-!
# C101: normalisation and association of NSGA-III
-/

set_option linter.unusedSectionVars false
set_option linter.unusedVariables false

namespace Neorl.ND

section
variable {K : Type} [Field K] [LinearOrder K] [IsStrictOrderedRing K] {m : ℕ}

/-- What is asked of `np.linalg.solve`: a returned vector solves `A x = 1`. -/
def Solves (solve : (Fin m → Fin m → K) → Option (Fin m → K)) : Prop := ∀ A x, solve A = some x → ∀ i, ∑ j, A i j * x j = 1

/-- What is asked of the square root. -/
def IsSqrt (sqrt : K → K) : Prop := ∀ a, 0 ≤ a → 0 ≤ sqrt a ∧ sqrt a * sqrt a = a

/-- **C101.** The extreme point of axis `j` is one of the individuals, and if some individual lies on the axis (best in all other objectives), the chosen one exceeds the best
value by at most a millionth of that individual's distance in the other objectives, and is not worse in objective `j`. -/
theorem C101_extreme {pop : List (Fin m → K)} (h : pop ≠ []) (j : Fin m) :
    extreme pop (colMin pop) j ∈ pop ∧
    ∀ f ∈ pop, (∀ i, i ≠ j → f i = colMin pop i) → extreme pop (colMin pop) j j ≤ f j ∧
      ∀ i, i ≠ j → extreme pop (colMin pop) j i - colMin pop i ≤ (f j - colMin pop j) / 1000000 := by
  obtain ⟨h1, h2⟩ := extreme_spec h (colMin pop) j
  refine ⟨h1, fun f hf hax => ?_⟩
  have hle := h2 f hf
  have hpos : 0 ≤ f j - colMin pop j := sub_nonneg.2 ((colMin_spec h j).2 f hf)
  have hf' : asf (colMin pop) j f ≤ f j - colMin pop j := by
    obtain ⟨i, hi⟩ := (asf_spec (colMin pop) j f).1
    rw [← hi]
    split_ifs with hij
    · rw [hij, mul_one]
    · rw [hax i hij, sub_self, zero_mul]; exact hpos
  have hb := (asf_spec (colMin pop) j (extreme pop (colMin pop) j)).2
  constructor
  · have := hb j
    rw [if_pos rfl, mul_one] at this
    linarith
  · intro i hij
    have := hb i
    rw [if_neg hij] at this
    rw [le_div_iff₀ (by norm_num)]
    linarith

/-- **C101.** The intercepts are either the worst values, or the positive distances from the best point at which the hyperplane through the extreme points meets the axes, within the
range of the population.  They are the worst values whenever the system is singular. -/
theorem C101_intercepts {solve : (Fin m → Fin m → K) → Option (Fin m → K)} (hs : Solves solve) (ext : Fin m → Fin m → K) (best worst : Fin m → K) :
    (solve (fun i j => ext i j - best j) = none → intercepts solve ext best worst = worst) ∧
    (intercepts solve ext best worst = worst ∨
      ∃ x : Fin m → K, (∀ i, ∑ j, (ext i j - best j) * x j = 1) ∧
        ∀ j, intercepts solve ext best worst j * x j = 1 ∧ 1 / 1000000 < intercepts solve ext best worst j ∧ best j + intercepts solve ext best worst j ≤ worst j) := by
  constructor
  · intro h
    unfold intercepts
    simp only [h]
  · unfold intercepts
    simp only
    cases e : solve (fun i j => ext i j - best j) with
    | none => exact Or.inl rfl
    | some x =>
      simp only
      split_ifs with h1 h2
      · exact Or.inl rfl
      · exact Or.inl rfl
      · right
        push Not at h1 h2
        refine ⟨x, hs _ _ e, fun j => ⟨?_, h2.2.1 j, ?_⟩⟩
        · exact one_div_mul_cancel (h1 j)
        · rw [add_comm]; exact h2.2.2 j

/-- **C101.** If the worst values are used, the best value of every objective becomes 0, the worst becomes 1 and everything else lies between. -/
theorem C101_unit {pop : List (Fin m → K)} (h : pop ≠ []) {f : Fin m → K} (hf : f ∈ pop) {v : Fin m → K}
    (hv : normalise (colMin pop) (colMax pop) f = some v) (j : Fin m) :
    0 ≤ v j ∧ v j ≤ 1 ∧ (f j = colMin pop j ↔ v j = 0) ∧ (f j = colMax pop j ↔ v j = 1) := by
  unfold normalise at hv
  split_ifs at hv with h0
  push Not at h0
  simp only [Option.some.injEq] at hv
  subst hv
  have h1 := (colMin_spec h j).2 f hf
  have h2 := (colMax_spec h j).2 f hf
  have hpos : 0 < colMax pop j - colMin pop j := sub_pos.2 (lt_of_le_of_ne (h1.trans h2) (Ne.symm (h0 j)))
  refine ⟨div_nonneg (by linarith) hpos.le, by rw [div_le_one hpos]; linarith, ?_, ?_⟩
  · rw [div_eq_zero_iff]
    constructor
    · intro e; left; rw [e, sub_self]
    · rintro (e | e)
      · linarith
      · exact absurd e hpos.ne'
  · rw [div_eq_one_iff_eq hpos.ne']
    constructor
    · intro e; rw [e]
    · intro e; linarith

/-- Squared distance to the point `t * r` of the line through `r`. -/
def lineSq (r v : Fin m → K) (t : K) : K := ∑ j, (v j - t * r j) * (v j - t * r j)

theorem lineSq_expand (r v : Fin m → K) (t : K) :
    lineSq r v t = (∑ j, v j * v j) - 2 * t * (∑ j, v j * r j) + t * t * ∑ j, r j * r j := by
  unfold lineSq
  rw [Finset.mul_sum, Finset.mul_sum, ← Finset.sum_sub_distrib, ← Finset.sum_add_distrib]
  exact Finset.sum_congr rfl fun j _ => by ring

theorem sumSq_pos {r : Fin m → K} (hr : ∃ j, r j ≠ 0) : 0 < ∑ j, r j * r j := by
  obtain ⟨j, hj⟩ := hr
  exact Finset.sum_pos' (fun i _ => mul_self_nonneg _) ⟨j, Finset.mem_univ _, mul_self_pos.2 hj⟩

/-- The entry of the distance matrix is the distance to the line. -/
theorem perp_spec {sqrt : K → K} (hq : IsSqrt sqrt) {r : Fin m → K} (hr : ∃ j, r j ≠ 0) (v : Fin m → K) :
    0 ≤ perp sqrt r v ∧ (∃ t, perp sqrt r v * perp sqrt r v = lineSq r v t) ∧ ∀ t, perp sqrt r v * perp sqrt r v ≤ lineSq r v t := by
  have hN := sumSq_pos hr
  obtain ⟨n0, nn⟩ := hq _ hN.le
  have hn : sqrt (∑ j, r j * r j) ≠ 0 := by
    intro h; rw [h, mul_zero] at nn; exact hN.ne nn
  have key : ∀ j, (∑ i, v i * r i) / sqrt (∑ j, r j * r j) * r j / sqrt (∑ j, r j * r j) = (∑ i, v i * r i) / (∑ j, r j * r j) * r j := by
    intro j
    conv_rhs => rw [← nn]
    field_simp
  have e : perp sqrt r v * perp sqrt r v = lineSq r v ((∑ i, v i * r i) / ∑ j, r j * r j) := by
    unfold perp
    simp only
    rw [(hq _ (Finset.sum_nonneg fun i _ => mul_self_nonneg _)).2]
    unfold lineSq
    refine Finset.sum_congr rfl fun j _ => ?_
    rw [key j]
    ring
  refine ⟨?_, ⟨_, e⟩, ?_⟩
  · unfold perp
    exact (hq _ (Finset.sum_nonneg fun i _ => mul_self_nonneg _)).1
  · intro t
    rw [e, lineSq_expand, lineSq_expand]
    set P := ∑ i, v i * r i
    set N := ∑ j, r j * r j
    have h1 : 2 * (P / N) * P = 2 * (P * P / N) := by ring
    have h2 : P / N * (P / N) * N = P * P / N := by field_simp
    have h3 : 0 ≤ (t * N - P) * (t * N - P) / N := div_nonneg (mul_self_nonneg _) hN.le
    have h4 : (t * N - P) * (t * N - P) / N = t * t * N - 2 * t * P + P * P / N := by field_simp; ring
    rw [h1, h2]
    linarith

/-- **C101.** Every individual is associated with the first reference point whose line is closest to it: no point of any reference line is closer to the normalised fitness than the reported
distance, some point of the line of its niche is at this distance, and the lines of earlier reference points are strictly further away. -/
theorem C101_nearest {sqrt : K → K} (hq : IsSqrt sqrt) {refs : List (Fin m → K)} (hne : refs ≠ []) (hr : ∀ r ∈ refs, ∃ j, r j ≠ 0) (v : Fin m → K) :
    ∃ r, refs[(nearest sqrt refs (some v)).1]? = some r ∧
      0 ≤ (nearest sqrt refs (some v)).2 ∧
      (∃ t, (nearest sqrt refs (some v)).2 * (nearest sqrt refs (some v)).2 = ∑ j, (v j - t * r j) * (v j - t * r j)) ∧
      (∀ r' ∈ refs, ∀ t, (nearest sqrt refs (some v)).2 * (nearest sqrt refs (some v)).2 ≤ ∑ j, (v j - t * r' j) * (v j - t * r' j)) ∧
      ∀ (q : ℕ) r', q < (nearest sqrt refs (some v)).1 → refs[q]? = some r' →
        ∀ t, (nearest sqrt refs (some v)).2 * (nearest sqrt refs (some v)).2 < ∑ j, (v j - t * r' j) * (v j - t * r' j) := by
  obtain ⟨q, hq'⟩ := argminFirst_isSome (d := fun q => perp sqrt (refs.getD q 0) v) (l := List.range refs.length) (by
    intro h0
    rw [List.range_eq_nil] at h0
    exact hne (List.length_eq_zero_iff.1 h0))
  obtain ⟨h1, h2⟩ := argminFirst_spec hq'
  have hf := argminFirst_first List.pairwise_lt_range hq'
  have hl := List.mem_range.1 h1
  have e : nearest sqrt refs (some v) = (q, perp sqrt (refs.getD q 0) v) := by
    unfold nearest
    simp only [hq']
  have hg : ∀ k (hk : k < refs.length), refs.getD k 0 = refs[k] := by
    intro k hk
    rw [List.getD_eq_getElem?_getD, List.getElem?_eq_getElem hk]
    rfl
  rw [e]
  have hmem : refs.getD q 0 ∈ refs := by rw [hg q hl]; exact List.getElem_mem _
  obtain ⟨a1, a2, a3⟩ := perp_spec hq (hr _ hmem) v
  refine ⟨refs.getD q 0, by rw [List.getElem?_eq_getElem hl, hg q hl], a1, a2, ?_, ?_⟩
  · intro r' hr' t
    obtain ⟨k, hk, rfl⟩ := List.mem_iff_getElem.1 hr'
    have hle := h2 k (List.mem_range.2 hk)
    simp only [hg k hk] at hle
    obtain ⟨b1, b2, b3⟩ := perp_spec hq (hr _ hr') v
    exact (mul_le_mul hle hle a1 b1).trans (b3 t)
  · intro k r' hk hr' t
    have hkl : k < refs.length := hk.trans hl
    rw [List.getElem?_eq_getElem hkl, Option.some.injEq] at hr'
    have hlt := hf k (List.mem_range.2 hkl) hk
    simp only [hg k hkl, hr'] at hlt
    obtain ⟨b1, b2, b3⟩ := perp_spec hq (hr r' (by rw [← hr']; exact List.getElem_mem _)) v
    exact lt_of_lt_of_le (mul_lt_mul'' hlt hlt a1 a1) (b3 t)

/-- **C101.** When the worst values are used, the association does not depend on the units of the objectives: `a j * f j + b j` with positive `a j` gives the same normalised values. -/
theorem C101_units {pop : List (Fin m → K)} (h : pop ≠ []) {a b : Fin m → K} (ha : ∀ j, 0 < a j) {f : Fin m → K} (hf : f ∈ pop) :
    let pop' := pop.map fun (g : Fin m → K) j => a j * g j + b j
    normalise (colMin pop') (colMax pop') (fun j => a j * f j + b j) = normalise (colMin pop) (colMax pop) f := by
  intro pop'
  have hne' : pop' ≠ [] := by simpa [pop'] using h
  have hmin : ∀ j, colMin pop' j = a j * colMin pop j + b j := by
    intro j
    obtain ⟨⟨g, hg, e⟩, h2⟩ := colMin_spec hne' j
    obtain ⟨⟨g0, hg0, e0⟩, h20⟩ := colMin_spec h j
    obtain ⟨g', hg', rfl⟩ := List.mem_map.1 hg
    apply le_antisymm
    · rw [← e0]; exact h2 _ (List.mem_map.2 ⟨g0, hg0, rfl⟩)
    · rw [← e]
      have := mul_le_mul_of_nonneg_left (h20 g' hg') (ha j).le
      simp only
      linarith
  have hmax : ∀ j, colMax pop' j = a j * colMax pop j + b j := by
    intro j
    obtain ⟨⟨g, hg, e⟩, h2⟩ := colMax_spec hne' j
    obtain ⟨⟨g0, hg0, e0⟩, h20⟩ := colMax_spec h j
    obtain ⟨g', hg', rfl⟩ := List.mem_map.1 hg
    apply le_antisymm
    · rw [← e]
      have := mul_le_mul_of_nonneg_left (h20 g' hg') (ha j).le
      simp only
      linarith
    · rw [← e0]; exact h2 _ (List.mem_map.2 ⟨g0, hg0, rfl⟩)
  have hiff : (∃ j, colMax pop' j = colMin pop' j) ↔ ∃ j, colMax pop j = colMin pop j := by
    refine exists_congr fun j => ?_
    rw [hmin, hmax]
    constructor
    · intro e
      exact mul_left_cancel₀ (ha j).ne' (add_right_cancel e)
    · intro e; rw [e]
  unfold normalise
  by_cases h0 : ∃ j, colMax pop j = colMin pop j
  · rw [if_pos h0, if_pos (hiff.2 h0)]
  · rw [if_neg h0, if_neg (fun h1 => h0 (hiff.1 h1))]
    congr 1
    funext j
    rw [hmin, hmax]
    have hd : colMax pop j - colMin pop j ≠ 0 := fun e => h0 ⟨j, sub_eq_zero.1 e⟩
    have e1 : a j * f j + b j - (a j * colMin pop j + b j) = a j * (f j - colMin pop j) := by ring
    have e2 : a j * colMax pop j + b j - (a j * colMin pop j + b j) = a j * (colMax pop j - colMin pop j) := by ring
    rw [e1, e2, mul_div_mul_left _ _ (ha j).ne']

/-- **C101 (defect).** The intercepts of the hyperplane are distances from the best point, but the best point is subtracted from them once more: the extreme points lie on the plane
through the unit points after dividing by the intercepts, and the code divides by something else unless the best value is 0. -/
theorem C101_shift {solve : (Fin m → Fin m → K) → Option (Fin m → K)} (hs : Solves solve) (ext : Fin m → Fin m → K) (best worst : Fin m → K)
    (hne : intercepts solve ext best worst ≠ worst) :
    (∀ i, ∑ j, (ext i j - best j) / intercepts solve ext best worst j = 1) ∧
    ∀ f v, normalise best (intercepts solve ext best worst) f = some v → ∀ j, f j ≠ best j →
      (v j = (f j - best j) / intercepts solve ext best worst j ↔ best j = 0) := by
  obtain ⟨x, h1, h2⟩ := (C101_intercepts hs ext best worst).2.resolve_left hne
  have hI : ∀ j, intercepts solve ext best worst j ≠ 0 := fun j h0 => by have := (h2 j).1; rw [h0, zero_mul] at this; exact zero_ne_one this
  have hx : ∀ j, x j = 1 / intercepts solve ext best worst j := fun j => by rw [eq_div_iff (hI j), mul_comm]; exact (h2 j).1
  constructor
  · intro i
    rw [← h1 i]
    refine Finset.sum_congr rfl fun j _ => ?_
    rw [hx j]; ring
  · intro f v hv j hfj
    unfold normalise at hv
    split_ifs at hv with h0
    push Not at h0
    simp only [Option.some.injEq] at hv
    subst hv
    have hd : intercepts solve ext best worst j - best j ≠ 0 := sub_ne_zero.2 (h0 j)
    have hf : f j - best j ≠ 0 := sub_ne_zero.2 hfj
    constructor
    · intro e
      simp only at e
      rw [div_eq_div_iff hd (hI j)] at e
      have := mul_left_cancel₀ hf e
      linarith
    · intro e
      simp only [e, sub_zero]

/-- **C101 (defect).** With the hyperplane, an objective whose best value exceeds its intercept has its normalised values turned round: they are at most 0, and the worse the objective
the smaller they are. -/
theorem C101_flipped {solve : (Fin m → Fin m → K) → Option (Fin m → K)} {pop : List (Fin m → K)} (h : pop ≠ []) {j : Fin m}
    (hj : popIntercepts solve pop j < colMin pop j) {f g v u : Fin m → K} (hf : f ∈ pop) (hg : g ∈ pop)
    (hv : normalise (colMin pop) (popIntercepts solve pop) f = some v) (hu : normalise (colMin pop) (popIntercepts solve pop) g = some u) :
    v j ≤ 0 ∧ (f j < g j → u j < v j) := by
  unfold normalise at hv hu
  split_ifs at hv hu with h0
  simp only [Option.some.injEq] at hv hu
  subst hv hu
  have hd : popIntercepts solve pop j - colMin pop j < 0 := sub_neg.2 hj
  refine ⟨div_nonpos_of_nonneg_of_nonpos (sub_nonneg.2 ((colMin_spec h j).2 f hf)) hd.le, fun hlt => ?_⟩
  simp only
  rw [div_lt_div_right_of_neg hd]
  linarith

/-- **C101 (defect).** If one objective has the same value for everybody, everybody is associated with reference point 0 and distances play no role. -/
theorem C101_constant {solve : (Fin m → Fin m → K) → Option (Fin m → K)} (hs : Solves solve) {sqrt : K → K} {refs : List (Fin m → K)} {vals : List (List K)} (hne : vals ≠ []) {j : Fin m}
    (hc : ∀ v ∈ vals, ∀ u ∈ vals, v.getD j 0 = u.getD j 0) (p : ℕ) : associate m solve sqrt refs vals p = (0, 0) := by
  unfold associate
  simp only
  set pop : List (Fin m → K) := vals.map fun v j => v.getD j 0 * -1 with hpop
  have hne' : pop ≠ [] := by simpa [hpop] using hne
  have heq : colMax pop j = colMin pop j := by
    obtain ⟨⟨f, hf, e1⟩, -⟩ := colMin_spec hne' j
    obtain ⟨⟨g, hg, e2⟩, -⟩ := colMax_spec hne' j
    obtain ⟨v, hv, rfl⟩ := List.mem_map.1 hf
    obtain ⟨u, hu, rfl⟩ := List.mem_map.1 hg
    rw [← e1, ← e2]
    simp only
    rw [hc u hu v hv]
  have hint : popIntercepts solve pop = colMax pop := by
    rcases (C101_intercepts hs (extreme pop (colMin pop)) (colMin pop) (colMax pop)).2 with h | ⟨x, -, h⟩
    · exact h
    · have h1 := (h j).2.1
      have h2 := (h j).2.2
      rw [heq] at h2
      have : (0 : K) < 1 / 1000000 := by norm_num
      linarith
  unfold nearest normalise
  rw [hint, if_pos ⟨j, heq⟩]

theorem associate_lt {solve : (Fin m → Fin m → K) → Option (Fin m → K)} {sqrt : K → K} {refs : List (Fin m → K)} (hne : refs ≠ []) (vals : List (List K)) (p : ℕ) :
    (associate m solve sqrt refs vals p).1 < refs.length := by
  have hpos : 0 < refs.length := List.length_pos_of_ne_nil hne
  unfold associate nearest
  simp only
  split
  · exact hpos
  · split
    · exact hpos
    · rename_i q hq
      exact List.mem_range.1 (argminFirst_spec hq).1

/-- **C101.** The association of individual `p` from end to end, with the objectives `f i j = -vals[i][j]` that are minimised: there are `lo j`, the least value of objective `j`, and `intr j`, either the
greatest value or the distance from `lo` at which a hyperplane through individuals of the population meets axis `j`, such that the individual is associated with the first reference line nearest to
`(f p j - lo j) / (intr j - lo j)`. -/
theorem C101_associate {solve : (Fin m → Fin m → K) → Option (Fin m → K)} (hs : Solves solve) {sqrt : K → K} (hq : IsSqrt sqrt) {refs : List (Fin m → K)} (hne : refs ≠ [])
    (hr : ∀ r ∈ refs, ∃ j, r j ≠ 0) {vals : List (List K)} {p : ℕ} {w : List K} (hp : vals[p]? = some w) :
    ∃ lo intr : Fin m → K,
      (∀ j : Fin m, (∃ u ∈ vals, -u.getD j 0 = lo j) ∧ ∀ u ∈ vals, lo j ≤ -u.getD j 0) ∧
      ((∀ j : Fin m, (∃ u ∈ vals, -u.getD j 0 = intr j) ∧ ∀ u ∈ vals, -u.getD j 0 ≤ intr j) ∨
        ∃ x : Fin m → K, (∀ j, intr j * x j = 1 ∧ 0 < intr j) ∧ ∀ i : Fin m, ∃ u ∈ vals, ∑ j : Fin m, (-u.getD j 0 - lo j) * x j = 1) ∧
      ((∃ j, intr j = lo j) → associate m solve sqrt refs vals p = (0, 0)) ∧
      ((∀ j, intr j ≠ lo j) → ∃ r, refs[(associate m solve sqrt refs vals p).1]? = some r ∧ 0 ≤ (associate m solve sqrt refs vals p).2 ∧
        (∃ t, (associate m solve sqrt refs vals p).2 * (associate m solve sqrt refs vals p).2 = ∑ j : Fin m, ((-w.getD j 0 - lo j) / (intr j - lo j) - t * r j) * ((-w.getD j 0 - lo j) / (intr j - lo j) - t * r j)) ∧
        (∀ r' ∈ refs, ∀ t, (associate m solve sqrt refs vals p).2 * (associate m solve sqrt refs vals p).2 ≤
          ∑ j : Fin m, ((-w.getD j 0 - lo j) / (intr j - lo j) - t * r' j) * ((-w.getD j 0 - lo j) / (intr j - lo j) - t * r' j)) ∧
        ∀ (q : ℕ) r', q < (associate m solve sqrt refs vals p).1 → refs[q]? = some r' → ∀ t,
          (associate m solve sqrt refs vals p).2 * (associate m solve sqrt refs vals p).2 <
            ∑ j : Fin m, ((-w.getD j 0 - lo j) / (intr j - lo j) - t * r' j) * ((-w.getD j 0 - lo j) / (intr j - lo j) - t * r' j)) := by
  have hvn : vals ≠ [] := by rintro rfl; simp at hp
  set pop : List (Fin m → K) := vals.map fun v j => v.getD j 0 * -1 with hpop
  have hne' : pop ≠ [] := by simpa [hpop] using hvn
  have hpp : pop.getD p 0 = fun j : Fin m => -w.getD j 0 := by
    rw [List.getD_eq_getElem?_getD, hpop, List.getElem?_map, hp]
    funext j
    simp
  have hmem : ∀ f ∈ pop, ∃ u ∈ vals, ∀ j : Fin m, f j = -u.getD j 0 := by
    intro f hf
    obtain ⟨u, hu, rfl⟩ := List.mem_map.1 hf
    exact ⟨u, hu, fun j => by simp⟩
  have hmem' : ∀ u ∈ vals, (fun j : Fin m => u.getD j 0 * -1) ∈ pop := fun u hu => List.mem_map.2 ⟨u, hu, rfl⟩
  have e : associate m solve sqrt refs vals p = nearest sqrt refs (normalise (colMin pop) (popIntercepts solve pop) (pop.getD p 0)) := rfl
  refine ⟨colMin pop, popIntercepts solve pop, fun j => ?_, ?_, ?_, ?_⟩
  · obtain ⟨⟨f, hf, e1⟩, h2⟩ := colMin_spec hne' j
    obtain ⟨u, hu, e2⟩ := hmem f hf
    refine ⟨⟨u, hu, by rw [← e2, e1]⟩, fun u hu => ?_⟩
    have := h2 _ (hmem' u hu)
    simpa using this
  · rcases (C101_intercepts hs (extreme pop (colMin pop)) (colMin pop) (colMax pop)).2 with h | ⟨x, h1, h2⟩
    · left
      intro j
      have h' : popIntercepts solve pop = colMax pop := h
      rw [h']
      obtain ⟨⟨f, hf, e1⟩, h2⟩ := colMax_spec hne' j
      obtain ⟨u, hu, e2⟩ := hmem f hf
      refine ⟨⟨u, hu, by rw [← e2, e1]⟩, fun u hu => ?_⟩
      have := h2 _ (hmem' u hu)
      simpa using this
    · right
      refine ⟨x, fun j => ⟨(h2 j).1, lt_trans (by norm_num) (h2 j).2.1⟩, fun i => ?_⟩
      obtain ⟨u, hu, e2⟩ := hmem _ (C101_extreme hne' i).1
      refine ⟨u, hu, ?_⟩
      rw [← h1 i]
      exact Finset.sum_congr rfl fun j _ => by rw [e2 j]
  · intro h0
    rw [e]
    unfold normalise
    rw [if_pos h0]
    rfl
  · intro h0
    have hnorm : normalise (colMin pop) (popIntercepts solve pop) (pop.getD p 0) = some fun j : Fin m => (-w.getD j 0 - colMin pop j) / (popIntercepts solve pop j - colMin pop j) := by
      unfold normalise
      rw [if_neg (by push Not; exact h0), hpp]
    rw [e, hnorm]
    exact C101_nearest hq hne hr _

/-- **C101.** The selection of NSGA-III with this association: exactly `k` different individuals, whole fronts first, nobody kept is dominated by somebody dropped, and
the last front is filled by the greedy niche-preserving choice for these niches and distances. -/
theorem C101_select {log : Bool} {solve : (Fin m → Fin m → K) → Option (Fin m → K)} {sqrt : K → K} {refs : List (Fin m → K)} (hr : refs ≠ []) {shN shI : ℕ → List ℕ → List ℕ}
    (hN : ∀ a l, (shN a l).Perm l) (hI : ∀ a l, (shI a l).Perm l) {vals : List (List K)} (hv : ∀ v ∈ vals, v.length = m)
    (hlog : log = true → 2 ≤ m) (hne : vals ≠ []) {k : ℕ} (hk : k ≠ 0) (hkn : k ≤ vals.length) :
    ∃ (out : List ℕ) (init : List (List ℕ)) (last sel : List ℕ), selectIII log refs.length (associate m solve sqrt refs) shN shI vals k = .ok out ∧
      SelectSpec vals k out ∧ out.length = k ∧ (∀ i ∈ out, ∀ j < vals.length, Dominates (val vals j) (val vals i) → j ∈ out) ∧
      FrontsSpec vals k (init ++ [last]) ∧ out = init.flatten ++ sel.map (fun p => last.getD p 0) ∧
      Greedy last.length (fun p => (associate m solve sqrt refs ((init ++ [last]).flatten.map (val vals)) (init.flatten.length + p)).1)
        (fun p => (associate m solve sqrt refs ((init ++ [last]).flatten.map (val vals)) (init.flatten.length + p)).2)
        (fun q => ((List.range init.flatten.length).map fun p => (associate m solve sqrt refs ((init ++ [last]).flatten.map (val vals)) p).1).count q) sel := by
  have hR : ∀ v p, (associate m solve sqrt refs v p).1 < refs.length := fun v p => associate_lt hr v p
  obtain ⟨out, h1, h2, h3⟩ := C33_select hR hN hI hv hlog hne hk hkn
  obtain ⟨init, last, sel, g1, g2, g3⟩ := C33_niche_choice hR hN hI hv hlog hne hk hkn h1
  exact ⟨out, init, last, sel, h1, h2, h3, C33_elitist hR hN hI hv hlog hne hk hkn h1, g1, g2, g3⟩

end

/-! ### Concrete cases -/

/-- The square root of the reals meets `IsSqrt`. -/
example : IsSqrt Real.sqrt := fun a ha => ⟨Real.sqrt_nonneg a, Real.mul_self_sqrt ha⟩

/-- Cramer's rule for two objectives. -/
def cramer (A : Fin 2 → Fin 2 → ℚ) : Option (Fin 2 → ℚ) :=
  let d := A 0 0 * A 1 1 - A 0 1 * A 1 0
  if d = 0 then none else some ![(A 1 1 - A 0 1) / d, (A 0 0 - A 1 0) / d]

theorem cramer_solves : Solves cramer := by
  intro A x h i
  unfold cramer at h
  simp only at h
  split_ifs at h with h0
  simp only [Option.some.injEq] at h
  subst h
  rw [Fin.sum_univ_two]
  fin_cases i
  · show A 0 0 * ((A 1 1 - A 0 1) / _) + A 0 1 * ((A 0 0 - A 1 0) / _) = 1
    rw [← mul_div_assoc, ← mul_div_assoc, ← add_div, div_eq_one_iff_eq h0]
    ring
  · show A 1 0 * ((A 1 1 - A 0 1) / _) + A 1 1 * ((A 0 0 - A 1 0) / _) = 1
    rw [← mul_div_assoc, ← mul_div_assoc, ← add_div, div_eq_one_iff_eq h0]
    ring

/-- The square root on squares of rationals. -/
def qsqrt (a : ℚ) : ℚ := (Nat.sqrt a.num.natAbs : ℚ) / Nat.sqrt a.den

/-- The two corner points of `uniform_reference_points(nobj=2, p=1)`. -/
def corners : List (Fin 2 → ℚ) := [![1, 0], ![0, 1]]

/-- Fitness values as stored (the negated objectives). -/
def sample (a b : ℚ) : List (List ℚ) := [(0, 8), (1, 3), (4, 1), (8, 0)].map fun (q : ℚ × ℚ) => [-(q.1 + a), -(q.2 + b)]

/-- With best values 0 the hyperplane is used, its intercepts are 8 and 8, and the four individuals go to the corner they are near to. -/
example : List.ofFn (popIntercepts cramer ((sample 0 0).map fun v (j : Fin 2) => v.getD j 0 * -1)) = [8, 8] ∧
    (List.range 4).map (associate 2 cramer qsqrt corners (sample 0 0)) = [(1, 0), (1, 1 / 8), (0, 1 / 8), (0, 0)] := by decide +kernel

/-- The same four individuals with objective 1 raised by 20, i.e. `(20, 8), (21, 3), (24, 1), (28, 0)`: now the intercept 8 is below the best value 20, the normalised first objective is negative and the distances differ. -/
example : (List.range 4).map (associate 2 cramer qsqrt corners (sample 20 0)) = [(1, 0), (1, 1 / 12), (0, 1 / 8), (0, 0)] := by decide +kernel

/-- **C101 (defect).** Adding a constant to an objective can change the niches: raised by 7 the denominators are 1 and 8, and the individual `(1, 3)` moves from the second reference point to the first. -/
theorem C101_translated : (associate 2 cramer qsqrt corners (sample 0 0) 1).1 = 1 ∧ (associate 2 cramer qsqrt corners (sample 7 0) 1).1 = 0 := by decide +kernel

example : (List.range 4).map (associate 2 cramer qsqrt corners (sample 7 0)) = [(1, 0), (0, 3 / 8), (0, 1 / 8), (0, 0)] := by decide +kernel

/-- Raised by 8 the denominator is 0 and everybody is associated with the first reference point. -/
example : (List.range 4).map (associate 2 cramer qsqrt corners (sample 8 0)) = [(0, 0), (0, 0), (0, 0), (0, 0)] := by decide +kernel

/-- A constant objective. -/
example : (List.range 3).map (associate 2 cramer qsqrt corners [[-1, -5], [-2, -5], [-9, -5]]) = [(0, 0), (0, 0), (0, 0)] := by decide +kernel

/-- A population whose extreme points coincide uses the worst values. -/
example : List.ofFn (popIntercepts cramer ([(0, 0), (3, 2), (1, 5)].map fun (q : ℚ × ℚ) (j : Fin 2) => if j = 0 then q.1 else q.2)) = [3, 5] := by decide +kernel

/-- `C101_select` on a concrete population. -/
example : ∃ out, selectIII true corners.length (associate 2 cramer qsqrt corners) (fun _ l => l) (fun _ l => l.reverse) (sample 0 0) 2 = .ok out ∧ out.length = 2 := by
  obtain ⟨out, _, _, _, h1, _, h2, _⟩ := C101_select (log := true) (solve := cramer) (sqrt := qsqrt) (refs := corners) (shN := fun _ l => l) (shI := fun _ l => l.reverse)
    (by simp [corners]) (fun _ l => .refl _) (fun _ l => l.reverse_perm) (vals := sample 0 0) (by decide +kernel) (by decide) (by decide +kernel) (k := 2) (by decide) (by decide +kernel)
  exact ⟨out, h1, h2⟩

end Neorl.ND

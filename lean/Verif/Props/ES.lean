import Verif.ES

/-!
# Property theorems C10-C14: evolution strategies
-/

set_option linter.unusedSectionVars false
set_option linter.unusedVariables false

namespace Neorl.ES

section
variable {K : Type} [Field K] [LinearOrder K] [IsStrictOrderedRing K] [FloorRing K]

/-- **C10.** Survivor selection returns `min k n` individuals in non-increasing fitness order; together with the discarded ones they are the
population; no discarded individual is strictly better than a kept one; among equal fitness the earlier ones are kept, in order. -/
theorem C10_select (k : ℕ) (pop : List (Ind K)) :
    (select k pop).length = min k pop.length ∧
    (select k pop).Pairwise (fun a b => b.fit ≤ a.fit) ∧
    (∃ rest, (select k pop ++ rest).Perm pop ∧ ∀ a ∈ select k pop, ∀ b ∈ rest, b.fit ≤ a.fit) ∧
    ∀ v : K, (select k pop).filter (fun e => decide (e.fit = v)) <+: pop.filter (fun e => decide (e.fit = v)) := by
  refine ⟨by simp [select], (sortDesc_sorted _ _).sublist (List.take_sublist _ _), ⟨(sortDesc (fun e : Ind K => e.fit) pop).drop k, ?_, ?_⟩, ?_⟩
  · unfold select
    rw [List.take_append_drop]
    exact sortDesc_perm _ _
  · intro a ha b hb
    exact sortDesc_take_drop (fun e : Ind K => e.fit) pop k ha hb
  · intro v
    rw [← sortDesc_stable (fun e : Ind K => e.fit) pop v]
    exact (List.take_prefix k _).filter _

example : (select 2 ([⟨[1], [], 3⟩, ⟨[2], [], 5⟩, ⟨[3], [], 5⟩] : List (Ind ℚ))).map (fun e => e.ind) = [[2], [3]] := by decide +kernel

/-- **C11.** Two-point crossover exchanges exactly the positions `p ≤ i < q`, with `1 ≤ p < q ≤ size`, in individuals and strategies alike:
lengths are kept, position 0 is never exchanged, at least one position is. -/
theorem C11_two_point {a b : ℕ} {i1 i2 s1 s2 : List K} (h1 : i1.length = i2.length) (h2 : s1.length = s2.length) (h3 : i1.length = s1.length)
    {r : (List K × List K) × (List K × List K)} (h : cx2point a b i1 i2 s1 s2 = .ok r) :
    r.1.1.length = i1.length ∧ r.1.2.length = i1.length ∧ r.2.1.length = i1.length ∧ r.2.2.length = i1.length ∧
    ∃ p q, 1 ≤ p ∧ p < q ∧ q ≤ i1.length ∧ ∀ i : ℕ,
      (p ≤ i ∧ i < q → r.1.1[i]? = i2[i]? ∧ r.1.2[i]? = i1[i]? ∧ r.2.1[i]? = s2[i]? ∧ r.2.2[i]? = s1[i]?) ∧
      (¬(p ≤ i ∧ i < q) → r.1.1[i]? = i1[i]? ∧ r.1.2[i]? = i2[i]? ∧ r.2.1[i]? = s1[i]? ∧ r.2.2[i]? = s2[i]?) := by
  unfold cx2point at h
  split at h
  · cases h
  rename_i p q hpq
  cases h
  obtain ⟨e1, e2, e3⟩ := cxPoints_ok hpq
  rw [← h1, min_self] at e3
  refine ⟨length_slice h1 e2.le e3, ?_, ?_, ?_, p, q, e1, e2, e3, ?_⟩
  · rw [length_slice h1.symm e2.le (by omega), h1]
  · rw [length_slice h2 e2.le (by omega), h3]
  · rw [length_slice h2.symm e2.le (by omega)]; omega
  · intro i
    simp only [slice_getElem? h1 e2.le e3, slice_getElem? h1.symm e2.le (by omega : q ≤ i2.length),
      slice_getElem? h2 e2.le (by omega : q ≤ s1.length), slice_getElem? h2.symm e2.le (by omega : q ≤ s2.length)]
    refine ⟨fun hc => ?_, fun hc => ?_⟩
    · simp only [if_pos hc]; exact ⟨trivial, trivial, trivial, trivial⟩
    · simp only [if_neg hc]; exact ⟨trivial, trivial, trivial, trivial⟩

/-- **C11.** Every exchange interval `1 ≤ p < q ≤ size` can be drawn, and the operator returns exactly when there are at least two
variables. -/
theorem C11_points (size : ℕ) : ((∃ a b r, cxPoints size a b = .ok r) ↔ 2 ≤ size) ∧
    (∀ a b, size ≤ 1 → cxPoints size a b = .error .valueError) ∧
    ∀ p q, 1 ≤ p → p < q → q ≤ size → ∃ a b, cxPoints size a b = .ok (p, q) := by
  refine ⟨⟨?_, ?_⟩, ?_, ?_⟩
  · rintro ⟨a, b, ⟨p, q⟩, h⟩
    have := cxPoints_ok h
    omega
  · intro h
    refine ⟨0, 0, ?_⟩
    unfold cxPoints
    rw [if_neg (by omega)]
    exact ⟨_, rfl⟩
  · intro a b h
    unfold cxPoints
    rw [if_pos h]
  · intro p q h1 h2 h3
    refine ⟨p - 1, q - 2, ?_⟩
    unfold cxPoints
    rw [if_neg (by omega)]
    simp only
    rw [Nat.mod_eq_of_lt (by omega : p - 1 < size), Nat.mod_eq_of_lt (by omega : q - 2 < size - 1), if_pos (by omega)]
    congr 2 <;> omega

example : cx2point 0 1 ([1, 2, 3] : List ℚ) [4, 5, 6] [7, 8, 9] [10, 11, 12] =
    .ok (([1, 5, 6], [4, 2, 3]), ([7, 11, 12], [10, 8, 9])) := by
  have h : cxPoints 3 0 1 = .ok (1, 3) := by rfl
  simp [cx2point, h, slice]

/-- **C12.** Blend crossover keeps the sum of the parents at each position, for every `alpha` and every draw. -/
theorem C12_sum (alpha : K) (u v : ℕ → K) {i1 i2 s1 s2 : List K} (hi : i1.length = i2.length) (hs : s1.length = s2.length) :
    let r := cxBlend alpha u v i1 i2 s1 s2
    List.zipWith (· + ·) r.1.1 r.1.2 = List.zipWith (· + ·) i1 i2 ∧ List.zipWith (· + ·) r.2.1 r.2.2 = List.zipWith (· + ·) s1 s2 := by
  have key : ∀ (w : ℕ → K) (x y : List K), x.length = y.length →
      List.zipWith (· + ·) (blendV alpha w x y).1 (blendV alpha w x y).2 = List.zipWith (· + ·) x y := by
    intro w x y h
    apply List.ext_getElem?
    intro i
    simp only [blendV, List.getElem?_zipWith, List.getElem?_map, List.getElem?_mapIdx]
    cases hx : x[i]? with
    | none => simp [List.getElem?_eq_none_iff.1 hx]
    | some a =>
      have : i < y.length := by have := (List.getElem?_eq_some_iff.1 hx).1; omega
      rw [List.getElem?_eq_getElem this]
      rw [(List.getElem?_zip_eq_some (z := (a, y[i]))).2 ⟨hx, List.getElem?_eq_getElem this⟩]
      simp only [Option.map_some, blend1]
      congr 1
      ring
  exact ⟨key u i1 i2 hi, key v s1 s2 hs⟩

/-- **C12.** Each pair of children is symmetric around the parents, at distance at most `(1 + 2 alpha)` times that of the parents; with
`alpha = 0` the children lie between the parents. -/
theorem C12_range {alpha u x1 x2 : K} (ha : 0 ≤ alpha) (hu : 0 ≤ u ∧ u ≤ 1) :
    let r := blend1 alpha u x1 x2
    |r.1 - r.2| ≤ (1 + 2 * alpha) * |x1 - x2| ∧
    (min x1 x2 - alpha * |x1 - x2| ≤ r.1 ∧ r.1 ≤ max x1 x2 + alpha * |x1 - x2|) ∧
    (min x1 x2 - alpha * |x1 - x2| ≤ r.2 ∧ r.2 ≤ max x1 x2 + alpha * |x1 - x2|) := by
  simp only [blend1]
  set g := (1 + 2 * alpha) * u - alpha with hg
  have h1 : -alpha ≤ g := by nlinarith [hu.1]
  have h2 : g ≤ 1 + alpha := by nlinarith [hu.2]
  refine ⟨?_, ?_, ?_⟩
  · rw [show (1 - g) * x1 + g * x2 - (g * x1 + (1 - g) * x2) = (1 - 2 * g) * (x1 - x2) by ring, abs_mul]
    exact mul_le_mul_of_nonneg_right (abs_le.2 ⟨by linarith, by linarith⟩) (abs_nonneg _)
  · rcases le_total x1 x2 with h | h
    · rw [min_eq_left h, max_eq_right h, abs_of_nonpos (by linarith)]
      constructor <;> nlinarith
    · rw [min_eq_right h, max_eq_left h, abs_of_nonneg (by linarith)]
      constructor <;> nlinarith
  · rcases le_total x1 x2 with h | h
    · rw [min_eq_left h, max_eq_right h, abs_of_nonpos (by linarith)]
      constructor <;> nlinarith
    · rw [min_eq_right h, max_eq_left h, abs_of_nonneg (by linarith)]
      constructor <;> nlinarith

example : cxBlend (1 / 2 : ℚ) (fun _ => 1) (fun _ => 1 / 4) [1, 2] [3, 6] [1, 1] [0, 0] = (([4, 8], [0, 0]), ([1, 1], [0, 0])) := by
  norm_num [cxBlend, blendV, blend1]

/-- **C13.** Mutation: the new individual is feasible for every parent of the right length, the new strategy lies in `[smin, smax]`. -/
theorem C13_mutation {S : Space K} (hS : S.OK) {smin smax : K} (hs : smin ≤ smax) {d : MutDraw K} {ind strat ind' strat' : List K}
    (hl : ind.length = S.bounds.length) (hls : strat.length = S.bounds.length) (h : mutES S smin smax d ind strat = .ok (ind', strat')) :
    S.Feasible ind' ∧ strat'.length = S.bounds.length ∧ ∀ v ∈ strat', smin ≤ v ∧ v ≤ smax :=
  mutES_ok hS hs hl hls h

/-- **C13.** A mutated int variable really changes its value (when its range has at least two values). -/
theorem C13_int_changes {S : Space K} {smin smax : K} {d : MutDraw K} {i : ℕ} {x s : K} {b : K × K} {y : K × K}
    (ht : S.types[i]? = some .int) (hb : S.bounds[i]? = some b) (hne : truncZ b.1 ≠ truncZ b.2)
    (h : mutCoord S smin smax d i (x, s) = .ok y) :
    (d.t i < y.2 → y.1 ≠ ((truncZ x : ℤ) : K)) ∧ (¬ d.t i < y.2 → y.1 = ((truncZ x : ℤ) : K)) := by
  simp only [mutCoord, ht, hb] at h
  split_ifs at h with h1
  · split at h
    · cases h
    · rename_i z hz
      cases h
      have := (flipChoice_ok hz).2.2.2.2
      exact ⟨fun _ hcon => this (Int.cast_injective (α := K) hcon), fun hcon => absurd h1 hcon⟩
  · cases h
    exact ⟨fun hcon => absurd hcon h1, fun _ => rfl⟩

/-- **C13.** Through a whole run, with or without RL vectors mixed in: every evaluated offspring is feasible, whatever the initial individuals
and RL vectors are; with `clip` (the default) or two-point crossover every strategy entry of the population stays in `[smin, smax]`. -/
theorem C13_run {c : Conf K} (hS : c.S.OK) (hs : c.smin ≤ c.smax) (hmu : c.mu ≤ c.lam) {fit : List K → K} {dr : ℕ → ℕ → Draw K}
    {rl : ℕ → List (List K)} (hrl : ∀ g, ∀ v ∈ rl g, v.length = c.S.bounds.length) {pop0 : List (List K × List K)}
    (h0 : ∀ p ∈ pop0, p.1.length = c.S.bounds.length ∧ p.2.length = c.S.bounds.length ∧ ∀ v ∈ p.2, c.smin ≤ v ∧ v ≤ c.smax) {g : ℕ} {s : State K}
    (h : run c fit dr rl pop0 g = .ok s) :
    (∀ x ∈ s.log, c.S.Feasible x) ∧ (c.clip = true ∨ c.blend = false → ∀ p ∈ s.pop, ∀ v ∈ p.strat, c.smin ≤ v ∧ v ≤ c.smax) ∧
    (∀ p ∈ s.pop, p.strat.length = c.S.bounds.length) ∧ (g ≠ 0 → s.pop.length = c.mu) :=
  let hi := (run_inv hS hs hmu hrl h0 h).1
  ⟨hi.feas, hi.strat, fun p hp => (hi.lens p hp).2, hi.npop⟩

/-- **C14.** Outside RL mode (or with fewer RL vectors than survivors): the returned pair is the best of all offspring evaluated, with its own
fitness; `lambda * ngen` offspring evaluations; exact histories; the returned last population is the last offspring with its own fitness. -/
theorem C14_evolute {c : Conf K} (hS : c.S.OK) (hs : c.smin ≤ c.smax) {m : Bool} {userFit : List K → K} {dr : ℕ → ℕ → Draw K}
    {rl : ℕ → List (List K)} (hrl : ∀ g, ∀ v ∈ rl g, v.length = c.S.bounds.length) (hrlm : ∀ g, (rl g).length < c.mu)
    {pop0 : List (List K × List K)}
    (h0 : ∀ p ∈ pop0, p.1.length = c.S.bounds.length ∧ p.2.length = c.S.bounds.length ∧ ∀ v ∈ p.2, c.smin ≤ v ∧ v ≤ c.smax)
    {r : Result K} (h : evolute c m userFit dr rl pop0 = .ok r) :
    IsBest m userFit r.log r.x r.y ∧ c.S.Feasible r.x ∧ r.log.length = c.lam * c.ngen ∧ (∀ x ∈ r.log, c.S.Feasible x) ∧
    BlockBest m userFit 0 c.lam r.log r.locals ∧ r.locals.length = c.ngen ∧
    HistBest m userFit 0 c.lam r.log r.global ∧ r.global.Pairwise (NotWorse m) ∧ r.global.getLast? = some r.y ∧
    r.lastPop = (r.log.drop ((c.ngen - 1) * c.lam)).map (fun x => (x, userFit x)) := by
  unfold evolute at h
  split_ifs at h with hass
  have hmu : c.mu ≤ c.lam := by
    by_contra hcon; exact hass (Or.inl hcon)
  split at h
  · cases h
  rename_i s hs'
  obtain ⟨hi, hb⟩ := run_inv hS hs hmu hrl h0 hs'
  split at h
  · cases h
  rename_i b hbs
  cases h
  have hb := hb hrlm b hbs
  have hg : c.ngen ≠ 0 := by
    intro hz
    rw [hz] at hs'
    cases hs'
    cases hbs
  have hblk := hi.scores.flip
  have hhist := hblk.histBest (by rw [hi.len, List.length_map, hi.nscores])
  refine ⟨hb.flip, hi.feas _ hb.1, ?_, hi.feas, hblk, by simp [hi.nscores], hhist, hhist.pairwise, ?_, ?_⟩
  · show s.log.length = _
    rw [hi.len]; ring
  · -- the last entry is the best of everything, as is the returned fitness
    show (acc m (s.scores.map (sgn (!m)))).getLast? = some (sgn (!m) b.2)
    have hl : (acc m (s.scores.map (sgn (!m)))).length = c.ngen := by rw [length_acc, List.length_map, hi.nscores]
    rw [List.getLast?_eq_getElem?, hl]
    have hk : c.ngen - 1 < (acc m (s.scores.map (sgn (!m)))).length := by omega
    rw [List.getElem?_eq_getElem hk]
    have h1 := hhist.2 (c.ngen - 1) _ (List.getElem?_eq_getElem hk)
    rw [List.take_of_length_le (by rw [hi.len]; rw [show c.ngen - 1 + 1 = c.ngen by omega]; omega)] at h1
    have hbf := hb.flip
    exact congrArg some (h1.unique ⟨⟨_, hbf.1, hbf.2.1.symm⟩, hbf.2.2⟩)
  · simp only [hi.last hg, List.map_map]
    exact List.map_congr_left (fun x _ => by simp)

/-- Rows indexed by position. -/
theorem mapRows_total_idx {X Y : Type} {f : ℕ → X → Py Y} {xs : List X} : ∀ {i : ℕ},
    (∀ (k : ℕ) x, xs[k]? = some x → ∃ y, f (i + k) x = .ok y) → ∃ ys, mapRows f i xs = .ok ys := by
  induction xs with
  | nil => intro i _; exact ⟨[], rfl⟩
  | cons x xs ih =>
    intro i hf
    obtain ⟨y, hy⟩ := hf 0 x rfl
    obtain ⟨ys, hys⟩ := ih (i := i + 1) (fun k z hz => by
      obtain ⟨w, hw⟩ := hf (k + 1) z (by simpa using hz)
      exact ⟨w, by rw [show i + 1 + k = i + (k + 1) by ring]; exact hw⟩)
    exact ⟨y :: ys, by simp [mapRows, show f i x = .ok y from hy, hys]⟩

/-- Draws of `random.choice(choices)` in range: the choices are the other values of the variable. -/
def PickOK (S : Space K) (d : MutDraw K) : Prop :=
  ∀ (i : ℕ) (b : K × K), S.types[i]? = some VType.int → S.bounds[i]? = some b → truncZ b.1 ≠ truncZ b.2 →
    (d.pick i : ℤ) < truncZ b.2 - truncZ b.1

theorem mutES_total {S : Space K} (hS : S.OK) {smin smax : K} {d : MutDraw K} (hd : PickOK S d) {ind strat : List K}
    (hl : ind.length = S.bounds.length) : ∃ r, mutES S smin smax d ind strat = .ok r := by
  obtain ⟨l, hm⟩ : ∃ l, mapRows (mutCoord S smin smax d) 0 (List.zip (S.clip ind) strat) = .ok l := by
    refine mapRows_total_idx fun i xs hx => ?_
    obtain ⟨x, st⟩ := xs
    obtain ⟨hx1, hx2⟩ := List.getElem?_zip_eq_some.1 hx
    have hbox := S.clip_inBox hS hl
    have hi : i < S.bounds.length := by
      have := (List.getElem?_eq_some_iff.1 hx1).1
      rw [hbox.length_eq] at this
      exact this
    have hb := List.getElem?_eq_getElem hi
    have hit : i < S.types.length := by rw [hS.ntypes]; exact hi
    have ht := List.getElem?_eq_getElem hit
    have hxb := inBox_getElem? hbox hx1 hb
    rw [Nat.zero_add]
    unfold mutCoord
    rcases (by cases S.types[i] <;> simp : S.types[i] = VType.int ∨ S.types[i] = VType.float) with e | e
    · rw [e] at ht
      simp only [ht, hb]
      split_ifs with h1 h2
      · exact ⟨_, rfl⟩
      · obtain ⟨z, hz⟩ := flipChoice_total (truncZ_mono hxb.1) (truncZ_mono hxb.2) (hd i _ ht hb h2)
        simp only [hz]
        exact ⟨_, rfl⟩
      · exact ⟨_, rfl⟩
    · rw [e] at ht
      simp only [ht, hb]
      exact ⟨_, rfl⟩
  exact ⟨_, by unfold mutES; rw [hm]⟩

theorem genOne_total {c : Conf K} (hS : c.S.OK) {d : Draw K} (hd : PickOK c.S d.md)
    (hcx : c.blend = true ∨ 2 ≤ c.S.bounds.length) {pop : List (Ind K)} (hl : LenOK c pop) (hn : 2 ≤ pop.length) :
    ∃ r, genOne c d pop = .ok r ∧ r.2.length = pop.length := by
  unfold genOne
  have hk : ∀ a, a % pop.length < pop.length := fun a => Nat.mod_lt _ (by omega)
  simp only
  by_cases h1 : d.rn < c.cxpb
  · rw [if_pos h1, if_neg (by omega)]
    rw [List.getElem?_eq_getElem (hk d.i1), List.getElem?_eq_getElem (hk _)]
    dsimp only
    by_cases hb : c.blend = true
    · rw [if_pos hb]; exact ⟨_, rfl, rfl⟩
    · rw [if_neg hb]
      have h2 := hcx.resolve_left hb
      unfold cx2point cxPoints
      rw [(hl _ (List.getElem_mem (hk d.i1))).1, (hl _ (List.getElem_mem (hk _))).1, min_self, if_neg (by omega)]
      exact ⟨_, rfl, rfl⟩
  · rw [if_neg h1]
    by_cases h2 : d.rn < c.cxpb + c.mutpb
    · rw [if_pos h2, if_neg (by omega), List.getElem?_eq_getElem (hk d.i1)]
      obtain ⟨r, hr⟩ := mutES_total (smin := c.smin) (smax := c.smax) hS hd (strat := (pop[d.i1 % pop.length]'(hk _)).strat) (hl _ (List.getElem_mem (hk d.i1))).1
      dsimp only
      rw [hr]
      exact ⟨_, rfl, rfl⟩
    · rw [if_neg h2, if_neg (by omega), List.getElem?_eq_getElem (hk d.i1)]
      exact ⟨_, rfl, by simp⟩

theorem genLoop_total {c : Conf K} (hS : c.S.OK) (hs : c.smin ≤ c.smax) {dr : ℕ → Draw K} (hd : ∀ i, PickOK c.S (dr i).md)
    (hcx : c.blend = true ∨ 2 ≤ c.S.bounds.length) (k : ℕ) :
    ∀ (i : ℕ) (pop : List (Ind K)), LenOK c pop → 2 ≤ pop.length → ∃ os, genLoop c dr i k pop = .ok os := by
  induction k with
  | zero => intro i pop _ _; exact ⟨[], rfl⟩
  | succ k ih =>
    intro i pop hl hn
    obtain ⟨⟨o, pop'⟩, hr, hlen⟩ := genOne_total hS (hd i) hcx hl hn
    obtain ⟨os, hos⟩ := ih (i + 1) pop' (genOne_ok hS hs hl hr).2.2.1 (by
      have : pop'.length = pop.length := hlen
      omega)
    exact ⟨o :: os, by simp only [genLoop, hr, hos]⟩

theorem firstMax_total {l : List (Ind K)} (h : l ≠ []) : ∃ b, firstMax l = some b := by
  cases l with
  | nil => exact absurd rfl h
  | cons e es =>
    simp only [firstMax]
    split
    · exact ⟨_, rfl⟩
    · split_ifs <;> exact ⟨_, rfl⟩

/-- **C14.** With at least two survivors (and two variables for two-point crossover), at most `mu` RL vectors per generation and at least one
generation, ES never raises. -/
theorem C14_total {c : Conf K} (hS : c.S.OK) (hs : c.smin ≤ c.smax) (hmu : c.mu ≤ c.lam) (hmu2 : 2 ≤ c.mu) (hpb : c.cxpb + c.mutpb ≤ 1)
    (hg : 1 ≤ c.ngen) (hcx : c.blend = true ∨ 2 ≤ c.S.bounds.length)
    {m : Bool} {userFit : List K → K} {dr : ℕ → ℕ → Draw K} (hd : ∀ g i, PickOK c.S (dr g i).md)
    {rl : ℕ → List (List K)} (hrl : ∀ g, ∀ v ∈ rl g, v.length = c.S.bounds.length) (hrlm : ∀ g, (rl g).length ≤ c.mu)
    {pop0 : List (List K × List K)} (hn : pop0.length = c.lam)
    (h0 : ∀ p ∈ pop0, p.1.length = c.S.bounds.length ∧ p.2.length = c.S.bounds.length ∧ ∀ v ∈ p.2, c.smin ≤ v ∧ v ≤ c.smax) :
    ∃ r, evolute c m userFit dr rl pop0 = .ok r := by
  have key : ∀ g, ∃ s, run c (fun x => sgn (!m) (userFit x)) dr rl pop0 g = .ok s := by
    intro g
    induction g with
    | zero => exact ⟨_, rfl⟩
    | succ g ih =>
      obtain ⟨s, hs'⟩ := ih
      have hi := (run_inv hS hs hmu hrl h0 hs').1
      have hlen : 2 ≤ s.pop.length := by
        by_cases hz : g = 0
        · subst hz; cases hs'; show 2 ≤ (pop0.map _).length; rw [List.length_map]; omega
        · rw [hi.npop hz]; exact hmu2
      obtain ⟨os, hos⟩ := genLoop_total hS hs (hd g) hcx c.lam 0 s.pop hi.lens hlen
      have hosl := (genLoop_ok hS hs hi.lens hos).1
      cases hfin : run c (fun x => sgn (!m) (userFit x)) dr rl pop0 (g + 1) with
      | ok s' => exact ⟨s', rfl⟩
      | error e =>
        exfalso
        simp only [run, hs', gen, genOffspring, hos] at hfin
        set os' := (if c.clip = true then os.map (fun o => (o.1, clipS c.smin c.smax o.2)) else os) with hos'
        have hl' : os'.length = c.lam := by rw [hos']; split_ifs <;> simp [hosl]
        set pp := select c.mu (os'.map fun o => ({ ind := o.1, strat := o.2, fit := sgn (!m) (userFit o.1) } : Ind K)) with hpp
        have hpl : pp.length = c.mu := by
          rw [hpp, (C10_select _ _).1, List.length_map, hl', min_eq_left hmu]
        have hmix : mixRL (rl g) pp = .ok (replFirst (rl g) pp.reverse).reverse := by
          unfold mixRL
          rw [if_neg (by have := hrlm g; omega)]
        rw [hmix] at hfin
        obtain ⟨b, hb⟩ := firstMax_total (l := (replFirst (rl g) pp.reverse).reverse) (by
          intro hcon
          have := congrArg List.length hcon
          rw [List.length_reverse, replFirst_length, List.length_reverse, hpl] at this
          simp at this
          omega)
        simp only [hb] at hfin
        cases hfin
  obtain ⟨s, hs'⟩ := key c.ngen
  have hi := (run_inv hS hs hmu hrl h0 hs').1
  unfold evolute
  rw [if_neg (by
    rintro (h | h | h)
    · exact h hmu
    · exact h hpb
    · exact h hn), hs']
  rcases hi.best with ⟨hz, -⟩ | ⟨b, hb, -⟩
  · omega
  · simp only [hb]
    exact ⟨_, rfl⟩

/-! ### Concrete runs -/

def exS : Space ℚ := { bounds := [(-5, 5), (0, 3)], types := [.float, .int], method := .nearestInt, expf := fun x => x }
def exC : Conf ℚ := { S := exS, lam := 3, mu := 2, ngen := 2, blend := false, alpha := 1 / 2, cxpb := 6 / 10, mutpb := 3 / 10, smin := 1 / 100, smax := 1 / 2, clip := true }
def exFit : List ℚ → ℚ := fun x => (x.map (fun v => v * v)).sum
def exPop : List (List ℚ × List ℚ) := [([3, 1], [1 / 10, 1 / 10]), ([-2, 2], [1 / 5, 1 / 10]), ([1, 1], [1 / 2, 1 / 2])]
def exDr : ℕ → ℕ → Draw ℚ := fun g i => { rn := if i = 0 then 1 / 10 else if i = 1 then 7 / 10 else 95 / 100, i1 := g, i2 := 1, a := 0, b := 0, u := fun _ => 1 / 2, v := fun _ => 1 / 2, md := { e := fun _ => 2, t := fun _ => 1 / 10, pick := fun _ => 1, g := fun _ => 3 } }

example : exS.OK := Space.ok_of_okB (by decide +kernel)
example : ∀ p ∈ exPop, p.1.length = exS.bounds.length ∧ p.2.length = exS.bounds.length ∧ ∀ v ∈ p.2, exC.smin ≤ v ∧ v ≤ exC.smax := by decide +kernel
example : (match evolute exC true exFit exDr (fun _ => []) exPop with
    | .ok r => decide (r.log.length = 6 ∧ r.y = exFit r.x) | _ => false) = true := by decide +kernel

example : ∀ g i, PickOK exS (exDr g i).md := by
  intro g i j b ht hb hne
  match j, ht, hb with
  | 1, _, hb =>
    simp [exS] at hb
    subst hb
    norm_num [exDr, truncZ]
  | 0, ht, _ => simp [exS] at ht
  | j + 2, ht, _ => simp [exS] at ht

/-- **C13, defect.** With blend crossover and `clip=False` a strategy entry leaves `[smin, smax]` (here it even becomes negative). -/
theorem C13_blend_escapes : ∃ (c : Conf ℚ) (dr : ℕ → ℕ → Draw ℚ) (pop0 : List (List ℚ × List ℚ)) (s : State ℚ), c.clip = false ∧
    (∀ p ∈ pop0, ∀ v ∈ p.2, c.smin ≤ v ∧ v ≤ c.smax) ∧
    run c exFit dr (fun _ => []) pop0 1 = .ok s ∧ ∃ p ∈ s.pop, ∃ v ∈ p.strat, v < 0 := by
  let c : Conf ℚ := { exC with lam := 2, mu := 2, ngen := 1, blend := true, cxpb := 1, mutpb := 0, clip := false }
  let p0 : List (List ℚ × List ℚ) := [([1, 1], [1 / 100, 1 / 2]), ([0, 0], [1 / 2, 1 / 100])]
  let dr : ℕ → ℕ → Draw ℚ := fun g i => { exDr g i with rn := 1 / 10, v := fun _ => 9 / 10 }
  refine ⟨c, dr, p0, ?_⟩
  have key : (match run c exFit dr (fun _ => []) p0 1 with
    | .ok s => decide (∃ p ∈ s.pop, ∃ v ∈ p.strat, v < 0) | _ => false) = true := by decide +kernel
  split at key
  · rename_i r hr
    simp only [decide_eq_true_eq] at key
    exact ⟨r, rfl, by decide +kernel, hr, key⟩
  · cases key

/-- **C14, defect.** The evaluated initial population is not counted: a run started from the optimum can return something worse. -/
theorem C14_start_lost : ∃ (c : Conf ℚ) (dr : ℕ → ℕ → Draw ℚ) (pop0 : List (List ℚ × List ℚ)) (r : Result ℚ),
    evolute c true exFit dr (fun _ => []) pop0 = .ok r ∧ ∃ p ∈ pop0, exFit p.1 < r.y := by
  let c : Conf ℚ := { exC with lam := 1, mu := 1, ngen := 1, cxpb := 0, mutpb := 1 }
  let p0 : List (List ℚ × List ℚ) := [([0, 0], [1 / 2, 1 / 2])]
  refine ⟨c, exDr, p0, ?_⟩
  have key : (match evolute c true exFit exDr (fun _ => []) p0 with
    | .ok r => decide (0 < r.y) | _ => false) = true := by decide +kernel
  split at key
  · rename_i r hr
    simp only [decide_eq_true_eq] at key
    exact ⟨r, hr, ([0, 0], [1 / 2, 1 / 2]), by simp [p0], by norm_num [exFit]; exact key⟩
  · cases key

/-- **C14, defect.** In RL mode with as many RL vectors as survivors the returned individual is an RL vector that was never evaluated, paired
with the fitness of another one. -/
theorem C14_rl_mismatch : ∃ (c : Conf ℚ) (dr : ℕ → ℕ → Draw ℚ) (rl : ℕ → List (List ℚ)) (pop0 : List (List ℚ × List ℚ)) (r : Result ℚ),
    evolute c true exFit dr rl pop0 = .ok r ∧ r.x ∉ r.log ∧ r.y ≠ exFit r.x := by
  let c : Conf ℚ := { exC with lam := 1, mu := 1, ngen := 1, cxpb := 0, mutpb := 1 }
  let p0 : List (List ℚ × List ℚ) := [([0, 0], [1 / 2, 1 / 2])]
  let rl : ℕ → List (List ℚ) := fun _ => [[5, 3]]
  refine ⟨c, exDr, rl, p0, ?_⟩
  have key : (match evolute c true exFit exDr rl p0 with
    | .ok r => decide (r.x ∉ r.log ∧ r.y ≠ exFit r.x) | _ => false) = true := by decide +kernel
  split at key
  · rename_i r hr
    simp only [decide_eq_true_eq] at key
    exact ⟨r, hr, key⟩
  · cases key

end
end Neorl.ES

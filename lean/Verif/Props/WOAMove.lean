import Verif.SwarmTrace
import Verif.Props.WOA

/-!
# Property theorems C63: how a whale moves

Stated on the sequence of evaluated positions: block `k` of the log is the population of generation `k`.
-/

set_option linter.unusedSectionVars false
set_option linter.unusedVariables false

namespace Neorl.WOA

section
variable {K : Type} [Field K] [LinearOrder K] [IsStrictOrderedRing K] [FloorRing K]

/-- Specification: all uniform draws are in `[0, 1]`. -/
def Draw.Unit (d : Draw K) : Prop := (0 ≤ d.r1 ∧ d.r1 ≤ 1) ∧ (0 ≤ d.r2 ∧ d.r2 ≤ 1) ∧ (0 ≤ d.rl ∧ d.rl ≤ 1) ∧ (0 ≤ d.p ∧ d.p ≤ 1)

/-- Whale `i` is moved when the whales before it have their new positions and the others the old ones. -/
theorem moveTo_row {c : Conf K} {k : ℕ} {a fac : K} {dr : ℕ → Draw K} {best : List K} {n : ℕ} {pop q : List (List K)}
    (h : moveTo c k a fac dr best n pop = .ok q) :
    (∀ j, n ≤ j → q[j]? = pop[j]?) ∧ ∀ i < n, ∃ p row row', pop[i]? = some row ∧ q[i]? = some row' ∧
      (∀ j, p[j]? = if j < i then q[j]? else pop[j]?) ∧
      c.S.disc (1 - (k : K) * (1 / (c.ngen : K))) (dr i).disc (c.S.clip (moveRow c a fac (dr i) best p row)) = .ok row' := by
  induction n generalizing q with
  | zero => cases h; exact ⟨fun _ _ => rfl, fun i hi => by omega⟩
  | succ n ih =>
    simp only [moveTo] at h
    split at h
    · cases h
    · rename_i p hp
      obtain ⟨h1, h2⟩ := ih hp
      split at h
      · cases h
      · rename_i row hrow
        split at h
        · cases h
        · rename_i row' hr
          cases h
          refine ⟨fun j hj => by rw [List.getElem?_set_ne (by omega)]; exact h1 j (by omega), ?_⟩
          intro i hi
          rcases Nat.lt_or_ge i n with hi' | hi'
          · obtain ⟨p', r, r', e1, e2, e3, e4⟩ := h2 i hi'
            refine ⟨p', r, r', e1, by rw [List.getElem?_set_ne (by omega)]; exact e2, ?_, e4⟩
            intro j
            rw [e3 j]
            split
            · rw [List.getElem?_set_ne (by omega)]
            · rfl
          · obtain rfl : i = n := by omega
            refine ⟨p, row, row', by rw [← h1 i le_rfl]; exact hrow, ?_, ?_, hr⟩
            · rw [List.getElem?_set_self (List.getElem?_eq_some_iff.1 hrow).1]
            · intro j
              split
              · rw [List.getElem?_set_ne (by omega)]
              · exact h1 j (by omega)

/-- **C63.** Without keywords the encircling coefficient falls linearly from `a0` (by `a0/ngen` per generation, still positive in the last one), and the lower end
of the spiral parameter goes linearly from `-1` towards `-2`. -/
theorem C63_woa_schedule {c : Conf K} (ha : c.kwA = none) (hf : c.kwFac = none) (h0 : 0 < c.a0) (hg : c.ngen ≠ 0) :
    coefA c 0 = .ok c.a0 ∧ coefFac c 0 = .ok (-1) ∧ ∀ k < c.ngen, ∃ a f : K, coefA c k = .ok a ∧ coefFac c k = .ok f ∧ 0 < a ∧ a ≤ c.a0 ∧ -2 < f ∧ f ≤ -1 ∧
      coefA c (k + 1) = .ok (a - c.a0 / (c.ngen : K)) ∧ coefFac c (k + 1) = .ok (f - 1 / (c.ngen : K)) := by
  have hp : (0 : K) < (c.ngen : K) := by exact_mod_cast Nat.pos_of_ne_zero hg
  refine ⟨by simp [coefA, ha], by simp [coefFac, hf], fun k hk => ⟨c.a0 - (k : K) * (c.a0 / (c.ngen : K)), -1 + (k : K) * (-1 / (c.ngen : K)),
    by simp [coefA, ha], by simp [coefFac, hf], ?_, ?_, ?_, ?_, ?_, ?_⟩⟩
  · have h1 : (k : K) < (c.ngen : K) := by exact_mod_cast hk
    have h2 : (k : K) * (c.a0 / (c.ngen : K)) < c.a0 := by
      rw [mul_div_assoc', div_lt_iff₀ hp]; nlinarith
    linarith
  · have : (0 : K) ≤ (k : K) * (c.a0 / (c.ngen : K)) := by positivity
    linarith
  · have h1 : (k : K) < (c.ngen : K) := by exact_mod_cast hk
    have h2 : (k : K) * (1 / (c.ngen : K)) < 1 := by
      rw [mul_div_assoc', div_lt_iff₀ hp]; linarith
    have e : (k : K) * (-1 / (c.ngen : K)) = - ((k : K) * (1 / (c.ngen : K))) := by ring
    rw [e]; linarith
  · have h1 : (0 : K) ≤ (k : K) * (1 / (c.ngen : K)) := by positivity
    have e : (k : K) * (-1 / (c.ngen : K)) = - ((k : K) * (1 / (c.ngen : K))) := by ring
    rw [e]; linarith
  · simp only [coefA, ha]; push_cast; congr 1; ring
  · simp only [coefFac, hf]; push_cast; congr 1; ring

/-- One coordinate before clamping. -/
theorem coord_cases {c : Conf K} {a fac : K} (ha : 0 ≤ a) {d : Draw K} (hd : d.Unit) (hfac : fac ≤ 1) (xr bj x : K) :
    (|coord c a fac d xr bj x - bj| ≤ a * reach bj x) ∨ (1 ≤ a ∧ |coord c a fac d xr bj x - xr| ≤ a * reach xr x) ∨
    ∃ l, fac ≤ l ∧ l ≤ 1 ∧ coord c a fac d xr bj x = bj + |bj - x| * c.spiral l := by
  obtain ⟨⟨a1, a2⟩, ⟨b1, b2⟩, ⟨c1, c2⟩, -⟩ := hd
  unfold coord
  dsimp only
  have key : ∀ l : K, |l - (2 * a * d.r1 - a) * (|2 * d.r2 * l - x|) - l| ≤ a * reach l x := by
    intro l
    have : l - (2 * a * d.r1 - a) * (|2 * d.r2 * l - x|) - l = -((2 * a * d.r1 - a) * (|2 * d.r2 * l - x|)) := by ring
    rw [this, abs_neg]
    exact abs_coef_mul_le ha a1 a2 (by rw [abs_abs]; exact abs_le_reach b1 b2)
  split
  · split
    · rename_i hA
      refine Or.inr (Or.inl ⟨le_trans hA ?_, key xr⟩)
      rw [abs_le]; constructor <;> nlinarith
    · exact Or.inl (key bj)
  · refine Or.inr (Or.inr ⟨(fac - 1) * d.rl + 1, ?_, ?_, by ring⟩)
    · nlinarith
    · nlinarith

/-- A float coordinate of a whale in generation `k + 1`, exactly. -/
theorem step_exact {c : Conf K} (hS : c.S.OK) (ha : c.kwA = none) (hfac : c.kwFac = none) {m : Bool} {userFit : List K → K}
    {dr : ℕ → ℕ → Draw K} {pos0 : List (List K)} (hf : ∀ p ∈ pos0, c.S.Feasible p) {r : Swarm.Result K}
    (h : evolute c m userFit dr pos0 = .ok r) {k i j : ℕ} (hk : k < c.ngen) (hi : i < c.nwhales) {p q : List K}
    (hp : r.log[k * c.nwhales + i]? = some p) (hq : r.log[(k + 1) * c.nwhales + i]? = some q) {b : K × K}
    (ht : c.S.types[j]? = some VType.float) (hb : c.S.bounds[j]? = some b) {x y : K} (hx : p[j]? = some x) (hy : q[j]? = some y) :
    ∃ B w, IsBest m userFit (r.log.take ((k + 1) * c.nwhales)) B (userFit B) ∧ w ∈ Swarm.blk c.nwhales r.log k ++ Swarm.blk c.nwhales r.log (k + 1) ∧
      y = clamp b.1 b.2 (coord c (c.a0 * (1 - (k : K) / (c.ngen : K))) (-1 - (k : K) / (c.ngen : K)) (dr k i) (w.getD j 0) (B.getD j 0) x) := by
  obtain ⟨B, hB, hmv⟩ := Swarm.evolute_steps (move_ok hS dr) hf h hk
  have hcon := Swarm.evolute_contract (move_ok hS dr) hf h
  have hg : c.ngen ≠ 0 := by omega
  have hpos : (0 : K) < (c.ngen : K) := by exact_mod_cast Nat.pos_of_ne_zero hg
  unfold move at hmv
  split at hmv
  · cases hmv
  rename_i a hA
  split at hmv
  · cases hmv
  rename_i fac hF
  have ea : a = c.a0 * (1 - (k : K) / (c.ngen : K)) := by
    simp only [coefA, ha] at hA; cases hA; ring
  have ef : fac = -1 - (k : K) / (c.ngen : K) := by
    simp only [coefFac, hfac] at hF; cases hF; ring
  obtain ⟨-, hrow⟩ := moveTo_row hmv
  obtain ⟨pp, row, row', e1, e2, e3, e4⟩ := hrow i hi
  rw [Swarm.getElem?_blk hi, hp] at e1; cases e1
  rw [Swarm.getElem?_blk hi, hq] at e2; cases e2
  have hw : pp.getD ((dr k i).pick j % c.nwhales) [] ∈ Swarm.blk c.nwhales r.log k ++ Swarm.blk c.nwhales r.log (k + 1) := by
    have hlt : (dr k i).pick j % c.nwhales < c.nwhales := Nat.mod_lt _ (by omega)
    generalize (dr k i).pick j % c.nwhales = t at hlt
    have hlen : ∀ g, g ≤ c.ngen → t < (Swarm.blk c.nwhales r.log g).length := by
      intro g hg'
      unfold Swarm.blk
      rw [List.length_take, List.length_drop, hcon.evals]
      have : g * c.nwhales + c.nwhales ≤ c.nwhales * (c.ngen + 1) := by nlinarith
      omega
    have := e3 t
    rw [List.getD_eq_getElem?_getD, this]
    split
    · rw [List.getElem?_eq_getElem (hlen (k + 1) (by omega))]
      exact List.mem_append_right _ (List.getElem_mem _)
    · rw [List.getElem?_eq_getElem (hlen k (by omega))]
      exact List.mem_append_left _ (List.getElem_mem _)
  generalize hwd : pp.getD ((dr k i).pick j % c.nwhales) [] = w at hw
  have hy0 : (moveRow c a fac (dr k i) B pp p)[j]? = some (coord c a fac (dr k i) (w.getD j 0) (B.getD j 0) x) := by
    simp only [moveRow, List.getElem?_mapIdx, hx, Option.map_some, hwd]
  have hyc := Space.repair_float hS e4 ht hb hy0
  rw [hy] at hyc; cases hyc
  exact ⟨B, w, hB, hw, by rw [← ea, ← ef]⟩

/-- **C63.** How a float coordinate of a whale gets from generation `k` to generation `k+1`: either within `a` times the reach of the best point evaluated so far,
or, only while `a >= 1`, within `a` times the reach of some whale of one of the two generations, or on the spiral around the best point with
`fac <= l <= 1`.  With the default `a0 = 2`, `a < 1` in the second half of the run, where the random whale is never used. -/
theorem C63_woa_move {c : Conf K} (hS : c.S.OK) (ha : c.kwA = none) (hfac : c.kwFac = none) (h0 : 0 < c.a0) {m : Bool} {userFit : List K → K}
    {dr : ℕ → ℕ → Draw K} {pos0 : List (List K)} (hf : ∀ p ∈ pos0, c.S.Feasible p) (hd : ∀ k i, (dr k i).Unit) {r : Swarm.Result K}
    (h : evolute c m userFit dr pos0 = .ok r) {k i j : ℕ} (hk : k < c.ngen) (hi : i < c.nwhales) {p q : List K}
    (hp : r.log[k * c.nwhales + i]? = some p) (hq : r.log[(k + 1) * c.nwhales + i]? = some q) {b : K × K}
    (ht : c.S.types[j]? = some VType.float) (hb : c.S.bounds[j]? = some b) {x y : K} (hx : p[j]? = some x) (hy : q[j]? = some y) :
    ∃ B, IsBest m userFit (r.log.take ((k + 1) * c.nwhales)) B (userFit B) ∧
      ((|y - clamp b.1 b.2 (B.getD j 0)| ≤ c.a0 * (1 - (k : K) / (c.ngen : K)) * reach (B.getD j 0) x) ∨
       (1 ≤ c.a0 * (1 - (k : K) / (c.ngen : K)) ∧ ∃ w ∈ Swarm.blk c.nwhales r.log k ++ Swarm.blk c.nwhales r.log (k + 1),
          |y - clamp b.1 b.2 (w.getD j 0)| ≤ c.a0 * (1 - (k : K) / (c.ngen : K)) * reach (w.getD j 0) x) ∨
       ∃ l, -1 - (k : K) / (c.ngen : K) ≤ l ∧ l ≤ 1 ∧ y = clamp b.1 b.2 (B.getD j 0 + |B.getD j 0 - x| * c.spiral l)) := by
  obtain ⟨B, w, hB, hw, e⟩ := step_exact hS ha hfac hf h hk hi hp hq ht hb hx hy
  refine ⟨B, hB, ?_⟩
  have hpos : (0 : K) < (c.ngen : K) := by exact_mod_cast (by omega : 0 < c.ngen)
  have hk1 : (k : K) / (c.ngen : K) ≤ 1 := by
    rw [div_le_one hpos]; exact_mod_cast hk.le
  have hk0 : (0 : K) ≤ (k : K) / (c.ngen : K) := by positivity
  have hap : 0 ≤ c.a0 * (1 - (k : K) / (c.ngen : K)) := mul_nonneg h0.le (by linarith)
  subst e
  rcases coord_cases (c := c) hap (hd k i) (fac := -1 - (k : K) / (c.ngen : K)) (by linarith) (w.getD j 0) (B.getD j 0) x with h1 | ⟨h1, h2⟩ | ⟨l, h1, h2, h3⟩
  · exact Or.inl (le_trans (clamp_lipschitz _ _ _ _) h1)
  · exact Or.inr (Or.inl ⟨h1, w, hw, le_trans (clamp_lipschitz _ _ _ _) h2⟩)
  · exact Or.inr (Or.inr ⟨l, h1, h2, by rw [h3]⟩)

/-- **C63.** Which move is used, and exactly how far it goes: a whale whose draw `p` is at least one half goes on the spiral; below one half it encircles the best point
when `|A| < 1` and another whale when `|A| >= 1`, with `A = a * (2 * r1 - 1)` and distance term `|2 * r2 * target - x|`. -/
theorem C63_woa_choice {c : Conf K} (hS : c.S.OK) (ha : c.kwA = none) (hfac : c.kwFac = none) {m : Bool} {userFit : List K → K}
    {dr : ℕ → ℕ → Draw K} {pos0 : List (List K)} (hf : ∀ p ∈ pos0, c.S.Feasible p) {r : Swarm.Result K}
    (h : evolute c m userFit dr pos0 = .ok r) {k i j : ℕ} (hk : k < c.ngen) (hi : i < c.nwhales) {p q : List K}
    (hp : r.log[k * c.nwhales + i]? = some p) (hq : r.log[(k + 1) * c.nwhales + i]? = some q) {b : K × K}
    (ht : c.S.types[j]? = some VType.float) (hb : c.S.bounds[j]? = some b) {x y : K} (hx : p[j]? = some x) (hy : q[j]? = some y) :
    ∃ B A, IsBest m userFit (r.log.take ((k + 1) * c.nwhales)) B (userFit B) ∧ A = c.a0 * (1 - (k : K) / (c.ngen : K)) * (2 * (dr k i).r1 - 1) ∧
      (1 / 2 ≤ (dr k i).p → y = clamp b.1 b.2 (B.getD j 0 + |B.getD j 0 - x| * c.spiral (1 - (dr k i).rl * (2 + (k : K) / (c.ngen : K))))) ∧
      ((dr k i).p < 1 / 2 → |A| < 1 → y = clamp b.1 b.2 (B.getD j 0 - A * |2 * (dr k i).r2 * B.getD j 0 - x|)) ∧
      ((dr k i).p < 1 / 2 → 1 ≤ |A| → ∃ w ∈ Swarm.blk c.nwhales r.log k ++ Swarm.blk c.nwhales r.log (k + 1),
        y = clamp b.1 b.2 (w.getD j 0 - A * |2 * (dr k i).r2 * w.getD j 0 - x|)) := by
  obtain ⟨B, w, hB, hw, e⟩ := step_exact hS ha hfac hf h hk hi hp hq ht hb hx hy
  have eA : 2 * (c.a0 * (1 - (k : K) / (c.ngen : K))) * (dr k i).r1 - c.a0 * (1 - (k : K) / (c.ngen : K)) =
      c.a0 * (1 - (k : K) / (c.ngen : K)) * (2 * (dr k i).r1 - 1) := by ring
  have eL : (-1 - (k : K) / (c.ngen : K) - 1) * (dr k i).rl + 1 = 1 - (dr k i).rl * (2 + (k : K) / (c.ngen : K)) := by ring
  simp only [coord, eA, eL] at e
  refine ⟨B, _, hB, rfl, fun h1 => ?_, fun h1 h2 => ?_, fun h1 h2 => ⟨w, hw, ?_⟩⟩
  · rw [if_neg (not_lt.2 h1)] at e
    rw [e, add_comm]
  · rw [if_pos h1, if_neg (not_le.2 h2)] at e
    exact e
  · rw [if_pos h1, if_pos h2] at e
    exact e

/-- **C63.** In the second half of a run with the default `a0 = 2` no whale follows a random whale: every float coordinate ends within `2(1 - k/ngen) < 1` times the reach
of the best point, or on the spiral around it. -/
theorem C63_woa_exploits {c : Conf K} (hS : c.S.OK) (ha : c.kwA = none) (hfac : c.kwFac = none) (h0 : c.a0 = 2) {m : Bool} {userFit : List K → K}
    {dr : ℕ → ℕ → Draw K} {pos0 : List (List K)} (hf : ∀ p ∈ pos0, c.S.Feasible p) (hd : ∀ k i, (dr k i).Unit) {r : Swarm.Result K}
    (h : evolute c m userFit dr pos0 = .ok r) {k i j : ℕ} (hk : k < c.ngen) (hhalf : c.ngen < 2 * k) (hi : i < c.nwhales) {p q : List K}
    (hp : r.log[k * c.nwhales + i]? = some p) (hq : r.log[(k + 1) * c.nwhales + i]? = some q) {b : K × K}
    (ht : c.S.types[j]? = some VType.float) (hb : c.S.bounds[j]? = some b) {x y : K} (hx : p[j]? = some x) (hy : q[j]? = some y) :
    ∃ B, IsBest m userFit (r.log.take ((k + 1) * c.nwhales)) B (userFit B) ∧
      ((|y - clamp b.1 b.2 (B.getD j 0)| ≤ 2 * (1 - (k : K) / (c.ngen : K)) * reach (B.getD j 0) x) ∨
       ∃ l, -2 ≤ l ∧ l ≤ 1 ∧ y = clamp b.1 b.2 (B.getD j 0 + |B.getD j 0 - x| * c.spiral l)) := by
  obtain ⟨B, hB, hc⟩ := C63_woa_move hS ha hfac (by rw [h0]; norm_num) hf hd h hk hi hp hq ht hb hx hy
  have hpos : (0 : K) < (c.ngen : K) := by exact_mod_cast (by omega : 0 < c.ngen)
  have hk1 : (k : K) / (c.ngen : K) ≤ 1 := by
    rw [div_le_one hpos]; exact_mod_cast hk.le
  refine ⟨B, hB, ?_⟩
  rw [h0] at hc
  rcases hc with h1 | ⟨h1, -⟩ | ⟨l, h1, h2, h3⟩
  · exact Or.inl h1
  · exfalso
    have : (1 : K) / 2 < (k : K) / (c.ngen : K) := by
      rw [div_lt_div_iff₀ (by norm_num) hpos]
      have : ((c.ngen : ℕ) : K) < ((2 * k : ℕ) : K) := by exact_mod_cast hhalf
      push_cast at this; linarith
    linarith
  · exact Or.inr ⟨l, by linarith, h2, h3⟩

/-- **C63.** The branches do occur: for every `a >= 1` some draws use the random whale, and the draw `r1 = 1/2` lands exactly on the best
point. -/
theorem C63_woa_branches (c : Conf K) {a : K} (ha : 1 ≤ a) (fac xr bj x : K) :
    (∃ d : Draw K, d.Unit ∧ coord c a fac d xr bj x = xr - a * |2 * xr - x|) ∧ (∃ d : Draw K, d.Unit ∧ coord c a fac d xr bj x = bj) ∧
    ∃ d : Draw K, d.Unit ∧ coord c a fac d xr bj x = bj + |bj - x| * c.spiral 1 := by
  refine ⟨⟨⟨1, 1, 0, 0, fun _ => 0, fun _ => (0, 0)⟩, ?_, ?_⟩, ⟨⟨1 / 2, 1, 0, 0, fun _ => 0, fun _ => (0, 0)⟩, ?_, ?_⟩,
    ⟨⟨1 / 2, 1, 0, 1, fun _ => 0, fun _ => (0, 0)⟩, ?_, ?_⟩⟩
  · simp [Draw.Unit]
  · have e : 2 * a * 1 - a = a := by ring
    simp only [coord]
    rw [if_pos (by norm_num), e, if_pos (by rw [abs_of_nonneg (by linarith)]; exact ha)]
    norm_num
  · refine ⟨⟨by norm_num, by norm_num⟩, by simp, by simp, by simp⟩
  · have e : 2 * a * (1 / 2) - a = 0 := by ring
    simp only [coord]
    rw [if_pos (by norm_num), e, if_neg (by simp)]
    ring
  · refine ⟨⟨by norm_num, by norm_num⟩, by simp, by simp, by simp⟩
  · simp only [coord]
    rw [if_neg (by norm_num)]
    ring_nf

/-! ### Concrete cases -/

/-- A run of three generations, the last of which is in the second half. -/
def exC3 : Conf ℚ := { exC with ngen := 3 }
def exDr3 : ℕ → ℕ → Draw ℚ := fun g i =>
  { r1 := 7 / 8, r2 := 1 / 3, rl := 1 / 2, p := (i : ℚ) / ((i : ℚ) + 1), pick := fun j => j, disc := fun _ => (0, 0) }

example : exC3.kwA = none ∧ exC3.kwFac = none ∧ exC3.a0 = 2 ∧ exC3.ngen < 2 * 2 := ⟨rfl, rfl, rfl, by decide⟩
example : ∀ k i, (exDr3 k i).Unit := by
  intro k i
  refine ⟨⟨by norm_num [exDr3], by norm_num [exDr3]⟩, ⟨by norm_num [exDr3], by norm_num [exDr3]⟩, ⟨by norm_num [exDr3], by norm_num [exDr3]⟩, ?_, ?_⟩
  · simp only [exDr3]; positivity
  · simp only [exDr3]
    have : (0 : ℚ) ≤ i := by positivity
    rw [div_le_one (by linarith)]; linarith
example : (match evolute exC3 true exFit exDr3 exPos with | .ok r => r.log.map (fun p => p.getD 0 0) | _ => []) = [3, -2, 3 / 2, -2, 1, 11 / 12, 13 / 18, 11 / 12] := by
  decide +kernel

end
end Neorl.WOA

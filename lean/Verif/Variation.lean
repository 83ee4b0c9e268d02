import Verif.Feasible
import Verif.Best
import Verif.Sort

/-!
# Evolution strategies: selection, crossover, mutation

Model of `neorl/evolu/crossover.py` (also used by `es.py`, `nsgaII.py`, `nsgaIII.py`) and of `ES.mutES`
(`neorl/evolu/es.py` lines 267-338, repeated in `neorl/multi/nsgaII.py` and `nsgaIII.py`).
-/

set_option linter.unusedSectionVars false
set_option linter.unusedVariables false

namespace Neorl.ES

section
variable {K : Type} [Field K] [LinearOrder K] [IsStrictOrderedRing K] [FloorRing K]

/-- `pop[key] = [individual, strategy, fitness]`. -/
structure Ind (K : Type) where
  ind : List K
  strat : List K
  fit : K

/-- `select`, `neorl/evolu/es.py` lines 241-265 and `neorl/evolu/crossover.py` lines 93-117: stable sort by fitness, largest first, keep `k`,
renumber. -/
def select (k : ℕ) (pop : List (Ind K)) : List (Ind K) := (sortDesc (fun e : Ind K => e.fit) pop).take k

/-- `cxES2point`'s points, `neorl/evolu/crossover.py` lines 76-81; `a` and `b` are arbitrary numbers reduced to the range of `randint`. -/
def cxPoints (size a b : ℕ) : Py (ℕ × ℕ) :=
  if size ≤ 1 then .error .valueError else
  let pt1 := 1 + a % size
  let pt2 := 1 + b % (size - 1)
  .ok (if pt2 ≥ pt1 then (pt1, pt2 + 1) else (pt2, pt1))

/-- `x[p:q] = y[p:q]`. -/
def slice (p q : ℕ) (x y : List K) : List K := x.take p ++ (y.drop p).take (q - p) ++ x.drop q

/-- `cxES2point`, lines 61-86. -/
def cx2point (a b : ℕ) (i1 i2 s1 s2 : List K) : Py ((List K × List K) × (List K × List K)) :=
  match cxPoints (min i1.length i2.length) a b with
  | .error e => .error e
  | .ok (p, q) => .ok ((slice p q i1 i2, slice p q i2 i1), (slice p q s1 s2, slice p q s2 s1))

/-- One coordinate of `cxESBlend`, `neorl/evolu/crossover.py` lines 50-57; `u` is `random.random()`. -/
def blend1 (alpha u x1 x2 : K) : K × K :=
  let g := (1 + 2 * alpha) * u - alpha
  ((1 - g) * x1 + g * x2, g * x1 + (1 - g) * x2)

/-- Blending two vectors with draws `u`. -/
def blendV (alpha : K) (u : ℕ → K) (x1 x2 : List K) : List K × List K :=
  let l := (List.zip x1 x2).mapIdx fun i p => blend1 alpha (u i) p.1 p.2
  (l.map (fun p => p.1), l.map (fun p => p.2))

/-- `cxESBlend`, lines 35-59: individuals and strategies with separate draws.  (All four lists have the same length.) -/
def cxBlend (alpha : K) (u v : ℕ → K) (i1 i2 s1 s2 : List K) : (List K × List K) × (List K × List K) :=
  (blendV alpha u i1 i2, blendV alpha v s1 s2)

/-- Draws of a mutation, per dimension: the value of the `np.exp` factor, the test against the strategy, the index for `random.choice`, the
Gaussian step. -/
structure MutDraw (K : Type) where
  e : ℕ → K
  t : ℕ → K
  pick : ℕ → ℕ
  g : ℕ → K

/-- Folding of a strategy into `[smin, smax]`, `neorl/evolu/es.py` lines 299-304. -/
def fold (smin smax s : K) : K :=
  let y := (s - smin) / (smax - smin)
  let y' := if ⌊y⌋ % 2 = 0 then |y - ⌊y⌋| else 1 - |y - ⌊y⌋|
  smin + (smax - smin) * y'

/-- Mutation of coordinate `i` with value `x` (already clamped) and strategy `s`, lines 291-333. -/
def mutCoord (S : Space K) (smin smax : K) (d : MutDraw K) (i : ℕ) (xs : K × K) : Py (K × K) :=
  match S.types[i]?, S.bounds[i]? with
  | some .int, some b =>
    let s := fold smin smax (1 / (1 + (1 - xs.2) / xs.2 * d.e i))
    if d.t i < s then
      if truncZ b.1 = truncZ b.2 then .ok (((truncZ b.1 : ℤ) : K), s)
      else match flipChoice (truncZ b.1) (truncZ b.2) (truncZ xs.1) (d.pick i) with
        | .error e => .error e
        | .ok z => .ok ((z : K), s)
    else .ok (((truncZ xs.1 : ℤ) : K), s)
  | some .float, some b =>
    let s := xs.2 * d.e i
    .ok (xs.1 + s * d.g i, s)
  | _, _ => .error .valueError

/-- `np.clip(strat, smin, smax)`: `np.minimum(smax, np.maximum(x, smin))`. -/
def clipS (smin smax : K) (s : List K) : List K := s.map fun v => min (max v smin) smax

/-- `ES.mutES`, lines 267-338. -/
def mutES (S : Space K) (smin smax : K) (d : MutDraw K) (ind strat : List K) : Py (List K × List K) :=
  match mapRows (mutCoord S smin smax d) 0 (List.zip (S.clip ind) strat) with
  | .error e => .error e
  | .ok l => .ok (S.clip (l.map (fun p => p.1)), clipS smin smax (l.map (fun p => p.2)))

/-- `ES.ensure_discrete`, lines 215-221. -/
def ensDisc (S : Space K) (v : List K) : List K :=
  (S.clip v).mapIdx fun i x => if S.types[i]? = some VType.int then ((truncZ x : ℤ) : K) else x

/-! ### Lemmas -/

theorem ensDisc_feasible {S : Space K} (hS : S.OK) {v : List K} (hl : v.length = S.bounds.length) : S.Feasible (ensDisc S v) := by
  have hbox := S.clip_inBox hS hl
  refine ⟨inBox_of_getElem? (by simp [ensDisc, hbox.length_eq]) ?_, ?_⟩
  · intro d x b hx hb
    unfold ensDisc at hx
    rw [List.getElem?_mapIdx] at hx
    cases e : (S.clip v)[d]? with
    | none => rw [e] at hx; cases hx
    | some y =>
      rw [e] at hx; cases hx
      have hy := inBox_getElem? hbox e hb
      beta_reduce
      split_ifs with ht
      · obtain ⟨l, u, e1, e2⟩ := hS.intBounds d b ht hb
        rw [e1, e2] at hy ⊢
        have := truncZ_bounds hy.1 hy.2
        exact ⟨by exact_mod_cast this.1, by exact_mod_cast this.2⟩
      · exact hy
  · intro d x ht hx
    unfold ensDisc at hx
    rw [List.getElem?_mapIdx] at hx
    cases e : (S.clip v)[d]? with
    | none => rw [e] at hx; cases hx
    | some y =>
      rw [e] at hx; cases hx
      beta_reduce
      rw [if_pos ht]
      exact ⟨_, rfl⟩

/-- On a feasible point `ensure_discrete` does nothing. -/
theorem ensDisc_id {S : Space K} {v : List K} (h : S.Feasible v) : ensDisc S v = v := by
  unfold ensDisc
  rw [Space.clip_of_inBox h.1]
  apply List.ext_getElem?
  intro i
  rw [List.getElem?_mapIdx]
  cases e : v[i]? with
  | none => rfl
  | some x =>
    simp only [Option.map_some]
    split_ifs with ht
    · obtain ⟨n, rfl⟩ := h.2 i x ht e
      rw [truncZ_intCast]
    · rfl

theorem clipS_mem {smin smax : K} (h : smin ≤ smax) {s : List K} : ∀ v ∈ clipS smin smax s, smin ≤ v ∧ v ≤ smax := by
  intro v hv
  obtain ⟨w, -, rfl⟩ := List.mem_map.1 hv
  exact ⟨le_min (le_max_right _ _) h, min_le_right _ _⟩

/-- The folding really lands in `[smin, smax]`. -/
theorem fold_mem {smin smax : K} (h : smin ≤ smax) (s : K) : smin ≤ fold smin smax s ∧ fold smin smax s ≤ smax := by
  unfold fold
  simp only
  set y := (s - smin) / (smax - smin)
  have h1 : 0 ≤ y - ⌊y⌋ := by linarith [Int.floor_le y]
  have h2 : y - ⌊y⌋ < 1 := by linarith [Int.lt_floor_add_one y]
  rw [abs_of_nonneg h1]
  have hd : 0 ≤ smax - smin := by linarith
  split_ifs
  · constructor <;> nlinarith
  · constructor <;> nlinarith

/-- A mutated coordinate keeps the integrality of int variables. -/
theorem mutCoord_int {S : Space K} {smin smax : K} {d : MutDraw K} {i : ℕ} {xs ys : K × K}
    (h : mutCoord S smin smax d i xs = .ok ys) (ht : S.types[i]? = some .int) : ∃ n : ℤ, ys.1 = n := by
  unfold mutCoord at h
  rw [ht] at h
  cases hb : S.bounds[i]? with
  | none => rw [hb] at h; cases h
  | some b =>
    rw [hb] at h
    simp only at h
    split_ifs at h
    · cases h; exact ⟨_, rfl⟩
    · split at h
      · cases h
      · cases h; exact ⟨_, rfl⟩
    · cases h; exact ⟨_, rfl⟩

theorem mutES_ok {S : Space K} (hS : S.OK) {smin smax : K} (hs : smin ≤ smax) {d : MutDraw K} {ind strat ind' strat' : List K}
    (hl : ind.length = S.bounds.length) (hls : strat.length = S.bounds.length) (h : mutES S smin smax d ind strat = .ok (ind', strat')) :
    S.Feasible ind' ∧ strat'.length = S.bounds.length ∧ ∀ v ∈ strat', smin ≤ v ∧ v ≤ smax := by
  unfold mutES at h
  split at h
  · cases h
  rename_i l hm
  cases h
  obtain ⟨h1, h2⟩ := mapRows_ok hm
  have hc := S.length_clip hS hl
  have hll : l.length = S.bounds.length := by rw [h1, List.length_zip, hc, hls, min_self]
  refine ⟨?_, by simp [clipS, hll], clipS_mem hs⟩
  refine S.clip_feasible hS (by simp [hll]) ?_
  intro i x ht hx
  rw [List.getElem?_map] at hx
  cases e : l[i]? with
  | none => rw [e] at hx; cases hx
  | some p =>
    rw [e] at hx; cases hx
    obtain ⟨xs, -, hf⟩ := h2 i p e
    rw [Nat.zero_add] at hf
    exact mutCoord_int hf ht

theorem length_slice {p q : ℕ} {x y : List K} (h : x.length = y.length) (hpq : p ≤ q) (hq : q ≤ x.length) : (slice p q x y).length = x.length := by
  simp [slice]; omega

theorem slice_getElem? {p q : ℕ} {x y : List K} (h : x.length = y.length) (hpq : p ≤ q) (hq : q ≤ x.length) (i : ℕ) :
    (slice p q x y)[i]? = if p ≤ i ∧ i < q then y[i]? else x[i]? := by
  unfold slice
  rw [List.append_assoc]
  by_cases h1 : i < p
  · rw [List.getElem?_append_left (by simp; omega), List.getElem?_take, if_pos h1, if_neg (by omega)]
  · rw [List.getElem?_append_right (by simp; omega), List.length_take, min_eq_left (by omega)]
    by_cases h2 : i < q
    · rw [List.getElem?_append_left (by simp; omega), List.getElem?_take, if_pos (by omega), List.getElem?_drop, if_pos (by omega)]
      congr 1; omega
    · rw [List.getElem?_append_right (by simp; omega), if_neg (by omega)]
      rw [List.getElem?_drop, List.length_take, List.length_drop, ← h, min_eq_left (by omega)]
      congr 1; omega

theorem cxPoints_ok {size a b p q : ℕ} (h : cxPoints size a b = .ok (p, q)) : 1 ≤ p ∧ p < q ∧ q ≤ size := by
  unfold cxPoints at h
  split_ifs at h with h0
  have h1 := Nat.mod_lt a (show 0 < size by omega)
  have h2 := Nat.mod_lt b (show 0 < size - 1 by omega)
  simp only at h
  split_ifs at h with h3 <;> cases h <;> omega

theorem mem_slice {p q : ℕ} {x y : List K} {v : K} (h : v ∈ slice p q x y) : v ∈ x ∨ v ∈ y := by
  unfold slice at h
  rcases List.mem_append.1 h with h | h
  · rcases List.mem_append.1 h with h | h
    · exact Or.inl (List.mem_of_mem_take h)
    · exact Or.inr (List.mem_of_mem_drop (List.mem_of_mem_take h))
  · exact Or.inl (List.mem_of_mem_drop h)

end
end Neorl.ES

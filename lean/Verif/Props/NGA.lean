import Verif.NGA
import Verif.Props.Latin
import Mathlib.Data.Fintype.Card
import Mathlib.Data.List.Nodup
import Mathlib.Analysis.SpecialFunctions.Pow.Real

/-!
# Neural genetic algorithm: properties C72 to C74
-/

set_option linter.unusedSectionVars false
set_option linter.unusedVariables false

namespace Neorl.NGA

open Swarm (select)

section
variable {K : Type} [Field K] [LinearOrder K] [IsStrictOrderedRing K]

/-! ### Specification -/

/-- `c.root (n + 1)` is the non-negative root. -/
def RootAt (c : Conf K) (n : ℕ) : Prop := ∀ x : K, 0 ≤ x → 0 ≤ c.root (n + 1) x ∧ c.root (n + 1) x ^ (n + 1) = x

/-- The roots of the two operators are roots. -/
def RootOK (c : Conf K) : Prop := RootAt c c.nc ∧ RootAt c c.nm

/-- Uniform numbers lie in `[0, 1)`, shuffles permute. -/
structure Draws.OK (d : Draws K) : Prop where
  uW : ∀ i j, 0 ≤ d.uW i j ∧ d.uW i j < 1
  shW : ∀ i l, (d.shW i l).Perm l
  uP : ∀ i j, 0 ≤ d.uP i j ∧ d.uP i j < 1
  shP : ∀ i l, (d.shP i l).Perm l
  shuffle : ∀ r l, (d.shuffle r l).Perm l
  cross : ∀ t i j, (0 ≤ (d.cross t i).r1 j ∧ (d.cross t i).r1 j < 1) ∧ 0 ≤ (d.cross t i).r2 j ∧ (d.cross t i).r2 j < 1
  muts : ∀ t i j, (0 ≤ (d.muts t i j).1 ∧ (d.muts t i j).1 < 1) ∧ 0 ≤ (d.muts t i j).2 ∧ (d.muts t i j).2 < 1

/-- `h` is an individual of `pop` on which `a` and `b` agree most. -/
def AgreeMost (a b : List K → K) (pop : List (List K)) (h : List K) : Prop := h ∈ pop ∧ ∀ z ∈ pop, |a h - b h| ≤ |a z - b z|

/-! ### Operators -/

/-- The room between the parents' interval and the nearer bound. -/
def room (b : K × K) (x y : K) : K := min (min x y - b.1) (b.2 - max x y)

theorem root_le_one {c : Conf K} {n : ℕ} (hr : RootAt c n) {x : K} (h0 : 0 ≤ x) (h1 : x ≤ 1) : 0 ≤ c.root (n + 1) x ∧ c.root (n + 1) x ≤ 1 := by
  obtain ⟨a, b⟩ := hr x h0
  refine ⟨a, ?_⟩
  by_contra h
  push Not at h
  have := one_lt_pow₀ h (show n + 1 ≠ 0 from Nat.succ_ne_zero n)
  rw [b] at this
  linarith

theorem root_le {c : Conf K} {n : ℕ} (hr : RootAt c n) {x y : K} (h0 : 0 ≤ x) (hy : 0 ≤ y) (h1 : x ≤ y ^ (n + 1)) : c.root (n + 1) x ≤ y := by
  obtain ⟨a, b⟩ := hr x h0
  by_contra h
  push Not at h
  have := pow_lt_pow_left₀ h hy (show n + 1 ≠ 0 from Nat.succ_ne_zero n)
  rw [b] at this
  linarith

theorem le_root {c : Conf K} {n : ℕ} (hr : RootAt c n) {x y : K} (h0 : 0 ≤ x) (hy : 0 ≤ y) (h1 : y ^ (n + 1) ≤ x) : y ≤ c.root (n + 1) x := by
  obtain ⟨a, b⟩ := hr x h0
  by_contra h
  push Not at h
  have := pow_lt_pow_left₀ h a (show n + 1 ≠ 0 from Nat.succ_ne_zero n)
  rw [b] at this
  linarith

theorem alfa_m (b : K × K) (x y : K) :
    (if b.2 - max x y < min x y - b.1 then b.2 - max x y else min x y - b.1) = room b x y := by
  unfold room
  split_ifs with h
  · rw [min_eq_right h.le]
  · rw [min_eq_left (not_lt.1 h)]

/-- The spread factor times the distance of the parents never leaves the room on the narrower side. -/
theorem spread_mem {c : Conf K} (hr : RootOK c) {b : K × K} {x y r : K} (hx : b.1 ≤ x ∧ x ≤ b.2) (hy : b.1 ≤ y ∧ y ≤ b.2) (h0 : 0 ≤ r) (h1 : r < 1) :
    0 ≤ spread c (alfa c b (min x y) (max x y)) r * (max x y - min x y) ∧
    spread c (alfa c b (min x y) (max x y)) r * (max x y - min x y) ≤ max x y - min x y + 2 * room b x y := by
  have hm : 0 ≤ room b x y := by
    unfold room
    apply le_min
    · have := le_min hx.1 hy.1; linarith
    · have := max_le hx.2 hy.2; linarith
  rcases eq_or_lt_of_le (min_le_max (a := x) (b := y)) with he | hlt
  · rw [he, sub_self, mul_zero]
    exact ⟨le_rfl, by linarith⟩
  have hd : 0 < max x y - min x y := by linarith
  unfold alfa
  simp only [alfa_m]
  rw [if_neg hlt.ne]
  set m := room b x y
  set D := max x y - min x y
  set β := 1 + 2 * m / D with hβ
  have hβ1 : 1 ≤ β := by
    have : 0 ≤ 2 * m / D := by positivity
    linarith
  have hβ0 : 0 < β := by linarith
  have hβD : β * D = D + 2 * m := by rw [hβ]; field_simp
  set w := (1 / β) ^ (c.nc + 1) with hw
  have hw0 : 0 < w := by positivity
  have hw1 : w ≤ 1 := pow_le_one₀ (by positivity) (by rw [div_le_one hβ0]; exact hβ1)
  have key : 0 ≤ spread c (2 - w) r ∧ spread c (2 - w) r ≤ β := by
    unfold spread
    split_ifs with h
    · have ha : 0 < 2 - w := by linarith
      have : r * (2 - w) ≤ 1 := by rwa [le_div_iff₀ ha] at h
      have := root_le_one hr.1 (mul_nonneg h0 ha.le) this
      exact ⟨this.1, by linarith⟩
    · have ha : r * (2 - w) ≤ 2 - w := by nlinarith
      have hpos : 0 < 2 - r * (2 - w) := by linarith
      refine ⟨(hr.1 _ (by positivity)).1, root_le hr.1 (by positivity) hβ0.le ?_⟩
      have hwβ : w * β ^ (c.nc + 1) = 1 := by rw [hw, ← mul_pow, one_div, inv_mul_cancel₀ hβ0.ne', one_pow]
      rw [div_le_iff₀ hpos]
      have hb : 0 < β ^ (c.nc + 1) := by positivity
      nlinarith
  refine ⟨mul_nonneg key.1 hd.le, ?_⟩
  rw [← hβD]
  exact mul_le_mul_of_nonneg_right key.2 hd.le

theorem low_mem {c : Conf K} (hr : RootOK c) {b : K × K} {x y r : K} (hx : b.1 ≤ x ∧ x ≤ b.2) (hy : b.1 ≤ y ∧ y ≤ b.2) (h0 : 0 ≤ r) (h1 : r < 1) :
    min x y - room b x y ≤ low c b x y r ∧ low c b x y r ≤ (x + y) / 2 := by
  obtain ⟨a, b'⟩ := spread_mem hr hx hy h0 h1
  have hs := min_add_max x y
  unfold low
  constructor
  · nlinarith
  · nlinarith

theorem high_mem {c : Conf K} (hr : RootOK c) {b : K × K} {x y r : K} (hx : b.1 ≤ x ∧ x ≤ b.2) (hy : b.1 ≤ y ∧ y ≤ b.2) (h0 : 0 ≤ r) (h1 : r < 1) :
    (x + y) / 2 ≤ high c b x y r ∧ high c b x y r ≤ max x y + room b x y := by
  obtain ⟨a, b'⟩ := spread_mem hr hx hy h0 h1
  have hs := min_add_max x y
  unfold high
  constructor
  · nlinarith
  · nlinarith

theorem clip_id {b : K × K} {x : K} (h : b.1 ≤ x ∧ x ≤ b.2) : clip b x = x := by
  unfold clip
  rw [max_eq_left h.1, min_eq_left h.2]

theorem clip_mem {b : K × K} {x : K} (h : b.1 ≤ b.2) : b.1 ≤ clip b x ∧ clip b x ≤ b.2 := by
  unfold clip
  exact ⟨le_min (le_max_right _ _) h, min_le_right _ _⟩

theorem box_of {bs : List (K × K)} {v : List K} (hl : v.length = bs.length)
    (h : ∀ (d : ℕ) (x : K) (b : K × K), v[d]? = some x → bs[d]? = some b → b.1 ≤ x ∧ x ≤ b.2) : InBox bs v := by
  unfold InBox
  rw [List.forall₂_iff_get]
  exact ⟨hl.symm, fun i h1 h2 => h i _ _ (List.getElem?_eq_getElem h2) (List.getElem?_eq_getElem h1)⟩

theorem getD_mem {bs : List (K × K)} {v : List K} (hv : InBox bs v) {j : ℕ} {b : K × K} (hb : bs[j]? = some b) :
    v[j]? = some (v.getD j 0) ∧ b.1 ≤ v.getD j 0 ∧ v.getD j 0 ≤ b.2 := by
  have hj : j < v.length := by rw [hv.length_eq]; exact (List.getElem?_eq_some_iff.1 hb).1
  have h := List.getElem?_eq_getElem hj
  have : v.getD j 0 = v[j] := by simp [List.getD, h]
  rw [this]
  exact ⟨h, inBox_getElem? hv h hb⟩

/-- **C73.** Crossover.  Every coordinate of the first child lies at or below the middle of the parents and no further below the smaller one than the nearer bound is away from
the parents; the second child is the mirror image.  So both lie in the bounds and clipping changes nothing. -/
theorem C73_crossover {c : Conf K} (hr : RootOK c) {x y : List K} (hx : InBox c.bounds x) (hy : InBox c.bounds y) {r1 r2 : ℕ → K}
    (h1 : ∀ j, 0 ≤ r1 j ∧ r1 j < 1) (h2 : ∀ j, 0 ≤ r2 j ∧ r2 j < 1) :
    ∃ u v, children c x y r1 r2 = [u, v] ∧ InBox c.bounds u ∧ InBox c.bounds v ∧
    ∀ (j : ℕ) (b : K × K) (p q : K), c.bounds[j]? = some b → x[j]? = some p → y[j]? = some q →
      (∃ k, u[j]? = some k ∧ min p q - min (min p q - b.1) (b.2 - max p q) ≤ k ∧ k ≤ (p + q) / 2 ∧ k = low c b p q (r1 j)) ∧
      ∃ k, v[j]? = some k ∧ (p + q) / 2 ≤ k ∧ k ≤ max p q + min (min p q - b.1) (b.2 - max p q) ∧ k = high c b p q (r2 j) := by
  have hok : ∀ b ∈ c.bounds, b.1 ≤ b.2 := hx.boundsOK
  refine ⟨_, _, rfl, ?_, ?_, ?_⟩
  · apply box_of (by simp)
    intro d z b hz hb
    simp only [List.getElem?_mapIdx, hb, Option.map_some, Option.some.injEq] at hz
    rw [← hz]
    exact clip_mem (hok b (List.mem_of_getElem? hb))
  · apply box_of (by simp)
    intro d z b hz hb
    simp only [List.getElem?_mapIdx, hb, Option.map_some, Option.some.injEq] at hz
    rw [← hz]
    exact clip_mem (hok b (List.mem_of_getElem? hb))
  · intro j b p q hb hp hq
    have hp' := inBox_getElem? hx hp hb
    have hq' := inBox_getElem? hy hq hb
    have e1 : x.getD j 0 = p := by simp [List.getD, hp]
    have e2 : y.getD j 0 = q := by simp [List.getD, hq]
    simp only [List.getElem?_mapIdx, hb, Option.map_some, e1, e2]
    have a := low_mem hr hp' hq' (h1 j).1 (h1 j).2
    have a' := high_mem hr hp' hq' (h2 j).1 (h2 j).2
    have g1 : room b p q ≤ min p q - b.1 := min_le_left _ _
    have g2 : room b p q ≤ b.2 - max p q := min_le_right _ _
    have hs := min_add_max p q
    have hmM := min_le_max (a := p) (b := q)
    rw [clip_id ⟨by linarith, by linarith⟩, clip_id ⟨by linarith, by linarith⟩]
    exact ⟨⟨_, rfl, a.1, a.2, rfl⟩, _, rfl, a'.1, a'.2, rfl⟩

/-- **C73.** Where the parents agree the children agree with them. -/
theorem C73_crossover_equal {c : Conf K} {b : K × K} {p r : K} : low c b p p r = p ∧ high c b p p r = p := by
  unfold low high
  simp only [min_self, max_self]
  constructor <;> ring

/-- **C73.** Mutation of a gene: draws up to one half move it down, larger ones up, never further than the nearer bound. -/
theorem C73_mutation {c : Conf K} (hr : RootOK c) {b : K × K} (hb : b.1 < b.2) {x u : K} (hx : b.1 ≤ x ∧ x ≤ b.2) (h0 : 0 ≤ u) (h1 : u < 1) :
    |gene c b x u - x| ≤ min (x - b.1) (b.2 - x) ∧ (u ≤ 1 / 2 → gene c b x u ≤ x) ∧ (1 / 2 ≤ u → x ≤ gene c b x u) ∧
    b.1 ≤ gene c b x u ∧ gene c b x u ≤ b.2 := by
  have hD : 0 < b.2 - b.1 := by linarith
  have hm0 : 0 ≤ min (x - b.1) (b.2 - x) := le_min (by linarith) (by linarith)
  have hm1 : min (x - b.1) (b.2 - x) ≤ b.2 - b.1 := (min_le_left _ _).trans (by linarith)
  have htemp : (if x - b.1 < b.2 - x then 1 - (x - b.1) / (b.2 - b.1) else 1 - (b.2 - x) / (b.2 - b.1)) =
      1 - min (x - b.1) (b.2 - x) / (b.2 - b.1) := by
    split_ifs with h
    · rw [min_eq_left h.le]
    · rw [min_eq_right (not_lt.1 h)]
  set m := min (x - b.1) (b.2 - x) with hm
  set T := 1 - m / (b.2 - b.1) with hT
  have hT0 : 0 ≤ T := by
    have : m / (b.2 - b.1) ≤ 1 := by rw [div_le_one hD]; exact hm1
    linarith
  have hT1 : T ≤ 1 := by
    have : 0 ≤ m / (b.2 - b.1) := by positivity
    linarith
  have hTD : (1 - T) * (b.2 - b.1) = m := by rw [hT]; field_simp; ring
  have hp0 : 0 ≤ T ^ (c.nm + 1) := by positivity
  have hp1 : T ^ (c.nm + 1) ≤ 1 := pow_le_one₀ hT0 hT1
  have key : (u ≤ 1 / 2 → -m ≤ gene c b x u - x ∧ gene c b x u - x ≤ 0) ∧ (1 / 2 ≤ u → 0 ≤ gene c b x u - x ∧ gene c b x u - x ≤ m) := by
    unfold gene
    simp only [htemp]
    constructor
    · intro h
      rw [if_pos h]
      set P := T ^ (c.nm + 1)
      have hv : T ^ (c.nm + 1) ≤ 2 * u + (1 - 2 * u) * P := by
        show P ≤ _
        nlinarith
      have hv1 : 2 * u + (1 - 2 * u) * P ≤ 1 := by nlinarith
      have hv0 : 0 ≤ 2 * u + (1 - 2 * u) * P := le_trans hp0 hv
      have r1 := le_root hr.2 hv0 hT0 hv
      have r2 := (root_le_one hr.2 hv0 hv1).2
      constructor
      · nlinarith
      · nlinarith
    · intro h
      rcases eq_or_lt_of_le h with he | hlt
      · rw [if_pos he.symm.le, ← he]
        have e : 2 * (1 / 2 : K) + (1 - 2 * (1 / 2)) * T ^ (c.nm + 1) = 1 := by ring
        rw [e]
        have r1 := le_root hr.2 zero_le_one zero_le_one (one_pow _).le
        have r2 := (root_le_one hr.2 (x := 1) zero_le_one le_rfl).2
        have : c.root (c.nm + 1) 1 = 1 := le_antisymm r2 r1
        rw [this]
        constructor <;> nlinarith
      · rw [if_neg (not_le.2 hlt)]
        set P := T ^ (c.nm + 1)
        have hv : T ^ (c.nm + 1) ≤ 2 * (1 - u) + (2 * u - 1) * P := by
          show P ≤ _
          nlinarith
        have hv1 : 2 * (1 - u) + (2 * u - 1) * P ≤ 1 := by nlinarith
        have hv0 : 0 ≤ 2 * (1 - u) + (2 * u - 1) * P := le_trans hp0 hv
        have r1 := le_root hr.2 hv0 hT0 hv
        have r2 := (root_le_one hr.2 hv0 hv1).2
        constructor
        · nlinarith
        · nlinarith
  have g1 : m ≤ x - b.1 := min_le_left _ _
  have g2 : m ≤ b.2 - x := min_le_right _ _
  rcases le_total u (1 / 2) with h | h
  · obtain ⟨k1, k2⟩ := key.1 h
    exact ⟨abs_le.2 ⟨k1, by linarith⟩, fun _ => by linarith, fun h' => by linarith [(key.2 h').1], by linarith, by linarith⟩
  · obtain ⟨k1, k2⟩ := key.2 h
    exact ⟨abs_le.2 ⟨by linarith, k2⟩, fun h' => by linarith [(key.1 h').2], fun _ => by linarith, by linarith, by linarith⟩

/-! ### Pool and selection -/

theorem mutRow_inBox {c : Conf K} (hr : RootOK c) (hb : ∀ b ∈ c.bounds, b.1 < b.2) {dr : ℕ → K × K} (hd : ∀ j, 0 ≤ (dr j).2 ∧ (dr j).2 < 1)
    {row : List K} (h : InBox c.bounds row) : InBox c.bounds (mutRow c dr row) := by
  apply box_of (by simp [mutRow])
  intro j z b hz hbj
  simp only [mutRow, List.getElem?_mapIdx, hbj, Option.map_some, Option.some.injEq] at hz
  obtain ⟨_, h2⟩ := getD_mem h hbj
  rw [← hz]
  split_ifs
  · exact (C73_mutation hr (hb b (List.mem_of_getElem? hbj)) h2 (hd j).1 (hd j).2).2.2.2
  · exact h2

theorem crossover_ok {c : Conf K} {dr : ℕ → Cross K} {pop p : List (List K)} (h : crossover c dr pop = .ok p) :
    pop.length ≠ 1 ∧ p = pop ++ (List.range pop.length).flatMap (fun i =>
      children c (pop.getD i []) (pop.getD (((List.range pop.length).eraseIdx i).getD ((dr i).pick % ((List.range pop.length).eraseIdx i).length) 0) [])
        (dr i).r1 (dr i).r2) := by
  unfold crossover at h
  split_ifs at h with h1
  cases h
  exact ⟨h1, rfl⟩

theorem partner {n i k : ℕ} (hn : 2 ≤ n) (hi : i < n) :
    ((List.range n).eraseIdx i).getD (k % ((List.range n).eraseIdx i).length) 0 < n ∧
    ((List.range n).eraseIdx i).getD (k % ((List.range n).eraseIdx i).length) 0 ≠ i := by
  set l := (List.range n).eraseIdx i with hl
  have hlen : l.length = n - 1 := by rw [hl, List.length_eraseIdx_of_lt (by simpa using hi)]; simp
  have hk : k % l.length < l.length := Nat.mod_lt _ (by omega)
  have hm : l.getD (k % l.length) 0 ∈ l := by
    rw [List.getD_eq_getElem _ _ hk]
    exact List.getElem_mem hk
  rw [hl, List.mem_eraseIdx_iff_getElem] at hm
  obtain ⟨j, hj, h1, h2⟩ := hm
  simp only [List.length_range] at hj
  simp only [List.getElem_range] at h2
  rw [← h2]
  exact ⟨hj, h1⟩

theorem crossover_inBox {c : Conf K} (hr : RootOK c) {dr : ℕ → Cross K} (hd : ∀ i j, (0 ≤ (dr i).r1 j ∧ (dr i).r1 j < 1) ∧ 0 ≤ (dr i).r2 j ∧ (dr i).r2 j < 1)
    {pop p : List (List K)} (hp : ∀ x ∈ pop, InBox c.bounds x) (h : crossover c dr pop = .ok p) : ∀ x ∈ p, InBox c.bounds x := by
  obtain ⟨h1, rfl⟩ := crossover_ok h
  intro x hx
  rcases List.mem_append.1 hx with hx | hx
  · exact hp x hx
  obtain ⟨i, hi, hx⟩ := List.mem_flatMap.1 hx
  have hi' : i < pop.length := by simpa using hi
  have hn : 2 ≤ pop.length := by omega
  have hg : ∀ j, j < pop.length → InBox c.bounds (pop.getD j []) := by
    intro j hj
    rw [List.getD_eq_getElem _ _ hj]
    exact hp _ (List.getElem_mem hj)
  obtain ⟨u, v, e, hu, hv, _⟩ := C73_crossover hr (hg i hi') (hg _ (partner (k := (dr i).pick) hn hi').1) (fun j => (hd i j).1) (fun j => (hd i j).2)
  rw [e] at hx
  simp only [List.mem_cons, List.not_mem_nil, or_false] at hx
  rcases hx with rfl | rfl
  · exact hu
  · exact hv

theorem mutation_spec {c : Conf K} {dr : ℕ → ℕ → K × K} (n : ℕ) {pop p : List (List K)} (h : mutation c dr n pop = .ok p) :
    p.length = pop.length + n ∧ (∀ x ∈ pop, x ∈ p) ∧
    ∀ P : List K → Prop, (∀ x ∈ pop, P x) → (∀ i x, P x → P (mutRow c (dr i) x)) → ∀ x ∈ p, P x := by
  induction n generalizing p with
  | zero =>
    cases h
    exact ⟨rfl, fun x hx => hx, fun P h1 _ => h1⟩
  | succ n ih =>
    simp only [mutation] at h
    split at h
    · cases h
    rename_i q hq
    obtain ⟨i1, i2, i3⟩ := ih hq
    split at h
    · cases h
    rename_i row hrow
    cases h
    obtain ⟨hlt, hrow'⟩ := List.getElem?_eq_some_iff.1 hrow
    refine ⟨by simp; omega, ?_, ?_⟩
    · intro x hx
      obtain ⟨j, hj, rfl⟩ := List.mem_iff_getElem.1 (i2 x hx)
      by_cases hjn : j = n
      · subst hjn
        rw [hrow']
        simp
      · apply List.mem_append_left
        rw [List.mem_iff_getElem]
        exact ⟨j, by simpa using hj, by rw [List.getElem_set_ne (by omega)]⟩
    · intro P h1 h2 x hx
      have h3 := i3 P h1 h2
      have hPr : P row := h3 row (List.mem_of_getElem? hrow)
      rcases List.mem_append.1 hx with hx | hx
      · rcases List.mem_or_eq_of_mem_set hx with hx | rfl
        · exact h3 x hx
        · exact h2 n row hPr
      · rw [List.mem_singleton.1 hx]
        exact hPr

theorem mutation_total {c : Conf K} {dr : ℕ → ℕ → K × K} (n : ℕ) {pop : List (List K)} (h : pop ≠ []) : ∃ p, mutation c dr n pop = .ok p := by
  induction n with
  | zero => exact ⟨_, rfl⟩
  | succ n ih =>
    obtain ⟨q, hq⟩ := ih
    have hl := (mutation_spec n hq).1
    have : n < q.length := by
      have := List.length_pos_iff.2 h
      omega
    simp only [mutation, hq, List.getElem?_eq_getElem this]
    exact ⟨_, rfl⟩

theorem mem_uniqueRows {l : List (List K)} {x : List K} : x ∈ uniqueRows l ↔ x ∈ l := by
  unfold uniqueRows
  rw [List.mem_dedup, mem_sortAsc]

theorem nodup_uniqueRows (l : List (List K)) : (uniqueRows l).Nodup := List.nodup_dedup _

theorem selection_spec {n : ℕ} {sur : List K → K} {pool : List (List K)} (hn : pool.Nodup) :
    (selection n sur pool).Nodup ∧ (∀ x ∈ selection n sur pool, x ∈ pool) ∧ (selection n sur pool).length = min n pool.length ∧
    (∀ x ∈ selection n sur pool, ∀ z ∈ pool, z ∉ selection n sur pool → sur x ≤ sur z) ∧
    ∀ x, (selection n sur pool).head? = some x → ∀ z ∈ pool, sur x ≤ sur z := by
  have key : ∀ a b : List K, (sur a :: a.reverse) ≤ (sur b :: b.reverse) → sur a ≤ sur b := by
    intro a b h
    rcases lt_trichotomy (sur a) (sur b) with h1 | h1 | h1
    · exact h1.le
    · exact h1.le
    · exact absurd h (not_le.2 (List.Lex.rel h1))
  have hs := sortAsc_sorted (fun x => sur x :: x.reverse) pool
  unfold selection
  set L := sortAsc (fun x => sur x :: x.reverse) pool with hL
  have hperm : L.Perm pool := sortAsc_perm _ _
  refine ⟨(hperm.nodup_iff.2 hn).sublist (List.take_sublist _ _), fun x hx => hperm.mem_iff.1 (List.mem_of_mem_take hx),
    by rw [List.length_take, hperm.length_eq], ?_, ?_⟩
  · intro x hx z hz hzn
    have hzL := hperm.mem_iff.2 hz
    rw [← List.take_append_drop n L] at hzL hs
    rcases List.mem_append.1 hzL with h | h
    · exact absurd h hzn
    · exact key _ _ ((List.pairwise_append.1 hs).2.2 x hx z h)
  · intro x hx z hz
    have hzL := hperm.mem_iff.2 hz
    cases n with
    | zero => simp at hx
    | succ n =>
      cases hc : L with
      | nil => rw [hc] at hzL; simp at hzL
      | cons a l =>
        rw [hc] at hx hzL hs
        simp only [List.take_succ_cons, List.head?_cons, Option.some.injEq] at hx
        subst hx
        rcases List.mem_cons.1 hzL with rfl | h
        · exact le_rfl
        · exact key _ _ (List.rel_of_pairwise_cons hs h)

/-! ### Latin designs have no two equal rows -/

theorem latin_inj {n : ℕ} {bounds : List (K × K)} {u : ℕ → ℕ → K} (hu : ∀ i j, 0 ≤ u i j ∧ u i j < 1) {sh : ℕ → List K → List K}
    (hs : ∀ i l, (sh i l).Perm l) (hb : ∀ b ∈ bounds, b.1 ≤ b.2) (hn : n ≠ 0) :
    ∃ rows, design n bounds u sh = .ok rows ∧ rows.length = n ∧ (∀ r ∈ rows, InBox bounds r) ∧
    ∀ (k : ℕ) (b : K × K), bounds[k]? = some b → b.1 < b.2 → ∀ (i j : ℕ) (x : K), rows[i]?.bind (·[k]?) = some x → rows[j]?.bind (·[k]?) = some x → i = j := by
  obtain ⟨rows, h, hl, hbox, hstr⟩ := Latin.C54_latin hn hu hs hb
  refine ⟨rows, by unfold design; rw [h], hl, fun r hr => (hbox r hr).flip, ?_⟩
  intro k b hbk hlt
  have hst := hstr k b hbk hlt
  have hN : (0 : K) < n := by exact_mod_cast Nat.pos_of_ne_zero hn
  have hd : 0 < (b.2 - b.1) / (n : K) := div_pos (by linarith) hN
  choose f hf huniq using fun s : Fin n => hst s s.2
  have hinj : Function.Injective fun s : Fin n => (⟨f s, (hf s).1⟩ : Fin n) := by
    intro s t hst'
    have he : f s = f t := by simpa using hst'
    obtain ⟨_, x, hx, x1, x2⟩ := hf s
    obtain ⟨_, y, hy, y1, y2⟩ := hf t
    rw [he, hy] at hx
    cases hx
    have a : ((s : ℕ) : K) < (t : ℕ) + 1 := by
      by_contra hc
      push Not at hc
      nlinarith
    have b' : ((t : ℕ) : K) < (s : ℕ) + 1 := by
      by_contra hc
      push Not at hc
      nlinarith
    have a' : (s : ℕ) < t + 1 := by exact_mod_cast a
    have b'' : (t : ℕ) < s + 1 := by exact_mod_cast b'
    exact Fin.ext (by omega)
  have hsurj := Finite.injective_iff_surjective.1 hinj
  have hlen : ∀ i y, rows[i]?.bind (·[k]?) = some y → i < n := by
    intro i y hy
    rw [← hl]
    by_contra hc
    rw [List.getElem?_eq_none (by omega)] at hy
    cases hy
  intro i j x hi hj
  obtain ⟨s, hs1⟩ := hsurj ⟨i, hlen i x hi⟩
  have hs1' : f s = i := by simpa using hs1
  obtain ⟨h1, y, hy, hy'⟩ := hf s
  rw [hs1', hi] at hy
  cases hy
  have : j = f s := huniq s j ⟨hlen j x hj, x, hj, hy'⟩
  rw [this, hs1']

theorem design_ok {n : ℕ} {bounds : List (K × K)} {u : ℕ → ℕ → K} (hu : ∀ i j, 0 ≤ u i j ∧ u i j < 1) {sh : ℕ → List K → List K}
    (hs : ∀ i l, (sh i l).Perm l) (hb : ∀ b ∈ bounds, b.1 < b.2) (h0 : bounds ≠ []) (hn : n ≠ 0) :
    ∃ rows, design n bounds u sh = .ok rows ∧ rows.length = n ∧ (∀ r ∈ rows, InBox bounds r) ∧ rows.Nodup := by
  obtain ⟨rows, h1, h2, h3, h4⟩ := latin_inj hu hs (fun b h => (hb b h).le) hn
  refine ⟨rows, h1, h2, h3, ?_⟩
  obtain ⟨b, bs, rfl⟩ := List.exists_cons_of_ne_nil h0
  rw [List.nodup_iff_injective_get]
  intro i j hij
  have hlen : 0 < (rows.get i).length := by
    rw [(h3 _ (List.get_mem _ _)).length_eq]
    simp
  have e1 : rows[(i : ℕ)]? = some (rows.get i) := by simp
  have e2 : rows[(j : ℕ)]? = some (rows.get j) := by simp
  exact Fin.ext (h4 0 b rfl (hb b (by simp)) i j ((rows.get i)[0]) (by rw [e1]; simp)
    (by rw [e2, ← hij]; simp))

/-! ### The run -/

variable [FloorRing K]

theorem select_agree {a b : List K → K} {pop : List (List K)} {h : K × List K} (hs : select (fun x => |a x - b x|) pop = .ok h) : AgreeMost a b pop h.2 := by
  obtain ⟨h1, h2, h3⟩ := Swarm.select_inc hs
  exact ⟨h1, fun z hz => by
    have := h3 z hz
    rw [h2] at this
    exact this⟩

theorem extend_ok {c : Conf K} {call : ℕ} {train : List (List K × K)} {a b : List K → K} {pop : List (List K)} {p : List K → K}
    (h : extend c call train a b pop = .ok p) : ∃ x, AgreeMost a b pop x ∧ rbfn c call (train ++ [(x, (a x + b x) / 2)]) = .ok p := by
  unfold extend at h
  split at h
  · cases h
  · rename_i q hq
    exact ⟨q.2, select_agree hq, h⟩

theorem reset_ok {c : Conf K} {call : ℕ} {data : List (List K × K)} {ms : Models K} (h : reset c call data = .ok ms) :
    rbfn c call (data.take c.ntrain) = .ok ms.m0 ∧ rbfn c (call + 1) ((data.drop c.ntrain).take c.ntrain) = .ok ms.m1 ∧
    rbfn c (call + 2) (data.drop (c.nwarm - c.ntrain)) = .ok ms.m2 := by
  unfold reset at h
  have e : 2 * c.ntrain - c.ntrain = c.ntrain := by omega
  simp only [e] at h
  split at h
  · cases h
  rename_i m0 h0
  split at h
  · cases h
  rename_i m1 h1
  split at h
  · cases h
  rename_i m2 h2
  cases h
  exact ⟨h0, h1, h2⟩

theorem update_ok {c : Conf K} {call : ℕ} {data : List (List K × K)} {ms : Models K} {pop : List (List K)} {s : List K → K}
    (h : update c call data ms pop = .ok s) : ∃ p0 p1 p2, extend c call (data.take c.ntrain) ms.m1 ms.m2 pop = .ok p0 ∧
      extend c (call + 1) ((data.drop c.ntrain).take c.ntrain) ms.m0 ms.m2 pop = .ok p1 ∧
      extend c (call + 2) (data.drop (c.nwarm - c.ntrain)) ms.m0 ms.m1 pop = .ok p2 ∧ s = fun x => (p0 x + p1 x + p2 x) / 3 := by
  unfold update at h
  have e : 2 * c.ntrain - c.ntrain = c.ntrain := by omega
  simp only [e] at h
  split at h
  · cases h
  rename_i p0 h0
  split at h
  · cases h
  rename_i p1 h1
  split at h
  · cases h
  rename_i p2 h2
  cases h
  exact ⟨p0, p1, p2, h0, h1, h2, rfl⟩

theorem gen_ok {c : Conf K} {m : Bool} {d : Draws K} {t : ℕ} {s s' : State K} (h : gen c m d t s = .ok s') :
    ∃ sur p1 p2 first b, update c (6 * t + 3) s.data s.models s.pop = .ok sur ∧ crossover c (d.cross t) s.pop = .ok p1 ∧
      mutation c (d.muts t) c.npop p1 = .ok p2 ∧ (selection c.npop sur (uniqueRows p2)).head? = some first ∧ select sur (uniqueRows p2) = .ok b ∧
      s'.pop = selection c.npop sur (uniqueRows p2) ∧ s'.data = d.shuffle (t + 1) s.data ∧ reset c (6 * (t + 1)) s'.data = .ok s'.models ∧
      s'.best = s.best ++ [first] ∧ s'.locals = s.locals ++ [sgn m b.1] ∧
      s'.runs = s.runs ++ [{ sur := sur, pop := s.pop, pool := uniqueRows p2, data := s.data }] := by
  unfold gen at h
  split at h
  · cases h
  rename_i sur h1
  split at h
  · cases h
  rename_i p1 h2
  split at h
  · cases h
  rename_i p2 h3
  dsimp only at h
  split at h
  · rename_i first b h4 h5
    split at h
    · cases h
    rename_i ms h6
    cases h
    exact ⟨sur, p1, p2, first, b, h1, h2, h3, h4, h5, rfl, rfl, h6, rfl, rfl, rfl⟩
  · cases h

/-- What is known about generation `k`. -/
structure BlockOK (c : Conf K) (m : Bool) (data : List (List K × K)) (best : List (List K)) (locals : List K) (k : ℕ) (b : Block K) : Prop where
  sur : ∃ ms, reset c (6 * k) b.data = .ok ms ∧ update c (6 * k + 3) b.data ms b.pop = .ok b.sur
  perm : b.data.Perm data
  npop : b.pop.length = c.npop
  nodup : b.pop.Nodup
  poolNodup : b.pool.Nodup
  sub : ∀ x ∈ b.pop, x ∈ b.pool
  boxP : ∀ x ∈ b.pool, InBox c.bounds x
  res : ∃ x y, best[k]? = some x ∧ locals[k]? = some (sgn m y) ∧ x ∈ b.pool ∧ b.sur x = y ∧ ∀ z ∈ b.pool, y ≤ b.sur z

/-- Everything known after `g` generations. -/
structure Inv (c : Conf K) (m : Bool) (data : List (List K × K)) (g : ℕ) (s : State K) : Prop where
  npop : s.pop.length = c.npop
  nodup : s.pop.Nodup
  box : ∀ x ∈ s.pop, InBox c.bounds x
  perm : s.data.Perm data
  models : reset c (6 * g) s.data = .ok s.models
  nruns : s.runs.length = g
  nbest : s.best.length = g
  nloc : s.locals.length = g
  block : ∀ (k : ℕ) (b : Block K), s.runs[k]? = some b → BlockOK c m data s.best s.locals k b
  nextPop : ∀ k b, s.runs[k]? = some b →
    (∀ b', s.runs[k + 1]? = some b' → b'.pop = selection c.npop b.sur b.pool) ∧ (k + 1 = g → s.pop = selection c.npop b.sur b.pool)
  bestIn : ∀ x, s.best.getLast? = some x → x ∈ s.pop
  chain : ∀ k b x, s.runs[k + 1]? = some b → s.best[k]? = some x → x ∈ b.pop

theorem run_inv {c : Conf K} (hr : RootOK c) (hb : ∀ b ∈ c.bounds, b.1 < b.2) {m : Bool} {d : Draws K} (hd : d.OK) {data : List (List K × K)} {ms : Models K}
    (hms : reset c 0 data = .ok ms) {pop : List (List K)} (hn : pop.length = c.npop) (hnd : pop.Nodup) (hbox : ∀ x ∈ pop, InBox c.bounds x) (g : ℕ)
    {s : State K} (h : run c m d data ms pop g = .ok s) : Inv c m data g s := by
  induction g generalizing s with
  | zero =>
    cases h
    exact ⟨hn, hnd, hbox, List.Perm.refl _, hms, rfl, rfl, rfl, by simp, by simp, by simp, by simp⟩
  | succ g ih =>
    simp only [run] at h
    split at h
    · cases h
    rename_i s0 h0
    have hi := ih h0
    obtain ⟨sur, p1, p2, first, b, g1, g2, g3, g4, g5, g6, g7, g8, g9, g10, g11⟩ := gen_ok h
    have hp1 := crossover_inBox hr (fun i j => hd.cross g i j) hi.box g2
    obtain ⟨m1, m2, m3⟩ := mutation_spec _ g3
    have hp2 : ∀ x ∈ p2, InBox c.bounds x := m3 (InBox c.bounds) hp1 (fun i x hx => mutRow_inBox hr hb (fun j => (hd.muts g i j).2) hx)
    have hsub : ∀ x ∈ s0.pop, x ∈ uniqueRows p2 := fun x hx => mem_uniqueRows.2 (m2 x (by rw [(crossover_ok g2).2]; exact List.mem_append_left _ hx))
    have hpb : ∀ x ∈ uniqueRows p2, InBox c.bounds x := fun x hx => hp2 x (mem_uniqueRows.1 hx)
    obtain ⟨s1, s2, s3, _, s4⟩ := selection_spec (n := c.npop) (sur := sur) (nodup_uniqueRows p2)
    have hle : c.npop ≤ (uniqueRows p2).length := by
      rw [← hi.npop]
      exact (hi.nodup.subperm hsub).length_le
    have hfm : first ∈ selection c.npop sur (uniqueRows p2) := List.mem_of_head? g4
    have hlast : s.best.getLast? = some first := by rw [g9]; simp
    obtain ⟨i1, i2, i3⟩ := Swarm.select_inc g5
    have hres : first ∈ uniqueRows p2 ∧ sur first = b.1 ∧ ∀ z ∈ uniqueRows p2, b.1 ≤ sur z :=
      ⟨s2 _ hfm, le_antisymm (by rw [i2]; exact s4 first g4 _ i1) (i3 _ (s2 _ hfm)), i3⟩
    have hget : ∀ {α : Type} (l : List α) (a : α), l.length = g → (l ++ [a])[g]? = some a := by
      intro α l a hl
      rw [← hl]
      simp
    have hsplit : ∀ k bl, s.runs[k]? = some bl → (k < g ∧ s0.runs[k]? = some bl) ∨
        (k = g ∧ bl = { sur := sur, pop := s0.pop, pool := uniqueRows p2, data := s0.data }) := by
      intro k bl hk
      rw [g11] at hk
      rcases Nat.lt_or_ge k s0.runs.length with hlt | hge
      · rw [List.getElem?_append_left hlt] at hk
        exact Or.inl ⟨by rw [← hi.nruns]; exact hlt, hk⟩
      · rw [List.getElem?_append_right hge] at hk
        obtain ⟨e0, e1⟩ := List.getElem?_eq_some_iff.1 hk
        simp only [List.length_singleton] at e0
        have hk' : k = g := by rw [← hi.nruns]; omega
        subst hk'
        simp only [hi.nruns, Nat.sub_self, List.getElem_cons_zero] at e1
        exact Or.inr ⟨rfl, e1.symm⟩
    refine ⟨by rw [g6, s3]; omega, by rw [g6]; exact s1, by rw [g6]; exact fun x hx => hpb x (s2 x hx), by rw [g7]; exact (hd.shuffle _ _).trans hi.perm,
      g8, by simp [g11, hi.nruns], by simp [g9, hi.nbest], by simp [g10, hi.nloc], ?_, ?_, ?_, ?_⟩
    · intro k bl hk
      rcases hsplit k bl hk with ⟨hlt, hk'⟩ | ⟨rfl, rfl⟩
      · obtain ⟨q1, q2, q3, q4, q4', q5, q6, x, y, q7, q8, q9⟩ := hi.block k bl hk'
        refine ⟨q1, q2, q3, q4, q4', q5, q6, x, y, ?_, ?_, q9⟩
        · rw [g9, List.getElem?_append_left (by rw [hi.nbest]; exact hlt)]; exact q7
        · rw [g10, List.getElem?_append_left (by rw [hi.nloc]; exact hlt)]; exact q8
      · exact ⟨⟨_, hi.models, g1⟩, hi.perm, hi.npop, hi.nodup, nodup_uniqueRows _, hsub, hpb, first, b.1, by rw [g9]; exact hget _ _ hi.nbest,
          by rw [g10]; exact hget _ _ hi.nloc, hres⟩
    · intro k bl hk
      rcases hsplit k bl hk with ⟨hlt, hk'⟩ | ⟨rfl, rfl⟩
      · refine ⟨fun b' hb' => ?_, fun he => by omega⟩
        rcases hsplit _ b' hb' with ⟨hlt2, hk2⟩ | ⟨he2, rfl⟩
        · exact (hi.nextPop k bl hk').1 b' hk2
        · exact (hi.nextPop k bl hk').2 he2
      · refine ⟨fun b' hb' => ?_, fun _ => g6⟩
        have := (List.getElem?_eq_some_iff.1 hb').1
        rw [g11] at this
        simp [hi.nruns] at this
    · intro x hx
      rw [hlast] at hx
      cases hx
      rw [g6]
      exact hfm
    · intro k bl x hk hx
      have hkg : k < g := by
        rcases hsplit _ bl hk with ⟨h1, _⟩ | ⟨h1, _⟩ <;> omega
      have hx' : s0.best[k]? = some x := by
        rw [g9, List.getElem?_append_left (by rw [hi.nbest]; exact hkg)] at hx
        exact hx
      rcases hsplit _ bl hk with ⟨hlt, hk'⟩ | ⟨he, rfl⟩
      · exact hi.chain k bl x hk' hx'
      · apply hi.bestIn
        rw [List.getLast?_eq_getElem?, hi.nbest, ← he]
        exact hx'

theorem evolute_ok {c : Conf K} {m : Bool} {fit : List K → K} {d : Draws K} {r : Result K} (h : evolute c m fit d = .ok r) :
    c.bounds ≠ [] ∧ ∃ ms pop s, design c.nwarm c.bounds d.uW d.shW = .ok r.evals ∧
      reset c 0 (d.shuffle 0 (r.evals.map fun x => (x, sgn m (fit x)))) = .ok ms ∧ design c.npop c.bounds d.uP d.shP = .ok pop ∧
      run c m d (d.shuffle 0 (r.evals.map fun x => (x, sgn m (fit x)))) ms pop c.ngen = .ok s ∧ r.best = s.best ∧ r.locals = s.locals ∧ r.runs = s.runs := by
  unfold evolute at h
  split_ifs at h with h0
  split at h
  · cases h
  rename_i warm hw
  dsimp only at h
  split at h
  · cases h
  rename_i ms hm
  split at h
  · cases h
  rename_i pop hp
  split at h
  · cases h
  rename_i s hs
  cases h
  exact ⟨fun he => h0 (by rw [he]; rfl), ms, pop, s, hw, hm, hp, hs, rfl, rfl, rfl⟩

theorem evolute_inv {c : Conf K} (hr : RootOK c) (hb : ∀ b ∈ c.bounds, b.1 < b.2) {m : Bool} {fit : List K → K} {d : Draws K} (hd : d.OK)
    {r : Result K} (h : evolute c m fit d = .ok r) : r.evals.length = c.nwarm ∧ (∀ x ∈ r.evals, InBox c.bounds x) ∧
    ∃ s, Inv c m (d.shuffle 0 (r.evals.map fun x => (x, sgn m (fit x)))) c.ngen s ∧ r.best = s.best ∧ r.locals = s.locals ∧ r.runs = s.runs := by
  obtain ⟨h0, ms, pop, s, h1, h2, h3, h4, h5⟩ := evolute_ok h
  have hw : c.nwarm ≠ 0 := by
    intro he
    rw [he] at h1
    simp [design, Latin.latin] at h1
  have hn : c.npop ≠ 0 := by
    intro he
    rw [he] at h3
    simp [design, Latin.latin] at h3
  obtain ⟨rows, e1, e2, e3, _⟩ := design_ok hd.uW hd.shW hb h0 hw
  rw [h1] at e1
  cases e1
  obtain ⟨rows, f1, f2, f3, f4⟩ := design_ok hd.uP hd.shP hb h0 hn
  rw [h3] at f1
  cases f1
  exact ⟨e2, e3, s, run_inv hr hb hd h2 f2 f4 f3 _ h4, h5⟩

/-! ### Theorems -/

/-- **C72.** Without `num_warmups` exactly `20` points per variable are evaluated in the warm-up, otherwise as many as asked for. -/
theorem C72_warmups {c : Conf K} (hr : RootOK c) (hb : ∀ b ∈ c.bounds, b.1 < b.2) {m : Bool} {fit : List K → K} {d : Draws K} (hd : d.OK)
    {r : Result K} (h : evolute c m fit d = .ok r) : (c.warmups = none → r.evals.length = 20 * c.bounds.length) ∧ ∀ n, c.warmups = some n → r.evals.length = n := by
  have h1 := (evolute_inv hr hb hd h).1
  exact ⟨fun e => by rw [h1, Conf.nwarm, e]; rfl, fun n e => by rw [h1, Conf.nwarm, e]; rfl⟩

/-- **C72.** NGA returns one individual and one value per generation.  The individual lies in the bounds and is, among the pool of that generation, the best for the user's
mode according to that generation's prediction (`sgn m` undoes the negation for maximisation), and the value is its prediction.  The pool contains the whole population the
generation started from, in particular the individual returned for the generation before. -/
theorem C72_returned {c : Conf K} (hr : RootOK c) (hb : ∀ b ∈ c.bounds, b.1 < b.2) {m : Bool} {fit : List K → K} {d : Draws K} (hd : d.OK) {r : Result K}
    (h : evolute c m fit d = .ok r) : r.best.length = c.ngen ∧ r.locals.length = c.ngen ∧ r.runs.length = c.ngen ∧
    ∀ (k : ℕ) (b : Block K), r.runs[k]? = some b → (∀ x ∈ b.pop, x ∈ b.pool) ∧ (∀ x ∈ b.pool, InBox c.bounds x) ∧
      (∃ x y, r.best[k]? = some x ∧ r.locals[k]? = some y ∧ IsBest m (fun z => sgn m (b.sur z)) b.pool x y) ∧
      ∀ j x, k = j + 1 → r.best[j]? = some x → x ∈ b.pool := by
  obtain ⟨_, _, s, hi, h1, h2, h3⟩ := evolute_inv hr hb hd h
  rw [h1, h2, h3]
  refine ⟨hi.nbest, hi.nloc, hi.nruns, fun k b hk => ?_⟩
  obtain ⟨_, _, _, _, _, q5, q6, x, y, q7, q8, q9, q10, q11⟩ := hi.block k b hk
  refine ⟨q5, q6, ⟨x, _, q7, q8, q9, by simp only [q10], fun z hz => notWorse_sgn.2 (q11 z hz)⟩, fun j x hj hx => ?_⟩
  subst hj
  exact q5 x (hi.chain j b x hk hx)

/-- **C72.** How the surrogate of every generation is made.  The warmup samples are shuffled anew; the first, second and last `num_warmups / 3` of them, no sample used
twice and at most two unused, train three models on the true fitness (negated for maximisation).  Each model is then trained again with one more sample: an individual
of the population on which the other two agree most, labelled with their mean.  The prediction is the mean of the three. -/
theorem C72_surrogate {c : Conf K} (hr : RootOK c) (hb : ∀ b ∈ c.bounds, b.1 < b.2) {m : Bool} {fit : List K → K} {d : Draws K} (hd : d.OK) {r : Result K}
    (h : evolute c m fit d = .ok r) {k : ℕ} {b : Block K} (hk : r.runs[k]? = some b) :
    ∃ (T : ℕ → List (List K × K)) (rest : List (List K × K)) (w p : ℕ → List K → K) (x : ℕ → List K),
      (T 0 ++ T 1 ++ rest ++ T 2).Perm (r.evals.map fun x => (x, sgn m (fit x))) ∧ rest.length < 3 ∧
      (∀ i < 3, (T i).length = c.nwarm / 3 ∧ rbfn c (6 * k + i) (T i) = .ok (w i) ∧
        ∃ j l, j < 3 ∧ l < 3 ∧ j ≠ i ∧ l ≠ i ∧ j ≠ l ∧ AgreeMost (w j) (w l) b.pop (x i) ∧
          rbfn c (6 * k + 3 + i) (T i ++ [(x i, (w j (x i) + w l (x i)) / 2)]) = .ok (p i)) ∧
      ∀ z, b.sur z = (p 0 z + p 1 z + p 2 z) / 3 := by
  obtain ⟨hlen, _, s, hi, h1, h2, h3⟩ := evolute_inv hr hb hd h
  rw [h3] at hk
  obtain ⟨⟨ms, q1, q1'⟩, q2, _⟩ := hi.block k b hk
  have hdl : b.data.length = c.nwarm := by rw [q2.length_eq, (hd.shuffle _ _).length_eq]; simpa using hlen
  obtain ⟨e0, e1, e2⟩ := reset_ok q1
  obtain ⟨p0, p1, p2, u0, u1, u2, u3⟩ := update_ok q1'
  obtain ⟨x0, a0, f0⟩ := extend_ok u0
  obtain ⟨x1, a1, f1⟩ := extend_ok u1
  obtain ⟨x2, a2, f2⟩ := extend_ok u2
  have ht : c.ntrain = c.nwarm / 3 := rfl
  set t := c.ntrain with hT
  refine ⟨fun i => if i = 0 then b.data.take t else if i = 1 then (b.data.drop t).take t else b.data.drop (c.nwarm - t),
    (b.data.drop (t + t)).take (c.nwarm - t - (t + t)), fun i => if i = 0 then ms.m0 else if i = 1 then ms.m1 else ms.m2,
    fun i => if i = 0 then p0 else if i = 1 then p1 else p2, fun i => if i = 0 then x0 else if i = 1 then x1 else x2, ?_, ?_, ?_, ?_⟩
  · have : b.data = b.data.take t ++ (b.data.drop t).take t ++ (b.data.drop (t + t)).take (c.nwarm - t - (t + t)) ++ b.data.drop (c.nwarm - t) := by
      have d1 : b.data.take t ++ (b.data.drop t).take t = b.data.take (t + t) := (List.take_add (l := b.data)).symm
      have d2 : b.data.take (t + t) ++ (b.data.drop (t + t)).take (c.nwarm - t - (t + t)) = b.data.take (c.nwarm - t) := by
        rw [← List.take_add]
        congr 1
        omega
      rw [d1, d2, List.take_append_drop]
    simp only [if_true, if_neg (show (1 : ℕ) ≠ 0 by decide), if_neg (show (2 : ℕ) ≠ 0 by decide), if_neg (show (2 : ℕ) ≠ 1 by decide)]
    rw [← this]
    exact q2.trans (hd.shuffle _ _)
  · simp only [List.length_take, List.length_drop, hdl]
    omega
  · intro i hi3
    have : i = 0 ∨ i = 1 ∨ i = 2 := by omega
    rcases this with rfl | rfl | rfl
    · refine ⟨by simp [hdl]; omega, e0, 1, 2, by decide, by decide, by decide, by decide, by decide, a0, f0⟩
    · refine ⟨by simp [hdl]; omega, e1, 0, 2, by decide, by decide, by decide, by decide, by decide, a1, f1⟩
    · refine ⟨by simp [hdl]; omega, e2, 0, 1, by decide, by decide, by decide, by decide, by decide, a2, f2⟩
  · intro z
    rw [u3]
    rfl

/-- **C72.** The real fitness is evaluated exactly `num_warmups` times, in the bounds, whatever the number of generations. -/
theorem C72_evaluations {c : Conf K} (hr : RootOK c) (hb : ∀ b ∈ c.bounds, b.1 < b.2) {m : Bool} {fit : List K → K} {d : Draws K} (hd : d.OK) {r : Result K}
    (h : evolute c m fit d = .ok r) : r.evals.length = c.nwarm ∧ ∀ x ∈ r.evals, InBox c.bounds x := by
  obtain ⟨h1, h2, _⟩ := evolute_inv hr hb hd h
  exact ⟨h1, h2⟩

/-- **C72.** Every generation starts from `npop` pairwise different individuals; the next population are the `npop` best predicted of the pool. -/
theorem C72_population {c : Conf K} (hr : RootOK c) (hb : ∀ b ∈ c.bounds, b.1 < b.2) {m : Bool} {fit : List K → K} {d : Draws K} (hd : d.OK) {r : Result K}
    (h : evolute c m fit d = .ok r) {k : ℕ} {b : Block K} (hk : r.runs[k]? = some b) : b.pop.length = c.npop ∧ b.pop.Nodup ∧
    ∀ b', r.runs[k + 1]? = some b' → (∀ x ∈ b'.pop, x ∈ b.pool) ∧ ∀ x ∈ b'.pop, ∀ z ∈ b.pool, z ∉ b'.pop → b.sur x ≤ b.sur z := by
  obtain ⟨_, _, s, hi, h1, h2, h3⟩ := evolute_inv hr hb hd h
  rw [h3] at hk ⊢
  obtain ⟨_, _, q3, q4, hnd, _⟩ := hi.block k b hk
  refine ⟨q3, q4, fun b' hb' => ?_⟩
  rw [(hi.nextPop k b hk).1 b' hb']
  obtain ⟨s1, s2, s3, s4, _⟩ := selection_spec (n := c.npop) (sur := b.sur) hnd
  exact ⟨s2, s4⟩

theorem sigma_total {c : Conf K} {k : ℕ} (h : 2 ≤ k) (z : List (List K)) : ∃ s, sigma c k z = .ok s := by
  unfold sigma
  dsimp only
  rw [if_neg]
  · exact ⟨_, rfl⟩
  · intro h0
    rw [List.length_eq_zero_iff, List.flatMap_eq_nil_iff] at h0
    have := h0 0 (by simp; omega)
    rw [List.map_eq_nil_iff] at this
    have := congrArg List.length this
    simp at this
    omega

theorem rbfn_total {c : Conf K} (h : 2 ≤ c.nhidden) {call : ℕ} {data : List (List K × K)} (hl : c.nhidden ≤ data.length) : ∃ p, rbfn c call data = .ok p := by
  unfold rbfn
  dsimp only
  rw [if_neg (by omega)]
  obtain ⟨s, hs⟩ := sigma_total (c := c) h (c.km call c.nhidden (data.map fun e => e.1))
  rw [hs]
  exact ⟨_, rfl⟩

theorem reset_total {c : Conf K} (h : 2 ≤ c.nhidden) (hl : c.nhidden ≤ c.ntrain) {call : ℕ} {data : List (List K × K)} (hd : data.length = c.nwarm) :
    ∃ ms, reset c call data = .ok ms := by
  have ht : c.ntrain = c.nwarm / 3 := rfl
  obtain ⟨m0, h0⟩ := rbfn_total h (call := call) (data := data.take c.ntrain) (by simp; omega)
  obtain ⟨m1, h1⟩ := rbfn_total h (call := call + 1) (data := (data.drop c.ntrain).take (2 * c.ntrain - c.ntrain)) (by simp; omega)
  obtain ⟨m2, h2⟩ := rbfn_total h (call := call + 2) (data := data.drop (c.nwarm - c.ntrain)) (by simp; omega)
  unfold reset
  dsimp only
  rw [h0]
  dsimp only
  rw [h1]
  dsimp only
  rw [h2]
  exact ⟨_, rfl⟩

theorem extend_total {c : Conf K} (h : 2 ≤ c.nhidden) {call : ℕ} {train : List (List K × K)} (hl : c.nhidden ≤ train.length) {a b : List K → K}
    {pop : List (List K)} (hp : pop ≠ []) : ∃ p, extend c call train a b pop = .ok p := by
  unfold extend
  obtain ⟨q, hq⟩ := Swarm.select_total (f := fun x => |a x - b x|) hp
  rw [hq]
  exact rbfn_total h (by simp; omega)

theorem update_total {c : Conf K} (h : 2 ≤ c.nhidden) (hl : c.nhidden ≤ c.ntrain) {call : ℕ} {data : List (List K × K)} (hd : data.length = c.nwarm)
    {ms : Models K} {pop : List (List K)} (hp : pop ≠ []) : ∃ s, update c call data ms pop = .ok s := by
  have ht : c.ntrain = c.nwarm / 3 := rfl
  obtain ⟨m0, h0⟩ := extend_total h (call := call) (train := data.take c.ntrain) (a := ms.m1) (b := ms.m2) (by simp; omega) hp
  obtain ⟨m1, h1⟩ := extend_total h (call := call + 1) (train := (data.drop c.ntrain).take (2 * c.ntrain - c.ntrain)) (a := ms.m0) (b := ms.m2) (by simp; omega) hp
  obtain ⟨m2, h2⟩ := extend_total h (call := call + 2) (train := data.drop (c.nwarm - c.ntrain)) (a := ms.m0) (b := ms.m1) (by simp; omega) hp
  unfold update
  dsimp only
  rw [h0]
  dsimp only
  rw [h1]
  dsimp only
  rw [h2]
  exact ⟨_, rfl⟩

/-- **C72.** NGA returns: at least one variable, every lower bound below its upper bound, at least two individuals, at least two hidden units and no more than a third of the
warmup samples. -/
theorem C72_total {c : Conf K} (hr : RootOK c) (hb : ∀ b ∈ c.bounds, b.1 < b.2) (h0 : c.bounds ≠ []) (hn : 2 ≤ c.npop) (hh : 2 ≤ c.nhidden)
    (hl : c.nhidden ≤ c.nwarm / 3) {m : Bool} {fit : List K → K} {d : Draws K} (hd : d.OK) : ∃ r, evolute c m fit d = .ok r := by
  obtain ⟨warm, w1, w2, _⟩ := design_ok hd.uW hd.shW hb h0 (show c.nwarm ≠ 0 by omega)
  obtain ⟨pop, p1, p2, p3, p4⟩ := design_ok hd.uP hd.shP hb h0 (show c.npop ≠ 0 by omega)
  set data := d.shuffle 0 (warm.map fun x => (x, sgn m (fit x))) with hdata
  have hdl : data.length = c.nwarm := by rw [hdata, (hd.shuffle _ _).length_eq]; simpa using w2
  obtain ⟨ms, hms⟩ := reset_total hh hl (call := 0) hdl
  have hrun : ∀ g, ∃ s, run c m d data ms pop g = .ok s := by
    intro g
    induction g with
    | zero => exact ⟨_, rfl⟩
    | succ g ih =>
      obtain ⟨s, hs⟩ := ih
      have hi := run_inv hr hb hd hms p2 p4 p3 g hs
      have hne : s.pop ≠ [] := by
        intro he
        have := hi.npop
        rw [he] at this
        simp at this
        omega
      simp only [run, hs]
      obtain ⟨sur, h1⟩ := update_total hh hl (call := 6 * g + 3) (ms := s.models) (show s.data.length = c.nwarm by rw [hi.perm.length_eq, hdl]) hne
      obtain ⟨q1, h2⟩ : ∃ q1, crossover c (d.cross g) s.pop = .ok q1 := by
        unfold crossover
        rw [if_neg (by rw [hi.npop]; omega)]
        exact ⟨_, rfl⟩
      have hq1 : q1 ≠ [] := by
        rw [(crossover_ok h2).2]
        simp [hne]
      obtain ⟨q2, h3⟩ := mutation_total (c := c) (dr := d.muts g) c.npop hq1
      have hq2 : uniqueRows q2 ≠ [] := by
        obtain ⟨x, hx⟩ := List.exists_mem_of_ne_nil _ hq1
        exact List.ne_nil_of_mem (mem_uniqueRows.2 ((mutation_spec _ h3).2.1 x hx))
      obtain ⟨b, h4⟩ := Swarm.select_total (f := sur) hq2
      obtain ⟨first, h5⟩ : ∃ x, (selection c.npop sur (uniqueRows q2)).head? = some x := by
        cases hc : selection c.npop sur (uniqueRows q2) with
        | nil =>
          have := (selection_spec (n := c.npop) (sur := sur) (nodup_uniqueRows q2)).2.2.1
          rw [hc] at this
          have := List.length_pos_iff.2 hq2
          simp at *
          omega
        | cons a l => exact ⟨a, rfl⟩
      obtain ⟨ms', h6⟩ := reset_total hh hl (call := 6 * (g + 1)) (data := d.shuffle (g + 1) s.data)
        (by rw [(hd.shuffle _ _).length_eq, hi.perm.length_eq, hdl])
      unfold gen
      rw [h1]
      dsimp only
      rw [h2]
      dsimp only
      rw [h3]
      dsimp only
      rw [h5, h4]
      dsimp only
      rw [h6]
      exact ⟨_, rfl⟩
  obtain ⟨s, hs⟩ := hrun c.ngen
  unfold evolute
  rw [if_neg (by rwa [List.length_eq_zero_iff]), w1]
  dsimp only
  rw [hms]
  dsimp only
  rw [p1]
  dsimp only
  rw [hs]
  exact ⟨_, rfl⟩

/-- **C72.** The default number of hidden units is admissible as soon as there are twelve warmup samples, in particular with the default `20 * len(bounds)`. -/
theorem C72_default_hidden {c : Conf K} (h : c.hidden = none) (hw : 12 ≤ c.nwarm) : 2 ≤ c.nhidden ∧ c.nhidden ≤ c.nwarm / 3 := by
  have e : c.nhidden = Nat.sqrt (c.nwarm / 3) := by unfold Conf.nhidden; rw [h]; rfl
  rw [e]
  exact ⟨Nat.le_sqrt.2 (by omega), Nat.sqrt_le_self _⟩

/-- **C72.** With everything left to its default NGA returns for every problem with two or more individuals. -/
theorem C72_total_default {c : Conf K} (hr : RootOK c) (hb : ∀ b ∈ c.bounds, b.1 < b.2) (h0 : c.bounds ≠ []) (hn : 2 ≤ c.npop) (hh : c.hidden = none)
    (hw : c.warmups = none) {m : Bool} {fit : List K → K} {d : Draws K} (hd : d.OK) : ∃ r, evolute c m fit d = .ok r := by
  have : 12 ≤ c.nwarm := by
    unfold Conf.nwarm
    rw [hw]
    have := List.length_pos_iff.2 h0
    simp
    omega
  obtain ⟨a, b⟩ := C72_default_hidden hh this
  exact C72_total hr hb h0 hn a b hd

/-- **C74 (defect).** One hidden unit, which is the default for 3 to 11 warmup samples, divides by zero: the width of the kernels is computed from pairs of centers. -/
theorem C74_one_hidden {c : Conf K} (hb : ∀ b ∈ c.bounds, b.1 < b.2) (h0 : c.bounds ≠ []) (hw : 3 ≤ c.nwarm)
    (hh : c.hidden = some 1 ∨ c.hidden = none ∧ c.nwarm ≤ 11) {m : Bool} {fit : List K → K} {d : Draws K} (hd : d.OK) :
    evolute c m fit d = .error .zeroDivision := by
  have e : c.nhidden = 1 := by
    unfold Conf.nhidden
    rcases hh with h | ⟨h, h1⟩
    · rw [h]; rfl
    · rw [h]
      show Nat.sqrt c.ntrain = 1
      have ht : c.ntrain = c.nwarm / 3 := rfl
      apply le_antisymm
      · have : Nat.sqrt c.ntrain < 2 := Nat.sqrt_lt.2 (by omega)
        omega
      · exact Nat.le_sqrt.2 (by omega)
  obtain ⟨warm, w1, w2, _⟩ := design_ok hd.uW hd.shW hb h0 (show c.nwarm ≠ 0 by omega)
  unfold evolute
  rw [if_neg (by rwa [List.length_eq_zero_iff]), w1]
  have : rbfn c 0 ((d.shuffle 0 (warm.map fun x => (x, sgn m (fit x)))).take c.ntrain) = .error .zeroDivision := by
    have hl : ((d.shuffle 0 (warm.map fun x => (x, sgn m (fit x)))).take c.ntrain).length = c.ntrain := by
      have ht : c.ntrain = c.nwarm / 3 := rfl
      rw [List.length_take, (hd.shuffle _ _).length_eq]
      simp [w2]
      omega
    unfold rbfn
    dsimp only
    have ht : c.ntrain = c.nwarm / 3 := rfl
    rw [e, if_neg (by rw [hl]; omega)]
    rfl
  dsimp only
  unfold reset
  dsimp only
  rw [this]

/-- **C74 (defect).** Types are ignored: if an integer variable has fewer values than there are warmup samples, the fitness function gets a value that is not an integer. -/
theorem C74_not_integer {c : Conf K} (hr : RootOK c) (hb : ∀ b ∈ c.bounds, b.1 < b.2) {m : Bool} {fit : List K → K} {d : Draws K} (hd : d.OK) {r : Result K}
    (h : evolute c m fit d = .ok r) {i : ℕ} {lo hi : ℤ} (hi' : c.bounds[i]? = some ((lo : K), (hi : K))) (hn : hi - lo + 1 < c.nwarm) :
    ∃ x ∈ r.evals, ∃ v, x[i]? = some v ∧ ¬ ∃ z : ℤ, v = (z : K) := by
  by_contra hc
  push Not at hc
  obtain ⟨_, _, _, _, h1, _⟩ := evolute_ok h
  have hw : c.nwarm ≠ 0 := by
    intro he
    rw [he] at h1
    simp [design, Latin.latin] at h1
  obtain ⟨rows, e1, e2, e3, e4⟩ := latin_inj hd.uW hd.shW (fun b h => (hb b h).le) hw
  rw [h1] at e1
  cases e1
  have hlt := hb _ (List.mem_of_getElem? hi')
  have hinj := e4 i _ hi' hlt
  have hz : ∀ s : Fin r.evals.length, ∃ z : ℤ, (r.evals.get s)[i]? = some (z : K) ∧ z ∈ Finset.Icc lo hi := by
    intro s
    have hm := List.get_mem r.evals s
    have hbox := e3 _ hm
    have hlen : i < (r.evals.get s).length := by
      rw [hbox.length_eq]
      exact (List.getElem?_eq_some_iff.1 hi').1
    have hv := List.getElem?_eq_getElem hlen
    obtain ⟨z, hz⟩ := hc _ hm _ hv
    have hbz := inBox_getElem? hbox hv hi'
    rw [hz] at hv hbz
    dsimp only at hbz
    exact ⟨z, hv, Finset.mem_Icc.2 ⟨by exact_mod_cast hbz.1, by exact_mod_cast hbz.2⟩⟩
  choose f hf hm using hz
  have hfi : Function.Injective f := by
    intro s t hst
    have e1 : r.evals[(s : ℕ)]? = some (r.evals.get s) := by simp
    have e2 : r.evals[(t : ℕ)]? = some (r.evals.get t) := by simp
    exact Fin.ext (hinj s t (f s) (by rw [e1]; exact hf s) (by rw [e2, hst]; exact hf t))
  have := Finset.card_le_card_of_injOn (s := Finset.univ) (t := Finset.Icc lo hi) f (fun s _ => hm s) hfi.injOn
  simp only [Finset.card_univ, Fintype.card_fin, Int.card_Icc] at this
  rw [e2] at this
  omega

/-- **C74 (defect).** A population of one raises in the first generation. -/
theorem C74_one_individual {c : Conf K} (hr : RootOK c) (hb : ∀ b ∈ c.bounds, b.1 < b.2) (hn : c.npop = 1) (hg : c.ngen ≠ 0) {m : Bool} {fit : List K → K}
    {d : Draws K} (hd : d.OK) {r : Result K} : evolute c m fit d ≠ .ok r := by
  intro h
  obtain ⟨_, _, s, hi, _, _, h3⟩ := evolute_inv hr hb hd h
  obtain ⟨h0, ms, pop, s', h1, h2, h3', h4, _⟩ := evolute_ok h
  obtain ⟨rows, f1, f2, f3, f4⟩ := design_ok hd.uP hd.shP hb h0 (show c.npop ≠ 0 by omega)
  rw [h3'] at f1
  cases f1
  obtain ⟨g, hg'⟩ := Nat.exists_eq_succ_of_ne_zero hg
  rw [hg'] at h4
  simp only [run] at h4
  split at h4
  · cases h4
  rename_i s0 hs0
  have hi0 := run_inv hr hb hd h2 f2 f4 f3 _ hs0
  obtain ⟨sur, p1, p2, first, b, g1, g2, _⟩ := gen_ok h4
  exact (crossover_ok g2).1 (by rw [hi0.npop, hn])

end

/-! ### Concrete cases -/

/-- The real sixteenth roots of the code meet `RootOK`. -/
example (c : Conf ℝ) (h : c.root = fun (n : ℕ) (x : ℝ) => x ^ (1 / (n : ℝ))) : RootOK c := by
  have : ∀ n, RootAt c n := by
    intro n x hx
    rw [h]
    refine ⟨Real.rpow_nonneg hx _, ?_⟩
    dsimp only
    rw [one_div]
    exact Real.rpow_inv_natCast_pow hx (Nat.succ_ne_zero n)
  exact ⟨this _, this _⟩

/-- An integer variable with three values and a real one; rational stand-ins for the distances, the kernel and the pseudo-inverse. -/
def exC : Conf ℚ where
  bounds := [(0, 2), (-1, 1)]
  npop := 2
  warmups := some 7
  hidden := some 2
  ngen := 2
  nc := 0
  nm := 0
  km := fun _ k X => X.take k
  pinv := fun _ G Y => [Y.headD 0, Y.getLastD 0, 1]
  norm := fun v => (v.map fun x => |x|).sum
  kern := fun s d => s + d
  root := fun _ x => x

/-- Draws. -/
def exD : Draws ℚ where
  uW := fun i j => ((i + 2 * j) % 4 : ℕ) / 4
  shW := fun i l => if i = 0 then l.reverse else l
  uP := fun i j => ((i + j) % 3 : ℕ) / 3
  shP := fun i l => l
  shuffle := fun r l => if r = 0 then l.reverse else l
  cross := fun t i => { pick := t + i, r1 := fun j => ((t + i + j) % 5 : ℕ) / 5, r2 := fun j => ((t + 3 * i + j) % 5 : ℕ) / 5 }
  muts := fun t i j => (((t + i + j) % 3 : ℕ) / 3, ((2 * t + i + j) % 5 : ℕ) / 5)

/-- Fitness. -/
def exFit : List ℚ → ℚ := fun x => (x.map fun v => v * v).sum

theorem exC_root : RootOK exC := ⟨fun x hx => ⟨hx, pow_one x⟩, fun x hx => ⟨hx, pow_one x⟩⟩
theorem exC_bounds : (∀ b ∈ exC.bounds, b.1 < b.2) ∧ exC.bounds ≠ [] ∧ 2 ≤ exC.npop ∧ 2 ≤ exC.nhidden ∧ exC.nhidden ≤ exC.nwarm / 3 := by decide +kernel
theorem mod_mem (n : ℕ) {k : ℕ} (hk : k ≠ 0) : 0 ≤ ((n % k : ℕ) : ℚ) / k ∧ ((n % k : ℕ) : ℚ) / k < 1 := by
  have h0 : (0 : ℚ) < k := by exact_mod_cast Nat.pos_of_ne_zero hk
  have : ((n % k : ℕ) : ℚ) < k := by exact_mod_cast Nat.mod_lt n (Nat.pos_of_ne_zero hk)
  exact ⟨by positivity, by rw [div_lt_one h0]; exact this⟩
theorem exD_ok : exD.OK where
  uW := fun i j => mod_mem _ (k := 4) (by decide)
  shW := by
    intro i l
    show (if i = 0 then l.reverse else l).Perm l
    split_ifs
    · exact List.reverse_perm l
    · exact List.Perm.refl _
  uP := fun i j => mod_mem _ (k := 3) (by decide)
  shP := fun _ l => List.Perm.refl l
  shuffle := by
    intro i l
    show (if i = 0 then l.reverse else l).Perm l
    split_ifs
    · exact List.reverse_perm l
    · exact List.Perm.refl _
  cross := fun t i j => ⟨mod_mem _ (k := 5) (by decide), mod_mem _ (k := 5) (by decide)⟩
  muts := fun t i j => ⟨mod_mem _ (k := 3) (by decide), mod_mem _ (k := 5) (by decide)⟩

/-- Both modes run; for minimisation the returned values of the first variable, declared as an integer in `0..2`, are not integers. -/
example : (match evolute exC true exFit exD, evolute exC false exFit exD with
    | .ok r, .ok q => decide (r.best = [[2/3, 8/45], [158/225, 1117/5850]] ∧ q.best = [[0, -13/15], [0, -13/15]] ∧ r.evals.length = 7 ∧
        q.locals = [10708123/432180, 351848579/12965400])
    | _, _ => false) = true := by decide +kernel

/-- The hypothesis of `C74_not_integer`: three values, seven samples. -/
example : exC.bounds[0]? = some (((0 : ℤ) : ℚ), ((2 : ℤ) : ℚ)) ∧ (2 : ℤ) - 0 + 1 < exC.nwarm := by decide +kernel
/-- Four warmup samples and the default number of hidden units. -/
example : evolute { exC with warmups := some 4, hidden := none } true exFit exD = .error .zeroDivision :=
  C74_one_hidden (by decide +kernel) (by decide +kernel) (by decide +kernel) (Or.inr (by decide +kernel)) exD_ok
/-- Parents 0 and 1 in `[-1, 3]`: the room is 1, so the children stay in `[-1, 2]`. -/
example : low exC (-1, 3) 0 1 (1/2) = 1/12 ∧ low exC (-1, 3) 0 1 (9/10) = -1/2 ∧ high exC (-1, 3) 0 1 (9/10) = 3/2 ∧ room ((-1 : ℚ), 3) 0 1 = 1 ∧ gene exC (0, 4) 1 (1/4) = 1/2 := by decide +kernel

end Neorl.NGA

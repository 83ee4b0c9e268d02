import Verif.Latin
import Mathlib.Tactic.Ring
import Mathlib.Tactic.Linarith
import Mathlib.Tactic.Positivity
import Mathlib.Tactic.FieldSimp
import Mathlib.Algebra.Order.Field.Basic
import Mathlib.Data.List.GetD
import Mathlib.Data.List.Nodup

/-!
# Property theorems C54: the Latin hypercube design
-/

set_option linter.unusedSectionVars false
set_option linter.unusedVariables false

namespace Neorl.Latin

section
variable {K : Type} [Field K] [LinearOrder K] [IsStrictOrderedRing K]

/-- Interval number `s` of the `N` equal ones between `lo` and `hi`. -/
def InStratum (N : ℕ) (b : K × K) (s : ℕ) (x : K) : Prop :=
  b.1 + (s : K) * ((b.2 - b.1) / (N : K)) ≤ x ∧ x < b.1 + ((s : K) + 1) * ((b.2 - b.1) / (N : K))

theorem cell_mem {N : ℕ} (hN : N ≠ 0) {u : ℕ → K} (hu : ∀ j, 0 ≤ u j ∧ u j < 1) (j : ℕ) :
    (j : K) / N ≤ cell (1 / (N : K)) u j ∧ cell (1 / (N : K)) u j < ((j : K) + 1) / N := by
  have hp : (0 : K) < 1 / (N : K) := by have : (0 : K) < N := by exact_mod_cast Nat.pos_of_ne_zero hN
                                        positivity
  have e : cell (1 / (N : K)) u j = ((j : K) + u j) * (1 / N) := by unfold cell; ring
  rw [e, div_eq_mul_one_div, div_eq_mul_one_div ((j : K) + 1)]
  exact ⟨mul_le_mul_of_nonneg_right (by linarith [(hu j).1]) hp.le, mul_lt_mul_of_pos_right (by linarith [(hu j).2]) hp⟩

/-- Two strata of the unit interval do not overlap. -/
theorem stratum_unique {N : ℕ} (hN : N ≠ 0) {i j : ℕ} {x : K} (h1 : (i : K) / N ≤ x) (h2 : x < ((i : K) + 1) / N) (h3 : (j : K) / N ≤ x)
    (h4 : x < ((j : K) + 1) / N) : i = j := by
  have hp : (0 : K) < N := by exact_mod_cast Nat.pos_of_ne_zero hN
  have a : (i : K) / N < ((j : K) + 1) / N := lt_of_le_of_lt h1 h4
  have b : (j : K) / N < ((i : K) + 1) / N := lt_of_le_of_lt h3 h2
  rw [div_lt_div_iff_of_pos_right hp] at a b
  have a' : i < j + 1 := by exact_mod_cast a
  have b' : j < i + 1 := by exact_mod_cast b
  omega

/-- A column has exactly one row in every stratum. -/
theorem column_spec {N : ℕ} (hN : N ≠ 0) {u : ℕ → K} (hu : ∀ j, 0 ≤ u j ∧ u j < 1) {sh : List K → List K} (hs : ∀ l, (sh l).Perm l) {s : ℕ} (hlt : s < N) :
    (column N u sh).length = N ∧
    ∃! j, j < N ∧ (s : K) / N ≤ (column N u sh).getD j 0 ∧ (column N u sh).getD j 0 < ((s : K) + 1) / N := by
  have hp : (column N u sh).Perm ((List.range N).map (cell (1 / (N : K)) u)) := hs _
  have hlen : (column N u sh).length = N := by rw [hp.length_eq]; simp
  have hnd : (column N u sh).Nodup := by
    rw [hp.nodup_iff]
    refine List.Nodup.map_on ?_ List.nodup_range
    intro i _ j _ hij
    obtain ⟨a1, a2⟩ := cell_mem hN hu i
    obtain ⟨b1, b2⟩ := cell_mem hN hu j
    exact stratum_unique hN a1 a2 (hij ▸ b1) (hij ▸ b2)
  refine ⟨hlen, ?_⟩
  have hm : cell (1 / (N : K)) u s ∈ column N u sh := hp.mem_iff.2 (List.mem_map_of_mem (List.mem_range.2 hlt))
  obtain ⟨j, hj, e⟩ := List.mem_iff_getElem.1 hm
  refine ⟨j, ⟨by omega, ?_⟩, ?_⟩
  · rw [List.getD_eq_getElem _ _ hj, e]; exact cell_mem hN hu s
  · rintro k ⟨hk, h1, h2⟩
    have hk' : k < (column N u sh).length := by omega
    rw [List.getD_eq_getElem _ _ hk'] at h1 h2
    obtain ⟨i, _, ei⟩ := List.mem_map.1 (hp.mem_iff.1 (List.getElem_mem hk'))
    rw [← ei] at h1 h2
    obtain ⟨b1, b2⟩ := cell_mem hN hu i
    have : s = i := stratum_unique hN h1 h2 b1 b2
    subst this
    exact (List.Nodup.getElem_inj_iff hnd).1 (by rw [← ei, e])

/-- **C54.** For every sample size, box, draws and shuffles: the design has `N` rows of one value per variable, all inside the box, and in every variable
with a non-empty range every one of the `N` equal strata contains exactly one sample. -/
theorem C54_latin {N : ℕ} (hN : N ≠ 0) {bounds : List (K × K)} {u : ℕ → ℕ → K} (hu : ∀ i j, 0 ≤ u i j ∧ u i j < 1) {sh : ℕ → List K → List K}
    (hs : ∀ i l, (sh i l).Perm l) (hb : ∀ b ∈ bounds, b.1 ≤ b.2) :
    ∃ rows, latin N bounds u sh = .ok (some rows) ∧ rows.length = N ∧ (∀ r ∈ rows, List.Forall₂ (fun x b => b.1 ≤ x ∧ x ≤ b.2) r bounds) ∧
    ∀ (i : ℕ) (b : K × K), bounds[i]? = some b → b.1 < b.2 → ∀ s, s < N →
      ∃! j, j < N ∧ ∃ x, rows[j]?.bind (·[i]?) = some x ∧ InStratum N b s x := by
  have hp : (0 : K) < N := by exact_mod_cast Nat.pos_of_ne_zero hN
  have hrow : ∀ j i b, j < N → bounds[i]? = some b →
      (List.zipWith (fun (x : K) (b : K × K) => x * (b.2 - b.1) + b.1)
        (((List.range bounds.length).map (fun i => column N (u i) (sh i))).map (fun c => c.getD j 0)) bounds)[i]? =
      some ((column N (u i) (sh i)).getD j 0 * (b.2 - b.1) + b.1) := by
    intro j i b hj hb'
    have hi : i < bounds.length := (List.getElem?_eq_some_iff.1 hb').1
    rw [List.getElem?_zipWith, hb']
    simp [hi]
  have hunit : ∀ i j, j < N → 0 ≤ (column N (u i) (sh i)).getD j 0 ∧ (column N (u i) (sh i)).getD j 0 < 1 := by
    intro i j hj
    have hperm : (column N (u i) (sh i)).Perm ((List.range N).map (cell (1 / (N : K)) (u i))) := hs i _
    have hl : j < (column N (u i) (sh i)).length := by rw [hperm.length_eq]; simpa using hj
    rw [List.getD_eq_getElem _ _ hl]
    obtain ⟨k, hk, e⟩ := List.mem_map.1 (hperm.mem_iff.1 (List.getElem_mem hl))
    rw [← e]
    obtain ⟨a1, a2⟩ := cell_mem hN (hu i) k
    refine ⟨le_trans (by positivity) a1, lt_of_lt_of_le a2 ?_⟩
    rw [div_le_one hp]
    have := List.mem_range.1 hk
    exact_mod_cast this
  unfold latin
  rw [if_neg hN]
  dsimp only
  rw [if_neg (by
    simp only [List.any_eq_true, decide_eq_true_eq, not_exists, not_and, not_lt]
    exact hb)]
  refine ⟨_, rfl, by simp, ?_, ?_⟩
  · intro r hr
    simp only [List.map_map, List.mem_map, List.mem_range, Function.comp] at hr
    obtain ⟨j, hj, rfl⟩ := hr
    rw [List.forall₂_iff_get]
    refine ⟨by simp, ?_⟩
    intro i h1 h2
    simp only [List.get_eq_getElem]
    have hbi : bounds[i]? = some bounds[i] := List.getElem?_eq_getElem h2
    have := hrow j i _ hj hbi
    rw [List.getElem?_eq_some_iff] at this
    obtain ⟨_, e⟩ := this
    simp only [List.map_map] at e
    have e' : ∀ z : K, z = (column N (u i) (sh i)).getD j 0 * (bounds[i].2 - bounds[i].1) + bounds[i].1 → bounds[i].1 ≤ z ∧ z ≤ bounds[i].2 := by
      rintro z rfl
      obtain ⟨a1, a2⟩ := hunit i j hj
      have hle := hb _ (List.getElem_mem h2)
      constructor
      · nlinarith [mul_nonneg a1 (sub_nonneg.2 hle)]
      · nlinarith [mul_le_mul_of_nonneg_right a2.le (sub_nonneg.2 hle)]
    exact e' _ e
  · intro i b hbi hlt s hs'
    have hget : ∀ j, j < N → (List.map (fun row => List.zipWith (fun (x : K) (b : K × K) => x * (b.2 - b.1) + b.1) row bounds)
        ((List.range N).map (fun j => ((List.range bounds.length).map (fun i => column N (u i) (sh i))).map (fun c => c.getD j 0))))[j]?.bind (·[i]?) =
        some ((column N (u i) (sh i)).getD j 0 * (b.2 - b.1) + b.1) := by
      intro j hj
      rw [← hrow j i b hj hbi]
      simp [hj]
    have hiff : ∀ y : K, InStratum N b s (y * (b.2 - b.1) + b.1) ↔ (s : K) / N ≤ y ∧ y < ((s : K) + 1) / N := by
      intro y
      have hw : 0 < b.2 - b.1 := sub_pos.2 hlt
      unfold InStratum
      have e1 : b.1 + (s : K) * ((b.2 - b.1) / (N : K)) = (s : K) / N * (b.2 - b.1) + b.1 := by ring
      have e2 : b.1 + ((s : K) + 1) * ((b.2 - b.1) / (N : K)) = ((s : K) + 1) / N * (b.2 - b.1) + b.1 := by ring
      rw [e1, e2, add_le_add_iff_right, add_lt_add_iff_right, mul_le_mul_iff_left₀ hw, mul_lt_mul_iff_left₀ hw]
    obtain ⟨-, j, ⟨hj, h1⟩, huq⟩ := column_spec hN (hu i) (hs i) hs'
    refine ⟨j, ⟨hj, _, hget j hj, (hiff _).2 h1⟩, ?_⟩
    rintro k ⟨hk, x, hx, hin⟩
    rw [hget k hk] at hx
    cases hx
    exact huq k ⟨hk, (hiff _).1 hin⟩

/-- **C54.** A crossed pair of bounds gives `None`, no samples raise. -/
theorem C54_refuses {N : ℕ} {bounds : List (K × K)} {u : ℕ → ℕ → K} {sh : ℕ → List K → List K} :
    latin 0 bounds u sh = .error .zeroDivision ∧
    (N ≠ 0 → ∀ b ∈ bounds, b.2 < b.1 → latin N bounds u sh = .ok none) := by
  refine ⟨rfl, fun hN b hb hlt => ?_⟩
  unfold latin
  rw [if_neg hN]
  dsimp only
  rw [if_pos]
  rw [List.any_eq_true]
  exact ⟨b, hb, by simpa using hlt⟩

example : latin (K := ℚ) 3 [(0, 3), (-1, 1)] (fun _ j => 1 / ((j : ℚ) + 2)) (fun i l => if i = 0 then l.reverse else l) =
    .ok (some [[9 / 4, -2 / 3], [4 / 3, -1 / 9], [1 / 2, 1 / 2]]) := by decide +kernel

end
end Neorl.Latin

import Verif.AEO
import Mathlib.Data.Nat.Factorial.BigOperators
import Mathlib.Tactic.LinearCombination
import Mathlib.Data.List.GetD

/-!
# Property theorems C40-C42: ensemble optimisation, migration and annealing
-/

set_option linter.unusedSectionVars false
set_option linter.unusedVariables false

namespace Neorl.AEO

/-! ### The binomial coefficient -/

private theorem prod_down (n : ℕ) : ∀ m ≤ n, ((List.range m).map (fun i : ℕ => (n : ℤ) - (i : ℤ))).prod = (n.descFactorial m : ℤ)
  | 0, _ => by simp
  | m + 1, h => by
    rw [List.range_succ, List.map_append, List.prod_append, prod_down n m (by omega), Nat.descFactorial_succ]
    simp only [List.map_cons, List.map_nil, List.prod_singleton]
    push_cast [Nat.cast_sub (by omega : m ≤ n)]
    ring

private theorem prod_up : ∀ m : ℕ, ((List.range m).map (fun i : ℕ => (i : ℤ) + 1)).prod = (m.factorial : ℤ)
  | 0 => by simp
  | m + 1 => by
    rw [List.range_succ, List.map_append, List.prod_append, prod_up m, Nat.factorial_succ]
    simp only [List.map_cons, List.map_nil, List.prod_singleton]
    push_cast
    ring

/-- **C40.** `ncr` is the binomial coefficient. -/
theorem C40_ncr {n r : ℕ} (h : r ≤ n) : ncr n r = (n.choose r : ℤ) := by
  have key : ∀ m : ℕ, m ≤ n → (((List.range m).map (fun i : ℕ => (n : ℤ) - (i : ℤ))).foldl (· * ·) 1) /
      (((List.range m).map (fun i : ℕ => (i : ℤ) + 1)).foldl (· * ·) 1) = (n.choose m : ℤ) := by
    intro m hm
    rw [← List.prod_eq_foldl, ← List.prod_eq_foldl, prod_down n m hm, prod_up, Nat.choose_eq_descFactorial_div_factorial]
    exact (Int.natCast_div _ _).symm
  unfold ncr
  dsimp only
  by_cases h2 : r ≤ n - r
  · rw [show (min (r : ℤ) ((n : ℤ) - r)).toNat = r by omega]
    exact key r h
  · rw [show (min (r : ℤ) ((n : ℤ) - r)).toNat = n - r by omega, key _ (by omega), Nat.choose_symm h]

/-- Above the diagonal it is one, not zero. -/
theorem C40_ncr_above {n r : ℕ} (h : n < r) : ncr n r = 1 := by
  unfold ncr
  dsimp only
  rw [show (min (r : ℤ) ((n : ℤ) - r)).toNat = 0 by omega]
  simp

section
variable {K : Type} [Field K] [LinearOrder K] [IsStrictOrderedRing K]

private theorem sum_range_list (f : ℕ → K) (n : ℕ) : ((List.range n).map f).sum = ∑ k ∈ Finset.range n, f k := by
  induction n with
  | zero => simp
  | succ n ih => rw [List.range_succ, List.map_append, List.sum_append, ih, Finset.sum_range_succ]; simp

/-- The inner loop of `fill_M` computes the expected exported fraction, which is the binomial parameter itself. -/
theorem tot_eq {n : ℕ} (hn : n ≠ 0) (h : K) : tot n h = h := by
  obtain ⟨m, rfl⟩ := Nat.exists_eq_succ_of_ne_zero hn
  unfold tot
  rw [sum_range_list, Finset.sum_range_succ']
  have e : ∀ k ∈ Finset.range (m + 1), ((k + 1 : ℕ) : K) / ((m.succ : ℕ) : K) * ((ncr (m.succ : ℕ) (k + 1 : ℕ) : ℤ) : K) * h ^ (k + 1) *
      (1 - h) ^ (m.succ - (k + 1)) = h * (h ^ k * (1 - h) ^ (m - k) * (m.choose k : K)) := by
    intro k hk
    have hk' : k ≤ m := by have := Finset.mem_range.1 hk; omega
    rw [C40_ncr (by omega)]
    have hc : ((m + 1 : ℕ) : K) * (m.choose k : K) = ((m + 1).choose (k + 1) : K) * ((k + 1 : ℕ) : K) := by
      exact_mod_cast Nat.add_one_mul_choose_eq m k
    have hm0 : ((m.succ : ℕ) : K) ≠ 0 := Nat.cast_ne_zero.2 (by omega)
    rw [show m.succ - (k + 1) = m - k by omega]
    push_cast at hc hm0 ⊢
    field_simp
    linear_combination (- (1 - h) ^ (m - k) * h ^ (k + 1)) * hc
  rw [Finset.sum_congr rfl e, ← Finset.mul_sum, ← add_pow]
  simp

/-- **C40.** Every column of the migration matrix is a probability vector: the entries are non-negative and sum to one, for all member counts
(empty populations included), export weights in `[0, 1]` and destination probabilities. -/
theorem C40_columns {h scale : List K} {nmems : List ℕ} {i : ℕ} (hi : i < nmems.length) (hs : scale.length = nmems.length)
    (h0 : ∀ x ∈ h, 0 ≤ x ∧ x ≤ 1) (hpos : ∀ x ∈ scale, 0 ≤ x) (hsum : scale.sum = 1) :
    (∀ j < nmems.length, 0 ≤ mEntry h scale nmems j i) ∧
    ((List.range nmems.length).map (fun j => mEntry h scale nmems j i)).sum = 1 := by
  have hI : (0 : K) < (nmems.length : K) := Nat.cast_pos.2 (by omega)
  have hh : 0 ≤ h.getD i 0 ∧ h.getD i 0 ≤ 1 := by
    rw [List.getD_eq_getElem?_getD]
    cases e : h[i]? with
    | none => simp
    | some x => exact h0 x (List.mem_of_getElem? e)
  have hsc : ∀ j, 0 ≤ scale.getD j 0 := by
    intro j
    rw [List.getD_eq_getElem?_getD]
    cases e : scale[j]? with
    | none => simp
    | some x => exact hpos x (List.mem_of_getElem? e)
  by_cases hn : nmems.getD i 0 = 0
  · have e : ∀ j, mEntry h scale nmems j i = 1 / (nmems.length : K) := fun j => by unfold mEntry; simp only [hn, if_true]
    refine ⟨fun j _ => by rw [e]; positivity, ?_⟩
    simp only [e, List.map_const', List.length_range, List.sum_replicate, nsmul_eq_mul]
    field_simp
  · have e : ∀ j, mEntry h scale nmems j i = (if i = j then 1 else 0) * (1 - h.getD i 0) + scale.getD j 0 * h.getD i 0 := fun j => by
      unfold mEntry; simp only [hn, if_false, tot_eq hn]; ring
    refine ⟨fun j _ => ?_, ?_⟩
    · rw [e]
      have := hsc j
      split_ifs <;> nlinarith [hh.1, hh.2, mul_nonneg this hh.1]
    · simp only [e]
      rw [sum_range_list, Finset.sum_add_distrib, ← Finset.sum_mul, ← Finset.sum_mul, Finset.sum_ite_eq,
        if_pos (Finset.mem_range.2 hi), ← sum_range_list]
      have : (List.range nmems.length).map (fun j => scale.getD j 0) = scale := by
        apply List.ext_getElem
        · simp [hs]
        · intro k h1 h2
          simp [List.getD_eq_getElem?_getD, h2]
      rw [this, hsum]; ring

/-- **C40.** Its meaning: a member of population `i` stays unexported with probability `1 - h i` and otherwise moves to `j` with the destination
probability. -/
theorem C40_entry {h scale : List K} {nmems : List ℕ} {i j : ℕ} (hn : nmems.getD i 0 ≠ 0) :
    mEntry h scale nmems j i = (if i = j then 1 - h.getD i 0 else 0) + h.getD i 0 * scale.getD j 0 := by
  unfold mEntry
  simp only [hn, if_false, tot_eq hn]
  split_ifs <;> ring

/-! ### Schedules -/

/-- **C40.** `alpha` and `beta` schedules run from 0 to 1 (or back) and stay in `[0, 1]`; `q` runs from -1 to 1 (or back) and stays in `[-1, 1]`. -/
theorem C40_schedules {ncyc N : ℕ} (h1 : 1 ≤ ncyc) (h2 : ncyc ≤ N) (hN : 2 ≤ N) :
    (∃ a b c d : K, alphabeta .up ncyc N = .ok a ∧ alphabeta .down ncyc N = .ok b ∧ getQ .up ncyc N = .ok c ∧
      getQ .down ncyc N = .ok d ∧ 0 ≤ a ∧ a ≤ 1 ∧ a + b = 1 ∧ c = 2 * a - 1 ∧ c + d = 0) ∧
    alphabeta (K := K) .up 1 N = .ok 0 ∧ alphabeta (K := K) .up N N = .ok 1 := by
  have hN1 : N ≠ 1 := by omega
  have h2' : (2 : K) ≤ (N : K) := by exact_mod_cast hN
  have hpos : (0 : K) < (N : K) - 1 := by linarith
  have hne : (1 : K) - (N : K) ≠ 0 := by linarith
  have ha : (1 : K) ≤ (ncyc : K) := by exact_mod_cast h1
  have hb : (ncyc : K) ≤ (N : K) := by exact_mod_cast h2
  refine ⟨⟨((ncyc : K) - 1) / ((N : K) - 1), 1 - ((ncyc : K) - 1) / ((N : K) - 1), 2 / (1 - (N : K)) * (1 - (ncyc : K)) - 1,
    2 / (1 - (N : K)) * ((ncyc : K) - 1) + 1, by simp [alphabeta, hN1], by simp only [alphabeta, hN1, if_false],
    by simp only [getQ, hN1, if_false], by simp only [getQ, hN1, if_false], ?_, ?_, by ring, ?_, by ring⟩, ?_, ?_⟩
  · exact div_nonneg (by linarith) hpos.le
  · rw [div_le_one hpos]; linarith
  · field_simp
    ring
  · simp [alphabeta, hN1]
  · simp only [alphabeta, hN1, if_false, div_self hpos.ne']

/-- **C40, defect.** With a single cycle every annealed option divides by zero, whatever the populations. -/
theorem C40_one_cycle (n : ℕ) : alphabeta (K := K) .up n 1 = .error .zeroDivision ∧ alphabeta (K := K) .down n 1 = .error .zeroDivision ∧
    getQ (K := K) .up n 1 = .error .zeroDivision ∧ getQ (K := K) .down n 1 = .error .zeroDivision := by
  simp [alphabeta, getQ]

/-! ### Annealing -/

/-- The uniform ramp over the whole run. -/
def ramp (total : ℕ) : List K := (List.range total).map (fun k : ℕ => (k : K) / ((total : K) - 1))

private theorem frac_eq {c N g : ℕ} (ht : N * g ≠ 1) (h0 : 1 ≤ c) :
    (frac c N g : Py (List K)) = .ok ((List.range g).map (fun j : ℕ => (((c - 1) * g + j : ℕ) : K) / ((N * g : ℕ) - 1))) := by
  unfold frac
  simp only [ht, if_false]
  congr 1
  unfold linspace
  have hc : ((c : K) - 1) = ((c - 1 : ℕ) : K) := by rw [Nat.cast_sub h0]; simp
  split_ifs with hg
  · subst hg
    simp [hc]
  · apply List.map_congr_left
    intro j hj
    by_cases hg0 : g = 0
    · subst hg0; simp at hj
    · have hg2 : (g : K) - 1 ≠ 0 := by
        have : (2 : K) ≤ (g : K) := by exact_mod_cast (by omega : 2 ≤ g)
        linarith
      have hD : ((N * g : ℕ) : K) - 1 ≠ 0 := by
        intro hcon
        apply ht
        have : ((N * g : ℕ) : K) = ((1 : ℕ) : K) := by push_cast at hcon ⊢; linarith
        exact_mod_cast this
      rw [hc]
      push_cast at hD ⊢
      field_simp
      ring

private theorem range_blocks (N g : ℕ) : (List.range N).flatMap (fun c => (List.range g).map (fun j => c * g + j)) = List.range (N * g) := by
  induction N with
  | zero => simp
  | succ N ih =>
    rw [List.range_succ, List.flatMap_append, ih]
    simp only [List.flatMap_cons, List.flatMap_nil, List.append_nil]
    rw [Nat.succ_mul, List.range_add]

/-- **C42.** The fractions used in cycles `1, 2, …, N` are, end to end, the uniform ramp from 0 to 1 over all `N * g` generations; each cycle
gets exactly `g` of them. -/
theorem C42_joins {N g : ℕ} (ht : N * g ≠ 1) :
    ∃ fr : ℕ → List K, (∀ c, 1 ≤ c → frac c N g = .ok (fr c)) ∧ (∀ c, (fr c).length = g) ∧
      (List.range N).flatMap (fun c => fr (c + 1)) = ramp (N * g) := by
  refine ⟨fun c => (List.range g).map (fun j : ℕ => (((c - 1) * g + j : ℕ) : K) / ((N * g : ℕ) - 1)), fun c hc => frac_eq ht hc, by simp, ?_⟩
  unfold ramp
  rw [← range_blocks N g, List.map_flatMap]
  simp only [Nat.add_sub_cancel, List.map_map]
  rfl

/-- The ramp starts at 0, ends at 1 and has equal steps. -/
theorem C42_ramp {T : ℕ} (hT : 2 ≤ T) :
    (ramp T : List K)[0]? = some 0 ∧ (ramp T : List K)[T - 1]? = some 1 ∧ (ramp T : List K).length = T ∧
    ∀ (k : ℕ) (a b : K), (ramp T)[k]? = some a → (ramp T)[k + 1]? = some b → b - a = 1 / ((T : K) - 1) := by
  have h2 : (2 : K) ≤ (T : K) := by exact_mod_cast hT
  have hne : (T : K) - 1 ≠ 0 := by linarith
  refine ⟨?_, ?_, by simp [ramp], ?_⟩
  · simp [ramp, List.getElem?_range (show 0 < T by omega)]
  · simp only [ramp, List.getElem?_map, List.getElem?_range (show T - 1 < T by omega), Option.map_some]
    rw [Nat.cast_sub (by omega)]
    simp [div_self hne]
  · intro k a b ha hb
    simp only [ramp, List.getElem?_map] at ha hb
    cases e : (List.range T)[k]? with
    | none => rw [e] at ha; cases ha
    | some i =>
      cases e' : (List.range T)[k + 1]? with
      | none => rw [e'] at hb; cases hb
      | some i' =>
        rw [e] at ha; rw [e'] at hb
        cases ha; cases hb
        rw [List.getElem?_eq_some_iff] at e e'
        obtain ⟨_, rfl⟩ := e
        obtain ⟨_, rfl⟩ := e'
        simp only [List.getElem_range]
        push_cast
        field_simp
        ring

/-- Specification: over cycles `1 … N` of `g` generations the keyword `key` is a list of `g` values per cycle, and these lists are, end to end, the
values of `f` along the uniform ramp from 0 to 1. -/
def Anneals (o : Opt K) (N g : ℕ) (key : String) (f : K → K) : Prop :=
  ∃ l : ℕ → List K, (∀ c, 1 ≤ c → ∃ kw, annealed o c N g = .ok kw ∧ kw.lookup key = some (l c)) ∧ (∀ c, (l c).length = g) ∧
    (List.range N).flatMap (fun c => l (c + 1)) = (List.range (N * g)).map (fun k : ℕ => f ((k : K) / (((N * g : ℕ) : K) - 1)))

private theorem anneals_of {o : Opt K} {N g : ℕ} (ht : N * g ≠ 1) {key : String} {f : K → K}
    (h : ∀ c fr, frac c N g = .ok fr → ∃ kw, annealed o c N g = .ok kw ∧ kw.lookup key = some (fr.map f)) : Anneals o N g key f := by
  obtain ⟨fr, h1, h2, h3⟩ := C42_joins (K := K) (N := N) (g := g) ht
  refine ⟨fun c => (fr c).map f, fun c hc => h c _ (h1 c hc), by simp [h2], ?_⟩
  rw [← List.map_flatMap, h3]
  simp [ramp]

/-- **C42.** The annealed parameters are uniform ramps (`c1` an exponential of one) over the whole run, whatever the number of cycles and generations:
`a` and `E1` from 2 to 0, `fac` and `r` from -1 to -2, `w` from `wmax` to `wmin`. -/
theorem C42_kwargs {o : Opt K} {N g : ℕ} (ht : N * g ≠ 1) :
    (o.algo = .gwo → Anneals o N g "a" (fun t => 2 - 2 * t)) ∧
    (o.algo = .woa → Anneals o N g "a" (fun t => 2 - 2 * t) ∧ Anneals o N g "fac" (fun t => -1 - t)) ∧
    (o.algo = .hho → Anneals o N g "E1" (fun t => 2 - 2 * t)) ∧
    (o.algo = .mfo → Anneals o N g "r" (fun t => -1 - t)) ∧
    (o.algo = .pso → o.timew = true → Anneals o N g "w" (fun t => (1 - t) * o.wmax + t * o.wmin)) ∧
    (o.algo = .ssa → Anneals o N g "c1" (fun t => 2 * o.expf (-(16 * t ^ 2)))) := by
  have e1 : (fun t : K => 2 - 2 * t) = fun f => 2 + (0 - 2) * f := by funext t; ring
  have e2 : (fun t : K => -1 - t) = fun f => -1 + (-2 - -1) * f := by funext t; ring
  have e3 : (fun t : K => (1 - t) * o.wmax + t * o.wmin) = fun f => o.wmax + (o.wmin - o.wmax) * f := by funext t; ring
  have e4 : (fun t : K => 2 * o.expf (-(16 * t ^ 2))) = fun f => 2 * o.expf (-(4 * f) ^ 2) := by
    funext t; rw [show 16 * t ^ 2 = (4 * t) ^ 2 by ring]
  rw [e1, e2, e3, e4]
  refine ⟨fun h => anneals_of ht ?_, fun h => ⟨anneals_of ht ?_, anneals_of ht ?_⟩, fun h => anneals_of ht ?_,
    fun h => anneals_of ht ?_, fun h hw => anneals_of ht ?_, fun h => anneals_of ht ?_⟩ <;>
  · intro c fr hfr
    first
    | exact ⟨_, by simp only [annealed, hfr, h, hw, if_true], rfl⟩
    | (refine ⟨_, by simp only [annealed, hfr, h]; rfl, ?_⟩; first | rfl | simp [*])

/-- The other algorithms get no keyword arguments. -/
theorem C42_no_kwargs {o : Opt K} {c N g : ℕ} (ht : N * g ≠ 1)
    (ha : o.algo = .de ∨ o.algo = .es ∨ o.algo = .jaya ∨ (o.algo = .pso ∧ o.timew = false)) : annealed o c N g = .ok [] := by
  unfold annealed frac
  simp only [ht, if_false]
  rcases ha with h | h | h | ⟨h, h'⟩ <;> simp [*]

/-- **C42, defect.** One cycle of one generation divides by zero. -/
theorem C42_single (o : Opt K) (c : ℕ) : annealed o c 1 1 = .error .zeroDivision := by simp [annealed, frac]

example : annealed (⟨.gwo, 0, false, 0, 0, id⟩ : Opt ℚ) 2 2 3 = .ok [("a", [4 / 5, 2 / 5, 0])] := by decide +kernel

end
end Neorl.AEO

import Verif.GATune
import Mathlib.Analysis.SpecialFunctions.Pow.Real

/-!
# Property theorems C151: mutation of hyperparameters by the genetic tuner
-/

set_option linter.unusedSectionVars false
set_option linter.unusedVariables false

namespace Neorl.GATune
open Neorl

section
variable {K : Type} [Field K] [LinearOrder K] [IsStrictOrderedRing K]

/-- **C151, integers never mutate (defect).** Whatever the draws, an integer hyperparameter has the same value after the mutation as before. -/
theorem C151_int {pw rt : K → K} {indpb : K} {d : Draw K} {lo hi z : ℤ} {w : Val K} (h : mut1 pw rt indpb d (.ints lo hi) (.int z) = .ok w) : w = .int z := by
  simp only [mut1, low, up, raw, coord, gridStep, gridOf, intStep, floatStep, List.getElem?_cons_zero, List.getElem?_cons_succ] at h
  split_ifs at h <;> cases h <;> rfl

/-- It does not fail either. -/
theorem C151_int_ok (pw rt : K → K) (indpb : K) (d : Draw K) {lo hi : ℤ} (hl : lo ≤ hi) (z : ℤ) : mut1 pw rt indpb d (.ints lo hi) (.int z) = .ok (.int z) := by
  simp only [mut1, low, up, raw, coord, gridStep, gridOf, intStep, floatStep, List.getElem?_cons_zero, List.getElem?_cons_succ]
  rw [if_neg (not_lt.2 hl)]
  split_ifs <;> rfl

theorem poly_range {pw rt : K → K} {r l u x z : K} (hl : l ≤ u) (h : poly pw rt r l u x = .ok z) : l ≤ z ∧ z ≤ u := by
  unfold poly at h
  split at h
  · cases h
  · cases h
    exact ⟨le_min (le_max_right _ _) hl, min_le_right _ _⟩

/-- **C151, floats stay in their range.** A float hyperparameter is mutated into its range if the test is passed, whatever the powers are, and is left alone
otherwise; an empty range is the only failure. -/
theorem C151_float (pw rt : K → K) (indpb : K) (d : Draw K) {lo hi : K} (hl : lo < hi) (x : K) :
    (indpb < d.f → mut1 pw rt indpb d (.floats lo hi) (.float x) = .ok (.float x)) ∧
    (d.f ≤ indpb → ∃ z, mut1 pw rt indpb d (.floats lo hi) (.float x) = .ok (.float z) ∧ lo ≤ z ∧ z ≤ hi) ∧
    (d.f ≤ indpb → mut1 pw rt indpb d (.floats lo lo) (.float x) = .error .zeroDivision) := by
  refine ⟨fun h => ?_, fun h => ?_, fun h => ?_⟩
  · simp [mut1, low, up, raw, coord, gridStep, gridOf, intStep, floatStep, not_le.2 h]
  · cases hp : poly pw rt d.r lo hi x with
    | error e =>
      unfold poly at hp
      rw [if_neg (sub_pos.2 hl).ne'] at hp
      cases hp
    | ok z => exact ⟨z, by simp [mut1, low, up, raw, coord, gridStep, gridOf, intStep, floatStep, h, num, hp], poly_range hl.le hp⟩
  · simp [mut1, low, up, raw, coord, gridStep, gridOf, intStep, floatStep, h, num, poly]

/-- **C151, grids.** In a grid without floats a mutation gives a value of the grid. -/
theorem C151_grid {pw rt : K → K} {indpb : K} {d : Draw K} {l : List (Val K)} (hf : ∀ v ∈ l, ∀ x, v ≠ .float x) {v w : Val K} (hv : v ∈ l)
    (h : mut1 pw rt indpb d (.grid l) v = .ok w) : w ∈ l := by
  unfold mut1 at h
  split at h
  · rename_i a b _ _
    unfold coord at h
    have hg : ∀ v1, gridStep indpb d (gridOf (.grid l)) v = .ok v1 → v1 ∈ l := by
      intro v1 h1
      simp only [gridStep, gridOf] at h1
      split at h1
      · split at h1
        · rename_i e; cases h1; exact List.mem_of_getElem? e
        · cases h1
      · cases h1; exact hv
    split at h
    · cases h
    · rename_i v1 h1
      have m1 := hg v1 h1
      split at h
      · cases h
      · rename_i v2 h2
        have e2 : v2 = v1 := by
          unfold intStep at h2
          split at h2
          · split at h2
            · split at h2
              · split at h2 <;> cases h2; rfl
              · cases h2
              · cases h2
              · cases h2
            · cases h2; rfl
          · cases h2; rfl
        subst e2
        unfold floatStep at h
        split at h
        · exact absurd rfl (hf _ m1 _)
        · cases h; exact m1
  · cases h
  · cases h

/-- Every word of a grid can be drawn. -/
theorem C151_grid_reach (pw rt : K → K) {indpb : K} (hi : 0 ≤ indpb) {l : List (Val K)} {s : String} (hs : Val.str s ∈ l) (v : Val K) :
    ∃ d : Draw K, mut1 pw rt indpb d (.grid l) v = .ok (.str s) := by
  obtain ⟨i, hil, he⟩ := List.getElem_of_mem hs
  refine ⟨⟨0, i, 0, 0, 0⟩, ?_⟩
  have h0 : l[i % l.length]? = some (.str s) := by rw [Nat.mod_eq_of_lt hil, List.getElem?_eq_getElem hil, he]
  obtain ⟨a, t, rfl⟩ : ∃ a t, l = a :: t := by
    cases l with
    | nil => cases hs
    | cons a t => exact ⟨a, t, rfl⟩
  cases t with
  | nil => simp only [mut1, low, up, raw, coord, gridStep, gridOf, hi, h0, if_true, List.cons_append, List.nil_append, List.getElem?_cons_zero, List.getElem?_cons_succ, intStep, floatStep]
  | cons b t => simp only [mut1, low, up, raw, coord, gridStep, gridOf, hi, h0, if_true, List.cons_append, List.getElem?_cons_zero, List.getElem?_cons_succ, intStep, floatStep]

/-- **C151, floats in a grid (defect).** A float chosen from a grid is mutated as if the first two values of the grid were the ends of a range: with `a < b` in front
the result lies between them, so later values of the grid are lost and values outside the grid appear; with `a` twice, or a word among the first two, or a
single value, the tuner fails. -/
theorem C151_grid_float (pw rt : K → K) {indpb : K} {d : Draw K} (hg : indpb < d.g) (hf : d.f ≤ indpb) (x : K) (rest : List (Val K)) :
    (∀ a b : K, a < b → ∃ z, mut1 pw rt indpb d (.grid (.float a :: .float b :: rest)) (.float x) = .ok (.float z) ∧ a ≤ z ∧ z ≤ b) ∧
    (∀ a : K, mut1 pw rt indpb d (.grid (.float a :: .float a :: rest)) (.float x) = .error .zeroDivision) ∧
    (∀ (s : String) (v : Val K), mut1 pw rt indpb d (.grid (.str s :: v :: rest)) (.float x) = .error .typeError) ∧
    mut1 pw rt indpb d (.grid [.float x]) (.float x) = .error .typeError := by
  refine ⟨fun a b hab => ?_, fun a => ?_, fun s v => ?_, ?_⟩
  · cases hp : poly pw rt d.r a b x with
    | error e =>
      unfold poly at hp
      rw [if_neg (sub_pos.2 hab).ne'] at hp
      cases hp
    | ok z => exact ⟨z, by simp [mut1, low, up, raw, coord, gridStep, gridOf, intStep, floatStep, not_le.2 hg, hf, num, hp], poly_range hab.le hp⟩
  · simp [mut1, low, up, raw, coord, gridStep, gridOf, intStep, floatStep, not_le.2 hg, hf, num, poly]
  · simp [mut1, low, up, raw, coord, gridStep, gridOf, intStep, floatStep, not_le.2 hg, hf, num]
  · simp [mut1, low, up, raw, coord, gridStep, gridOf, intStep, floatStep, not_le.2 hg, hf, num]

theorem mutate_spec (pw rt : K → K) (indpb : K) (d : ℕ → Draw K) : ∀ (i : ℕ) (ps : List (Param K)) (vs ws : List (Val K)), vs.length ≤ ps.length →
    (mutate pw rt indpb d i ps vs = .ok ws ↔ ws.length = vs.length ∧ ∀ (j : ℕ) p v, ps[j]? = some p → vs[j]? = some v →
      ∃ w, ws[j]? = some w ∧ mut1 pw rt indpb (d (i + j)) p v = .ok w)
  | i, ps, [], ws, _ => by
    have : mutate pw rt indpb d i ps [] = .ok [] := by cases ps <;> rfl
    rw [this]
    constructor
    · intro h; cases h; exact ⟨rfl, fun j p v _ h => by simp at h⟩
    · rintro ⟨h, _⟩
      rw [List.eq_nil_of_length_eq_zero h]
  | i, [], v :: vs, ws, h => by simp at h
  | i, p :: ps, v :: vs, ws, hl => by
    have ih := fun ws => mutate_spec pw rt indpb d (i + 1) ps vs ws (by simpa using hl)
    have key : (∃ w ws', ws = w :: ws' ∧ mut1 pw rt indpb (d i) p v = .ok w ∧ mutate pw rt indpb d (i + 1) ps vs = .ok ws') ↔
        mutate pw rt indpb d i (p :: ps) (v :: vs) = .ok ws := by
      constructor
      · rintro ⟨w, ws', rfl, h1, h2⟩
        simp only [mutate, h1, h2]
      · intro h
        simp only [mutate] at h
        split at h
        · cases h
        · rename_i w hw
          split at h
          · rename_i ws' hws; cases h; exact ⟨w, ws', rfl, hw, hws⟩
          · cases h
    rw [← key]
    constructor
    · rintro ⟨w, ws', rfl, h1, h2⟩
      obtain ⟨h3, h4⟩ := (ih ws').1 h2
      refine ⟨by simp [h3], fun j q u hq hu => ?_⟩
      cases j with
      | zero => cases hq; cases hu; exact ⟨w, rfl, h1⟩
      | succ j =>
        obtain ⟨w', e1, e2⟩ := h4 j q u hq hu
        exact ⟨w', e1, by rw [← e2]; congr 2; omega⟩
    · rintro ⟨h1, h2⟩
      obtain ⟨w, ws', rfl⟩ : ∃ w ws', ws = w :: ws' := by
        cases ws with
        | nil => simp at h1
        | cons w ws' => exact ⟨w, ws', rfl⟩
      obtain ⟨w', e1, e2⟩ := h2 0 p v rfl rfl
      cases e1
      refine ⟨w, ws', rfl, e2, (ih ws').2 ⟨by simpa using h1, fun j q u hq hu => ?_⟩⟩
      obtain ⟨w', e3, e4⟩ := h2 (j + 1) q u hq hu
      exact ⟨w', e3, by rw [← e4]; congr 2; omega⟩

/-- **C151, every hyperparameter on its own.** The mutation succeeds exactly if it does for each hyperparameter with its own draws, and gives these results in
order; too few hyperparameters are an error. -/
theorem C151_each (pw rt : K → K) (indpb : K) (d : ℕ → Draw K) (ps : List (Param K)) (vs : List (Val K)) :
    (ps.length < vs.length → mutGATUNE pw rt indpb d ps vs = .error .indexError) ∧
    (vs.length ≤ ps.length → ∀ ws, mutGATUNE pw rt indpb d ps vs = .ok ws ↔ ws.length = vs.length ∧
      ∀ (j : ℕ) p v, ps[j]? = some p → vs[j]? = some v → ∃ w, ws[j]? = some w ∧ mut1 pw rt indpb (d j) p v = .ok w) := by
  refine ⟨fun h => by simp [mutGATUNE, h], fun h ws => ?_⟩
  have := mutate_spec pw rt indpb d 0 ps vs ws h
  simp only [Nat.zero_add] at this
  rw [← this]
  simp [mutGATUNE, not_lt.2 h]

/-- A search whose hyperparameters are all integers never leaves its starting values. -/
theorem C151_frozen (pw rt : K → K) (indpb : K) (d : ℕ → Draw K) (ps : List (ℤ × ℤ)) (hp : ∀ p ∈ ps, p.1 ≤ p.2) (zs : List ℤ) (hl : zs.length = ps.length) :
    mutGATUNE pw rt indpb d (ps.map fun p => .ints p.1 p.2) (zs.map .int) = .ok (zs.map .int) := by
  refine ((C151_each pw rt indpb d _ _).2 (by simp [hl]) _).2 ⟨rfl, fun j p v h1 h2 => ⟨v, h2, ?_⟩⟩
  rw [List.getElem?_map] at h1 h2
  cases e1 : ps[j]? with
  | none => rw [e1] at h1; cases h1
  | some q =>
    cases e2 : zs[j]? with
    | none => rw [e2] at h2; cases h2
    | some z =>
      rw [e1] at h1; rw [e2] at h2
      cases h1; cases h2
      exact C151_int_ok pw rt indpb (d j) (hp q (List.mem_of_getElem? e1)) z

end

/-- **C151, the direction of the step.** With the real powers and a value in its range: a draw below one half lowers the value, one above raises it, and the step
does not leave the range, so that the clamping at the end changes nothing; the draw 0 gives the lower end. -/
theorem C151_direction {eta : ℝ} (he : 0 ≤ eta) {lo hi x r : ℝ} (hl : lo < hi) (hx1 : lo ≤ x) (hx2 : x ≤ hi) (hr0 : 0 ≤ r) (hr1 : r < 1) :
    ∃ z, poly (fun v => v ^ (eta + 1)) (fun v => v ^ (1 / (eta + 1))) r lo hi x = .ok z ∧ (r < 1 / 2 → lo ≤ z ∧ z ≤ x) ∧ (1 / 2 ≤ r → x ≤ z ∧ z ≤ hi) ∧
      (r = 0 → z = lo) ∧ (r = 1 / 2 → z = x) := by
  have hw : 0 < hi - lo := sub_pos.2 hl
  have hp : 0 < eta + 1 := by linarith
  -- the two powers undo each other
  have hroot : ∀ t : ℝ, 0 ≤ t → (t ^ (eta + 1)) ^ (1 / (eta + 1)) = t := fun t ht => by
    rw [← Real.rpow_mul ht, mul_one_div_cancel hp.ne', Real.rpow_one]
  -- a mixture of 1 and `t ^ (eta + 1)` has its root between `t` and 1
  have key : ∀ t c : ℝ, 0 ≤ t → t ≤ 1 → 0 ≤ c → c ≤ 1 → t ≤ (c + (1 - c) * t ^ (eta + 1)) ^ (1 / (eta + 1)) ∧ (c + (1 - c) * t ^ (eta + 1)) ^ (1 / (eta + 1)) ≤ 1 := by
    intro t c ht0 ht1 hc0 hc1
    have hq0 : 0 ≤ t ^ (eta + 1) := Real.rpow_nonneg ht0 _
    have hq1 : t ^ (eta + 1) ≤ 1 := Real.rpow_le_one ht0 ht1 hp.le
    have hinv : 0 ≤ 1 / (eta + 1) := by positivity
    constructor
    · conv_lhs => rw [← hroot t ht0]
      exact Real.rpow_le_rpow hq0 (by nlinarith) hinv
    · exact Real.rpow_le_one (by nlinarith) (by nlinarith) hinv
  have d1 : 0 ≤ (x - lo) / (hi - lo) ∧ (x - lo) / (hi - lo) ≤ 1 := ⟨div_nonneg (by linarith) hw.le, (div_le_one hw).2 (by linarith)⟩
  have d2 : 0 ≤ (hi - x) / (hi - lo) ∧ (hi - x) / (hi - lo) ≤ 1 := ⟨div_nonneg (by linarith) hw.le, (div_le_one hw).2 (by linarith)⟩
  have m1 : (x - lo) / (hi - lo) * (hi - lo) = x - lo := div_mul_cancel₀ _ hw.ne'
  have m2 : (hi - x) / (hi - lo) * (hi - lo) = hi - x := div_mul_cancel₀ _ hw.ne'
  unfold poly
  rw [if_neg hw.ne']
  dsimp only
  by_cases hr : r < 1 / 2
  · rw [if_pos hr]
    obtain ⟨k1, k2⟩ := key (1 - (x - lo) / (hi - lo)) (2 * r) (by linarith) (by linarith) (by linarith) (by linarith)
    set q := (2 * r + (1 - 2 * r) * (1 - (x - lo) / (hi - lo)) ^ (eta + 1)) ^ (1 / (eta + 1)) with hq
    have a1 : lo ≤ x + (q - 1) * (hi - lo) := by nlinarith
    have a2 : x + (q - 1) * (hi - lo) ≤ x := by nlinarith
    refine ⟨_, rfl, fun _ => ?_, fun h => absurd h (not_le.2 hr), fun h0 => ?_, fun h => absurd h hr.ne⟩
    · rw [max_eq_left a1, min_eq_left (a2.trans hx2)]; exact ⟨a1, a2⟩
    · rw [max_eq_left a1, min_eq_left (a2.trans hx2)]
      have : q = 1 - (x - lo) / (hi - lo) := by
        rw [hq, h0]; simp only [mul_zero, sub_zero, one_mul, zero_add]; exact hroot _ (by linarith)
      rw [this]; linarith
  · rw [if_neg hr]
    have hr' := not_lt.1 hr
    have e : 2 * (1 - r) + 2 * (r - 1 / 2) * (1 - (hi - x) / (hi - lo)) ^ (eta + 1) =
        2 * (1 - r) + (1 - 2 * (1 - r)) * (1 - (hi - x) / (hi - lo)) ^ (eta + 1) := by ring
    rw [e]
    obtain ⟨k1, k2⟩ := key (1 - (hi - x) / (hi - lo)) (2 * (1 - r)) (by linarith) (by linarith) (by linarith) (by linarith)
    set q := (2 * (1 - r) + (1 - 2 * (1 - r)) * (1 - (hi - x) / (hi - lo)) ^ (eta + 1)) ^ (1 / (eta + 1)) with hq
    have a1 : x ≤ x + (1 - q) * (hi - lo) := by nlinarith
    have a2 : x + (1 - q) * (hi - lo) ≤ hi := by nlinarith
    refine ⟨_, rfl, fun h => absurd h hr, fun _ => ?_, fun h => ?_, fun h => ?_⟩
    · rw [max_eq_left (hx1.trans a1), min_eq_left a2]; exact ⟨a1, a2⟩
    · subst h; norm_num at hr'
    · rw [max_eq_left (hx1.trans a1), min_eq_left a2]
      have : q = 1 := by
        rw [hq, h]; norm_num
      rw [this]; ring

/-- Three hyperparameters and a mutation of each; `eta = 0`, where both powers are the identity. -/
example : mutGATUNE (K := ℚ) id id (1 / 10) (fun _ => ⟨0, 1, 0, 0, 1 / 4⟩) [.ints 1 9, .floats 0 1, .grid [.str "a", .str "b"]] [.int 3, .float (1 / 2), .str "a"] =
    .ok [.int 3, .float (1 / 4), .str "b"] := by decide +kernel

/-- A value outside the grid appears. -/
example : mut1 (K := ℚ) id id (1 / 10) ⟨1, 0, 1, 0, 3 / 4⟩ (.grid [.float 0, .float 1, .float 2]) (.float 2) = .ok (.float 1) ∧
    mut1 (K := ℚ) id id (1 / 10) ⟨1, 0, 1, 0, 3 / 4⟩ (.grid [.float 0, .float 1, .float 2]) (.float 0) = .ok (.float (1 / 2)) := by decide +kernel

end Neorl.GATune

import Verif.Reactivity
import Mathlib.MeasureTheory.Integral.IntervalIntegral.FundThmCalculus
import Mathlib.Analysis.Calculus.Deriv.Pow
import Mathlib.Analysis.Calculus.Deriv.Add
import Mathlib.Analysis.Calculus.Deriv.Mul
import Mathlib.Tactic.FieldSimp
import Mathlib.Tactic.FinCases
import Mathlib.MeasureTheory.Integral.IntervalIntegral.Basic

/-!
# C110: the control drum model integrates the inward current exactly, and its derivatives are the derivatives of its value
-/

set_option linter.unusedSectionVars false
set_option linter.unusedVariables false

namespace Neorl.Reactivity

open MeasureTheory intervalIntegral

section Spec

/-- A table: as many values as angles, the angles increasing. -/
def Ordered (x y : List ℝ) : Prop := x.Pairwise (· < ·) ∧ y.length = x.length

/-- `g` is the piecewise linear function through the points of the table: between two neighbouring angles it is the straight line. -/
def Interpolates (x y : List ℝ) (g : ℝ → ℝ) : Prop :=
  ∀ i, i + 1 < x.length → ∀ t, x.getD i 0 ≤ t → t ≤ x.getD (i + 1) 0 → g t = y.getD i 0 + (y.getD (i + 1) 0 - y.getD i 0) / (x.getD (i + 1) 0 - x.getD i 0) * (t - x.getD i 0)

/-- Both bounds are inside the table. -/
def Within (x : List ℝ) (l u : ℝ) : Prop := ∃ a b, x.head? = some a ∧ x.getLast? = some b ∧ a ≤ l ∧ l < u ∧ u ≤ b

end Spec

section Piece

/-- `h` is integrable between `a` and `b` with integral `v`. -/
def Piece (h : ℝ → ℝ) (a b v : ℝ) : Prop := IntervalIntegrable h volume a b ∧ ∫ t in a..b, h t = v

theorem Piece.add {h : ℝ → ℝ} {a b c v w : ℝ} (h1 : Piece h a b v) (h2 : Piece h b c w) : Piece h a c (v + w) :=
  ⟨h1.1.trans h2.1, by rw [← integral_add_adjacent_intervals h1.1 h2.1, h1.2, h2.2]⟩

theorem piece_of_deriv {h f F : ℝ → ℝ} {a b : ℝ} (hab : a ≤ b) (hf : Continuous f) (hF : ∀ t, HasDerivAt F (f t) t) (hh : ∀ t ∈ Set.Icc a b, h t = f t) : Piece h a b (F b - F a) := by
  have e : Set.EqOn f h (Set.uIcc a b) := fun t ht => (hh t (by rwa [Set.uIcc_of_le hab] at ht)).symm
  have hi : IntervalIntegrable f volume a b := hf.intervalIntegrable a b
  refine ⟨(ContinuousOn.congr hf.continuousOn e.symm).intervalIntegrable, ?_⟩
  rw [← integral_congr e]
  exact integral_eq_sub_of_hasDerivAt (fun t _ => hF t) hi

theorem piece_line {g : ℝ → ℝ} {a b c m : ℝ} (hab : a ≤ b) (hg : ∀ t ∈ Set.Icc a b, g t = c + m * (t - a)) : Piece g a b ((b - a) * (c + (c + m * (b - a))) / 2) := by
  have := piece_of_deriv (h := g) (f := fun t => c + m * (t - a)) (F := fun t => c * t + m * (t - a) ^ 2 / 2) hab (by fun_prop) (fun t => by
    have h1 : HasDerivAt (fun t : ℝ => t - a) 1 t := (hasDerivAt_id t).sub_const a
    have h2 := ((h1.pow 2).const_mul m).div_const 2
    have h3 := ((hasDerivAt_id t).const_mul c).add h2
    refine h3.congr_deriv ?_
    simp
    ring) hg
  convert this using 1
  ring

theorem piece_sq {g : ℝ → ℝ} {a b c m : ℝ} (hab : a ≤ b) (hg : ∀ t ∈ Set.Icc a b, g t = c + m * (t - a)) : Piece (fun t => g t ^ 2) a b (sqBlock m a c b) := by
  have := piece_of_deriv (h := fun t => g t ^ 2) (f := fun t => (c + m * (t - a)) ^ 2) (F := fun t => c ^ 2 * t + c * m * (t - a) ^ 2 + m ^ 2 * (t - a) ^ 3 / 3) hab (by fun_prop) (fun t => by
    have h1 : HasDerivAt (fun t : ℝ => t - a) 1 t := (hasDerivAt_id t).sub_const a
    have h2 := (h1.pow 2).const_mul (c * m)
    have h3 := ((h1.pow 3).const_mul (m ^ 2)).div_const 3
    have h4 := (((hasDerivAt_id t).const_mul (c ^ 2)).add h2).add h3
    refine h4.congr_deriv ?_
    simp
    ring) (fun t ht => by rw [hg t ht])
  convert this using 1
  unfold sqBlock
  ring

end Piece

section Lookup

variable {x y : List ℝ}

theorem gd {a : List ℝ} {i : ℕ} (h : i < a.length) : a.getD i 0 = a[i] := by
  rw [List.getD_eq_getElem?_getD, List.getElem?_eq_getElem h]
  rfl

theorem item_nat {a : List ℝ} {i : ℕ} (h : i < a.length) : item a (i : ℤ) = .ok (a.getD i 0) := by
  unfold item
  have h1 : ¬ ((i : ℤ) < 0) := by omega
  simp only [h1, if_false, Int.toNat_natCast]
  rw [List.getElem?_eq_getElem h]
  simp [List.getD_eq_getElem?_getD, List.getElem?_eq_getElem h]

theorem item_pred {a : List ℝ} {i : ℕ} (h0 : 0 < i) (h : i ≤ a.length) : item a ((i : ℤ) - 1) = .ok (a.getD (i - 1) 0) := by
  have : ((i : ℤ) - 1) = ((i - 1 : ℕ) : ℤ) := by omega
  rw [this]
  exact item_nat (by omega)

theorem lin_nat (hl : y.length = x.length) {i : ℕ} (h0 : 0 < i) (h : i < x.length) (t : ℝ) :
    lin x y i t = .ok ((t - x.getD (i - 1) 0) / (x.getD i 0 - x.getD (i - 1) 0) * (y.getD i 0 - y.getD (i - 1) 0) + y.getD (i - 1) 0) := by
  unfold lin
  rw [item_pred h0 (by omega), item_nat h, item_nat (hl ▸ h), item_pred h0 (by omega)]
  rfl

theorem getD_lt (hx : x.Pairwise (· < ·)) {i j : ℕ} (hij : i < j) (hj : j < x.length) : x.getD i 0 < x.getD j 0 := by
  rw [gd (by omega), gd hj]
  exact List.pairwise_iff_getElem.1 hx i j (by omega) hj hij

theorem getD_le (hx : x.Pairwise (· < ·)) {i j : ℕ} (hij : i ≤ j) (hj : j < x.length) : x.getD i 0 ≤ x.getD j 0 := by
  rcases Nat.lt_or_ge i j with h | h
  · exact (getD_lt hx h hj).le
  · rw [show i = j by omega]

/-- The bounds split the indices. -/
theorem split (hx : x.Pairwise (· < ·)) {l u : ℝ} (hw : Within x l u) : ∃ a b, 0 < a ∧ a ≤ b ∧ b < x.length ∧ (∀ i, i < x.length → (x.getD i 0 ≤ l ↔ i < a)) ∧ ∀ i, i < x.length → (x.getD i 0 < u ↔ i < b) := by
  obtain ⟨p, q, hp, hq, h1, h2, h3⟩ := hw
  have hne : x ≠ [] := by rintro rfl; simp at hp
  have hn : 0 < x.length := List.length_pos_iff.2 hne
  have hp' : x.getD 0 0 = p := by
    rw [List.head?_eq_getElem?] at hp
    rw [List.getD_eq_getElem?_getD, hp]; rfl
  have hq' : x.getD (x.length - 1) 0 = q := by
    rw [List.getLast?_eq_getElem?] at hq
    rw [List.getD_eq_getElem?_getD, hq]; rfl
  have ea : ∃ i, i < x.length ∧ l < x.getD i 0 := ⟨x.length - 1, by omega, by rw [hq']; linarith⟩
  have eb : ∃ i, i < x.length ∧ u ≤ x.getD i 0 := ⟨x.length - 1, by omega, by rw [hq']; linarith⟩
  classical
  have a1 := Nat.find_spec ea
  have b1 := Nat.find_spec eb
  have ha : ∀ i, i < x.length → (x.getD i 0 ≤ l ↔ i < Nat.find ea) := fun i hi => by
    constructor
    · intro h
      by_contra hc
      exact absurd (getD_le hx (not_lt.1 hc) hi) (not_le.2 (lt_of_le_of_lt h a1.2))
    · intro h
      have := Nat.find_min ea h
      push Not at this
      exact this hi
  have hb : ∀ i, i < x.length → (x.getD i 0 < u ↔ i < Nat.find eb) := fun i hi => by
    constructor
    · intro h
      by_contra hc
      exact absurd (getD_le hx (not_lt.1 hc) hi) (not_le.2 (lt_of_lt_of_le h b1.2))
    · intro h
      have := Nat.find_min eb h
      push Not at this
      exact this hi
  refine ⟨_, _, (ha 0 hn).1 (by rw [hp']; exact h1), ?_, b1.1, ha, hb⟩
  by_contra hc
  push Not at hc
  have := (ha _ b1.1).2 hc
  linarith [b1.2]

theorem inside_range {l u : ℝ} {a b : ℕ} (hab : a ≤ b) (hb : b < x.length) (h1 : ∀ i, i < x.length → (x.getD i 0 ≤ l ↔ i < a)) (h2 : ∀ i, i < x.length → (x.getD i 0 < u ↔ i < b)) :
    inside x l u = List.range' a (b - a) := by
  have hp1 : (inside x l u).Pairwise (· < ·) := by
    unfold inside
    exact List.Pairwise.filter _ List.pairwise_lt_range
  refine List.Perm.eq_of_pairwise (le := (· < ·)) (fun c d _ _ e1 e2 => absurd e1 (not_lt.2 e2.le)) hp1 (List.pairwise_lt_range' ..) ?_
  rw [List.perm_ext_iff_of_nodup (hp1.imp (fun h => ne_of_lt h)) (List.nodup_range' ..)]
  intro i
  unfold inside
  rw [List.mem_filter, List.mem_range, List.mem_range'_1]
  constructor
  · rintro ⟨hi, h⟩
    rw [List.getElem?_eq_getElem hi] at h
    simp only [Option.any_some, decide_eq_true_eq] at h
    have e : x.getD i 0 = x[i] := gd hi
    rw [← e] at h
    have q1 := h1 i hi
    have q2 := (h2 i hi).1 h.2
    have q3 : ¬ i < a := fun hc => absurd (q1.2 hc) (not_le.2 h.1)
    omega
  · rintro ⟨h3, h4⟩
    have hi : i < x.length := by omega
    refine ⟨hi, ?_⟩
    rw [List.getElem?_eq_getElem hi]
    simp only [Option.any_some, decide_eq_true_eq]
    have e : x.getD i 0 = x[i] := gd hi
    rw [← e]
    exact ⟨not_le.1 fun hc => absurd ((h1 i hi).1 hc) (by omega), (h2 i hi).2 (by omega)⟩

theorem search_eq {l : ℝ} {a : ℕ} (ha : a ≤ x.length) (h : ∀ i, i < x.length → (x.getD i 0 < l ↔ i < a)) : searchLeft x l = a := by
  unfold searchLeft
  have e : x = x.take a ++ x.drop a := (List.take_append_drop a x).symm
  rw [e, List.countP_append]
  have h1 : (x.take a).countP (fun v => decide (v < l)) = (x.take a).length := List.countP_eq_length.2 fun v hv => by
    obtain ⟨i, hi, rfl⟩ := List.getElem_of_mem hv
    rw [List.length_take] at hi
    rw [List.getElem_take]
    have := (h i (by omega)).2 (by omega)
    rw [gd (by omega)] at this
    simpa using this
  have h2 : (x.drop a).countP (fun v => decide (v < l)) = 0 := List.countP_eq_zero.2 fun v hv => by
    obtain ⟨i, hi, rfl⟩ := List.getElem_of_mem hv
    rw [List.length_drop] at hi
    rw [List.getElem_drop]
    have := (h (a + i) (by omega)).not.2 (by omega)
    rw [gd (by omega)] at this
    simpa using this
  rw [h1, h2, List.length_take]
  omega

theorem pick_range (a : List ℝ) {i k : ℕ} (h : i + k ≤ a.length) : pick a (List.range' i k) = .ok ((List.range' i k).map fun j => a.getD j 0) := by
  unfold pick
  induction k generalizing i with
  | zero => rfl
  | succ k ih =>
    rw [List.range'_succ, List.mapM_cons, item_nat (by omega), ih (by omega)]
    rfl

theorem chain_trapz (hx : x.Pairwise (· < ·)) {g : ℝ → ℝ} (hg : Interpolates x y g) (k : ℕ) : ∀ i, i + k < x.length →
    Piece g (x.getD i 0) (x.getD (i + k) 0) (trapz ((List.range' i (k + 1)).map fun j => x.getD j 0) ((List.range' i (k + 1)).map fun j => y.getD j 0)) := by
  induction k with
  | zero =>
    intro i hi
    simp only [zero_add, List.range'_succ, List.range'_zero, List.map_cons, List.map_nil, trapz, add_zero]
    exact ⟨by simp, by simp⟩
  | succ k ih =>
    intro i hi
    have hlt := getD_lt hx (show i < i + 1 by omega) (by omega)
    rw [List.range'_succ, List.range'_succ]
    simp only [List.map_cons, trapz]
    have h2 := ih (i + 1) (by omega)
    rw [List.range'_succ] at h2
    simp only [List.map_cons] at h2
    rw [show i + (k + 1) = i + 1 + k by omega]
    refine Piece.add ?_ h2
    have h1 := piece_line (g := g) (c := y.getD i 0) (m := (y.getD (i + 1) 0 - y.getD i 0) / (x.getD (i + 1) 0 - x.getD i 0)) hlt.le (fun t ht => hg i (by omega) t ht.1 ht.2)
    convert h1 using 1
    have : x.getD (i + 1) 0 - x.getD i 0 ≠ 0 := by linarith
    field_simp
    ring

theorem chain_sq (hx : x.Pairwise (· < ·)) {g : ℝ → ℝ} (hg : Interpolates x y g) (k : ℕ) : ∀ i, i + k < x.length →
    Piece (fun t => g t ^ 2) (x.getD i 0) (x.getD (i + k) 0) (sqSum ((List.range' i (k + 1)).map fun j => x.getD j 0) ((List.range' i (k + 1)).map fun j => y.getD j 0)) := by
  induction k with
  | zero =>
    intro i hi
    simp only [zero_add, List.range'_succ, List.range'_zero, List.map_cons, List.map_nil, sqSum, add_zero]
    exact ⟨by simp, by simp⟩
  | succ k ih =>
    intro i hi
    have hlt := getD_lt hx (show i < i + 1 by omega) (by omega)
    rw [List.range'_succ, List.range'_succ]
    simp only [List.map_cons, sqSum]
    have h2 := ih (i + 1) (by omega)
    rw [List.range'_succ] at h2
    simp only [List.map_cons] at h2
    rw [show i + (k + 1) = i + 1 + k by omega]
    refine Piece.add ?_ h2
    have h1 := piece_sq (g := g) (c := y.getD i 0) (m := (y.getD (i + 1) 0 - y.getD i 0) / (x.getD (i + 1) 0 - x.getD i 0)) hlt.le (fun t ht => hg i (by omega) t ht.1 ht.2)
    convert h1 using 1
    unfold sqBlock
    ring

end Lookup

/-- The exact integral of the interpolant, and of its square. -/
theorem both {x y : List ℝ} (hxy : Ordered x y) {g : ℝ → ℝ} (hg : Interpolates x y g) {l u : ℝ} (hw : Within x l u) (hn : l ∉ x ∨ ∃ v ∈ x, l < v ∧ v < u) :
    (∃ v, integrate x y l u = .ok v ∧ Piece g l u v) ∧ ∃ v, integrateSq x y l u = .ok v ∧ Piece (fun t => g t ^ 2) l u v := by
  obtain ⟨hx, hl⟩ := hxy
  have hlu : l < u := by obtain ⟨_, _, _, _, _, h, _⟩ := hw; exact h
  obtain ⟨a, b, ha0, hab, hb, h1, h2⟩ := split hx hw
  have hin := inside_range hab hb h1 h2
  have e1 : x.getD (a - 1) 0 ≤ l := (h1 _ (by omega)).2 (by omega)
  have e2 : l < x.getD a 0 := not_le.1 fun hc => absurd ((h1 _ (by omega)).1 hc) (by omega)
  have e3 : x.getD (b - 1) 0 < u := (h2 _ (by omega)).2 (by omega)
  have e4 : u ≤ x.getD b 0 := not_lt.1 fun hc => absurd ((h2 _ (by omega)).1 hc) (by omega)
  have d1 : x.getD a 0 - x.getD (a - 1) 0 ≠ 0 := by linarith
  have gl := hg (a - 1) (by omega)
  rw [show a - 1 + 1 = a by omega] at gl
  rcases Nat.lt_or_ge a b with hlt | hge
  · obtain ⟨k, rfl⟩ : ∃ k, b = a + (k + 1) := ⟨b - a - 1, by omega⟩
    have hb1 : a + (k + 1) - 1 = a + k := by omega
    rw [show a + (k + 1) - a = k + 1 by omega] at hin
    rw [hb1] at e3
    have hcons : List.range' a (k + 1) = a :: List.range' (a + 1) k := List.range'_succ
    have hlast : ∀ h : a :: List.range' (a + 1) k ≠ [], (a :: List.range' (a + 1) k).getLast h = a + k := by
      rw [← hcons]
      intro h
      rw [List.getLast_range']
      omega
    have gu := hg (a + k) (by omega)
    rw [show a + k + 1 = a + (k + 1) by omega] at gu
    have d2 : x.getD (a + (k + 1)) 0 - x.getD (a + k) 0 ≠ 0 := by linarith
    have hz : ((a + k : ℕ) : ℤ) + 1 = ((a + (k + 1) : ℕ) : ℤ) := by push_cast; ring
    have hpx := pick_range x (i := a) (k := k + 1) (by omega)
    have hpy := pick_range y (i := a) (k := k + 1) (by omega)
    rw [hcons] at hpx hpy
    have glow : ∀ t ∈ Set.Icc l (x.getD a 0), g t = ((l - x.getD (a - 1) 0) / (x.getD a 0 - x.getD (a - 1) 0) * (y.getD a 0 - y.getD (a - 1) 0) + y.getD (a - 1) 0) + (y.getD a 0 - y.getD (a - 1) 0) / (x.getD a 0 - x.getD (a - 1) 0) * (t - l) := fun t ht => by
      rw [gl t (by linarith [ht.1]) ht.2]
      ring
    have gup : ∀ t ∈ Set.Icc (x.getD (a + k) 0) u, g t = y.getD (a + k) 0 + (y.getD (a + (k + 1)) 0 - y.getD (a + k) 0) / (x.getD (a + (k + 1)) 0 - x.getD (a + k) 0) * (t - x.getD (a + k) 0) := fun t ht =>
      gu t ht.1 (by linarith [ht.2])
    constructor
    · refine ⟨_, ?_, ((piece_line e2.le glow).add (chain_trapz hx hg k a (by omega))).add (piece_line e3.le gup)⟩
      · unfold integrate
        rw [hin, hcons]
        simp only [hlast, hpx, hpy, hz, bind, Except.bind]
        rw [lin_nat hl ha0 (by omega), item_nat (by omega), item_nat (by omega), lin_nat hl (by omega) (by omega), item_pred (by omega) (by omega), item_pred (by omega) (by omega)]
        simp only [hb1, ← hcons, Except.ok.injEq]
        have q : x.getD a 0 - l ≠ 0 := by linarith
        rw [add_comm (trapz _ _)]
        congr 1
        · congr 1
          field_simp
          ring
        · field_simp
          ring
    · refine ⟨_, ?_, ((piece_sq e2.le glow).add (chain_sq hx hg k a (by omega))).add (piece_sq e3.le gup)⟩
      · unfold integrateSq
        rw [hin, hcons]
        simp only [hlast, hpx, hpy, hz, bind, Except.bind]
        rw [lin_nat hl ha0 (by omega), item_nat (by omega), item_nat (by omega), lin_nat hl (by omega) (by omega), item_nat (by omega), item_nat (by omega)]
        simp only [hb1, ← hcons, Except.ok.injEq]
        have q : x.getD a 0 - l ≠ 0 := by linarith
        have q' : u - x.getD (a + k) 0 ≠ 0 := by linarith
        rw [add_comm (sqSum _ _)]
        congr 1
        · congr 1
          congr 1
          field_simp
          ring
        · congr 1
          field_simp
          ring
  · have hba : b = a := by omega
    subst hba
    rw [Nat.sub_self] at hin
    have hnode : l ∉ x := by
      rcases hn with hn | ⟨v, hv, h3, h4⟩
      · exact hn
      · obtain ⟨i, hi, rfl⟩ := List.getElem_of_mem hv
        have e : x.getD i 0 = x[i] := gd hi
        rw [← e] at h3 h4
        have q1 := (h2 i hi).1 h4
        exact absurd ((h1 i hi).2 q1) (not_le.2 h3)
    have hs : searchLeft x l = b := search_eq (by omega) fun i hi => by
      rw [← h1 i hi]
      constructor
      · exact le_of_lt
      · intro h
        refine lt_of_le_of_ne h fun hc => hnode ?_
        rw [← hc, gd hi]
        exact List.getElem_mem hi
    have gmid : ∀ t ∈ Set.Icc l u, g t = ((l - x.getD (b - 1) 0) / (x.getD b 0 - x.getD (b - 1) 0) * (y.getD b 0 - y.getD (b - 1) 0) + y.getD (b - 1) 0) + (y.getD b 0 - y.getD (b - 1) 0) / (x.getD b 0 - x.getD (b - 1) 0) * (t - l) := fun t ht => by
      rw [gl t (by linarith [ht.1]) (by linarith [ht.2])]
      ring
    have q : u - l ≠ 0 := by linarith
    constructor
    · refine ⟨_, ?_, piece_line hlu.le gmid⟩
      unfold integrate
      rw [hin]
      simp only [List.range'_zero, hs, bind, Except.bind, lin_nat hl ha0 hb]
      simp only [Except.ok.injEq]
      field_simp
      ring
    · refine ⟨_, ?_, piece_sq hlu.le gmid⟩
      unfold integrateSq
      rw [hin]
      simp only [List.range'_zero, hs, bind, Except.bind, lin_nat hl ha0 hb]
      simp only [Except.ok.injEq]
      congr 1
      field_simp
      ring

/-- **C110.** Between two angles of an increasing table the code's integral is the exact integral of the piecewise linear current, and `integrate_sq` that of its square (the lower angle not in the table, or some
angle of the table strictly between the two). -/
theorem C110_integral {x y : List ℝ} (hxy : Ordered x y) {g : ℝ → ℝ} (hg : Interpolates x y g) {l u : ℝ} (hw : Within x l u) (hn : l ∉ x ∨ ∃ v ∈ x, l < v ∧ v < u) :
    integrate x y l u = .ok (∫ t in l..u, g t) ∧ integrateSq x y l u = .ok (∫ t in l..u, g t ^ 2) := by
  obtain ⟨⟨v, h1, h2⟩, w, h3, h4⟩ := both hxy hg hw hn
  rw [h1, h3, h2.2, h4.2]
  exact ⟨rfl, rfl⟩

section Curve

variable {x y : List ℝ}

theorem head_eq {p : ℝ} (hp : x.head? = some p) : x.getD 0 0 = p ∧ 0 < x.length := by
  cases x with
  | nil => simp at hp
  | cons a t => simp at hp; simp [hp]

theorem last_eq {q : ℝ} (hq : x.getLast? = some q) : x.getD (x.length - 1) 0 = q := by
  rw [List.getLast?_eq_getElem?] at hq
  rw [List.getD_eq_getElem?_getD, hq]
  rfl

/-- Every angle inside the table lies between two neighbours. -/
theorem segment (hx : x.Pairwise (· < ·)) (h2 : 2 ≤ x.length) {p q t : ℝ} (hp : x.head? = some p) (hq : x.getLast? = some q) (h1 : p ≤ t) (h3 : t ≤ q) :
    ∃ i, i + 1 < x.length ∧ x.getD i 0 ≤ t ∧ t ≤ x.getD (i + 1) 0 := by
  classical
  have e : ∃ i, i < x.length ∧ t ≤ x.getD i 0 := ⟨x.length - 1, by omega, by rw [last_eq hq]; exact h3⟩
  have s := Nat.find_spec e
  rcases Nat.eq_zero_or_pos (Nat.find e) with h0 | h0
  · rw [h0, (head_eq hp).1] at s
    refine ⟨0, by omega, by rw [(head_eq hp).1]; exact h1, ?_⟩
    have : t = p := le_antisymm s.2 h1
    rw [this, ← (head_eq hp).1]
    exact getD_le hx (by omega) (by omega)
  · refine ⟨Nat.find e - 1, by omega, ?_, by rw [show Nat.find e - 1 + 1 = Nat.find e by omega]; exact s.2⟩
    have := Nat.find_min e (show Nat.find e - 1 < Nat.find e by omega)
    push Not at this
    exact (this (by omega)).le

theorem interp_unique (hx : x.Pairwise (· < ·)) (h2 : 2 ≤ x.length) {g g' : ℝ → ℝ} (hg : Interpolates x y g) (hg' : Interpolates x y g') {p q t : ℝ} (hp : x.head? = some p) (hq : x.getLast? = some q) (h1 : p ≤ t)
    (h3 : t ≤ q) : g t = g' t := by
  obtain ⟨i, hi, a, b⟩ := segment hx h2 hp hq h1 h3
  rw [hg i hi t a b, hg' i hi t a b]

/-- A continuous curve through the table. -/
noncomputable def curve (x y : List ℝ) (t : ℝ) : ℝ :=
  y.getD 0 0 + ∑ i ∈ Finset.range (x.length - 1), (y.getD (i + 1) 0 - y.getD i 0) / (x.getD (i + 1) 0 - x.getD i 0) * (max (x.getD i 0) (min t (x.getD (i + 1) 0)) - x.getD i 0)

theorem curve_continuous (x y : List ℝ) : Continuous (curve x y) := by
  unfold curve
  fun_prop

theorem curve_interpolates (hx : x.Pairwise (· < ·)) : Interpolates x y (curve x y) := by
  intro i hi t h1 h2
  unfold curve
  have tele : ∀ n, n ≤ i → y.getD 0 0 + ∑ j ∈ Finset.range n, (y.getD (j + 1) 0 - y.getD j 0) / (x.getD (j + 1) 0 - x.getD j 0) * (max (x.getD j 0) (min t (x.getD (j + 1) 0)) - x.getD j 0) = y.getD n 0 := by
    intro n hn
    induction n with
    | zero => simp
    | succ n ih =>
      rw [Finset.sum_range_succ, ← add_assoc, ih (by omega)]
      have a1 : x.getD (n + 1) 0 ≤ t := (getD_le hx (by omega) (by omega)).trans h1
      have a2 := getD_lt hx (show n < n + 1 by omega) (by omega)
      rw [min_eq_right a1, max_eq_right a2.le]
      have : x.getD (n + 1) 0 - x.getD n 0 ≠ 0 := by linarith
      field_simp
      ring
  have rest : ∀ n, y.getD 0 0 + ∑ j ∈ Finset.range (i + 1 + n), (if j + 1 < x.length then (y.getD (j + 1) 0 - y.getD j 0) / (x.getD (j + 1) 0 - x.getD j 0) * (max (x.getD j 0) (min t (x.getD (j + 1) 0)) - x.getD j 0) else 0) =
      y.getD i 0 + (y.getD (i + 1) 0 - y.getD i 0) / (x.getD (i + 1) 0 - x.getD i 0) * (t - x.getD i 0) := by
    intro n
    induction n with
    | zero =>
      rw [add_zero, Finset.sum_range_succ, if_pos hi, min_eq_left h2, max_eq_right h1, ← add_assoc]
      congr 1
      rw [← tele i le_rfl]
      congr 1
      refine Finset.sum_congr rfl fun j hj => ?_
      rw [Finset.mem_range] at hj
      rw [if_pos (by omega)]
    | succ n ih =>
      rw [← add_assoc (i + 1), Finset.sum_range_succ, ← add_assoc, ih]
      split_ifs with hc
      · have a1 : t ≤ x.getD (i + 1 + n) 0 := h2.trans (getD_le hx (by omega) (by omega))
        rw [max_eq_left ((min_le_left _ _).trans a1)]
        simp
      · simp
  have := rest (x.length - 1 - (i + 1))
  rw [show i + 1 + (x.length - 1 - (i + 1)) = x.length - 1 by omega] at this
  rw [← this]
  congr 1
  refine Finset.sum_congr rfl fun j hj => ?_
  rw [Finset.mem_range] at hj
  rw [if_pos (by omega)]

theorem interp_segment (hxy : Ordered x y) {i : ℕ} (hi : i + 1 < x.length) {t : ℝ} (h1 : x.getD i 0 ≤ t) (h2 : t ≤ x.getD (i + 1) 0) :
    interp1d x y t = .ok (y.getD i 0 + (y.getD (i + 1) 0 - y.getD i 0) / (x.getD (i + 1) 0 - x.getD i 0) * (t - x.getD i 0)) := by
  obtain ⟨hx, hl⟩ := hxy
  unfold interp1d
  have z0 : item x 0 = .ok (x.getD 0 0) := item_nat (i := 0) (by omega)
  have zl : item x (-1) = .ok (x.getD (x.length - 1) 0) := by
    unfold item
    have a : ((-1 : ℤ) < 0) := by omega
    have b : ¬ ((-1 : ℤ) + (x.length : ℤ) < 0) := by omega
    simp only [a, if_true, b, if_false]
    rw [show ((-1 : ℤ) + (x.length : ℤ)).toNat = x.length - 1 by omega, List.getElem?_eq_getElem (by omega), gd (by omega)]
  rw [z0, zl]
  simp only [bind, Except.bind]
  have b1 : ¬ (t < x.getD 0 0 ∨ x.getD (x.length - 1) 0 < t) := by
    push Not
    exact ⟨(getD_le hx (by omega) (by omega)).trans h1, h2.trans (getD_le hx (by omega) (by omega))⟩
  rw [if_neg b1]
  obtain ⟨j, hj, he, hv⟩ : ∃ j, j + 1 < x.length ∧ max 1 (min (searchLeft x t) (x.length - 1)) = j + 1 ∧ y.getD j 0 + (y.getD (j + 1) 0 - y.getD j 0) / (x.getD (j + 1) 0 - x.getD j 0) * (t - x.getD j 0) =
      y.getD i 0 + (y.getD (i + 1) 0 - y.getD i 0) / (x.getD (i + 1) 0 - x.getD i 0) * (t - x.getD i 0) := by
    rcases lt_or_eq_of_le h1 with h | h
    · have hs : searchLeft x t = i + 1 := search_eq (by omega) fun j hj => by
        constructor
        · intro hjt
          by_contra hc
          exact absurd (h2.trans (getD_le hx (show i + 1 ≤ j by omega) hj)) (not_le.2 hjt)
        · intro hji
          exact lt_of_le_of_lt (getD_le hx (by omega) (by omega)) h
      exact ⟨i, hi, by rw [hs]; omega, rfl⟩
    · have hs : searchLeft x t = i := search_eq (by omega) fun j hj => by
        rw [← h]
        constructor
        · intro hjt
          by_contra hc
          exact absurd (getD_le hx (show i ≤ j by omega) hj) (not_le.2 hjt)
        · intro hji
          exact getD_lt hx hji (by omega)
      rcases Nat.eq_zero_or_pos i with h0 | h0
      · subst h0
        exact ⟨0, hi, by rw [hs]; omega, rfl⟩
      · refine ⟨i - 1, by omega, by rw [hs]; omega, ?_⟩
        rw [show i - 1 + 1 = i by omega, ← h]
        have := getD_lt hx (show i - 1 < i by omega) (by omega)
        have : x.getD i 0 - x.getD (i - 1) 0 ≠ 0 := by linarith
        field_simp
        ring
  rw [← hv]
  simp only [he, Nat.add_sub_cancel]
  rw [item_nat (by omega), item_nat hj, item_nat (by omega), item_nat (by omega)]
  simp only [Except.ok.injEq]
  ring

theorem interp_outside {p q : ℝ} (hp : x.head? = some p) (hq : x.getLast? = some q) {t : ℝ} (h : t < p ∨ q < t) : interp1d x y t = .error .valueError := by
  have hn := (head_eq hp).2
  unfold interp1d
  have z0 : item x 0 = .ok (x.getD 0 0) := item_nat (i := 0) (by omega)
  have zl : item x (-1) = .ok (x.getD (x.length - 1) 0) := by
    unfold item
    have a : ((-1 : ℤ) < 0) := by omega
    have b : ¬ ((-1 : ℤ) + (x.length : ℤ) < 0) := by omega
    simp only [a, if_true, b, if_false]
    rw [show ((-1 : ℤ) + (x.length : ℤ)).toNat = x.length - 1 by omega, List.getElem?_eq_getElem (by omega), gd (by omega)]
  rw [z0, zl]
  simp only [bind, Except.bind]
  rw [(head_eq hp).1, last_eq hq, if_pos h]

end Curve

/-- **C110.** The current looked up in a table: every table has a continuous piecewise linear curve, and `interp1d` gives its value everywhere inside the table and an exception outside. -/
theorem C110_lookup {x y : List ℝ} (hxy : Ordered x y) (h2 : 2 ≤ x.length) {p q : ℝ} (hp : x.head? = some p) (hq : x.getLast? = some q) : (∃ g, Continuous g ∧ Interpolates x y g) ∧
    (∀ g, Interpolates x y g → ∀ t, p ≤ t → t ≤ q → interp1d x y t = .ok (g t)) ∧ ∀ t, t < p ∨ q < t → interp1d x y t = .error .valueError := by
  refine ⟨⟨_, curve_continuous x y, curve_interpolates hxy.1⟩, fun g hg t h1 h3 => ?_, fun t h => interp_outside hp hq h⟩
  obtain ⟨i, hi, a, b⟩ := segment hxy.1 h2 hp hq h1 h3
  rw [interp_segment hxy hi a b, hg i hi t a b]

/-- **C110, defect.** If the lower angle is an angle of the table and no other lies strictly between the bounds, the code prolongs the line of the block below: the result is right only if the two blocks have the
same slope. -/
theorem C110_node {x y : List ℝ} (hxy : Ordered x y) {g : ℝ → ℝ} (hg : Interpolates x y g) {i : ℕ} (h0 : 0 < i) (hi : i + 1 < x.length) {u : ℝ} (h1 : x.getD i 0 < u) (h2 : u ≤ x.getD (i + 1) 0) :
    integrate x y (x.getD i 0) u = .ok (∫ t in (x.getD i 0)..u, g t) ↔
      (y.getD i 0 - y.getD (i - 1) 0) / (x.getD i 0 - x.getD (i - 1) 0) = (y.getD (i + 1) 0 - y.getD i 0) / (x.getD (i + 1) 0 - x.getD i 0) := by
  obtain ⟨hx, hl⟩ := hxy
  have hin : inside x (x.getD i 0) u = [] := by
    unfold inside
    rw [List.filter_eq_nil_iff]
    intro j hj
    rw [List.mem_range] at hj
    rw [List.getElem?_eq_getElem hj, ← gd hj]
    simp only [Option.any_some, decide_eq_true_eq]
    rintro ⟨a, b⟩
    have c1 : i < j := by
      by_contra hc
      exact absurd (getD_le hx (not_lt.1 hc) (by omega)) (not_le.2 a)
    have := getD_le hx (show i + 1 ≤ j by omega) hj
    linarith
  have hs : searchLeft x (x.getD i 0) = i := search_eq (by omega) fun j hj => by
    constructor
    · intro hjt
      by_contra hc
      exact absurd (getD_le hx (show i ≤ j by omega) hj) (not_le.2 hjt)
    · intro hji
      exact getD_lt hx hji (by omega)
  have e1 : integrate x y (x.getD i 0) u = .ok ((u - x.getD i 0) * (y.getD i 0 + (y.getD i 0 + (y.getD i 0 - y.getD (i - 1) 0) / (x.getD i 0 - x.getD (i - 1) 0) * (u - x.getD i 0))) / 2) := by
    unfold integrate
    rw [hin]
    simp only [hs, bind, Except.bind, lin_nat hl h0 (show i < x.length by omega), Except.ok.injEq]
    have := getD_lt hx (show i - 1 < i by omega) (by omega)
    have : x.getD i 0 - x.getD (i - 1) 0 ≠ 0 := by linarith
    field_simp
    ring
  have e2 := piece_line (g := g) (c := y.getD i 0) (m := (y.getD (i + 1) 0 - y.getD i 0) / (x.getD (i + 1) 0 - x.getD i 0)) h1.le (fun t ht => hg i hi t ht.1 (by linarith [ht.2]))
  rw [e1, e2.2]
  simp only [Except.ok.injEq]
  constructor
  · intro h
    have hne : u - x.getD i 0 ≠ 0 := by linarith
    have h3 : (u - x.getD i 0) * (u - x.getD i 0) * ((y.getD i 0 - y.getD (i - 1) 0) / (x.getD i 0 - x.getD (i - 1) 0)) =
        (u - x.getD i 0) * (u - x.getD i 0) * ((y.getD (i + 1) 0 - y.getD i 0) / (x.getD (i + 1) 0 - x.getD i 0)) := by linarith
    exact mul_left_cancel₀ (mul_ne_zero hne hne) h3
  · intro h
    rw [h]

section Eval

theorem gather_iff {n : ℕ} {f : Fin n → Py ℝ} {v : Fin n → ℝ} : gather f = .ok v ↔ ∀ i, f i = .ok (v i) := by
  have hm : ∀ (l : List (Fin n)) (r : List ℝ), l.mapM f = .ok r ↔ List.Forall₂ (fun i a => f i = .ok a) l r := by
    intro l
    induction l with
    | nil => intro r; simp only [List.mapM_nil, pure, Except.pure, Except.ok.injEq, List.forall₂_nil_left_iff]; exact eq_comm
    | cons a l ih =>
      intro r
      rw [List.mapM_cons]
      simp only [bind, Except.bind, pure, Except.pure]
      cases hf : f a with
      | error e =>
        simp only
        constructor
        · intro h; cases h
        · intro h
          cases h with
          | cons h1 _ => rw [hf] at h1; cases h1
      | ok b =>
        simp only
        cases hl : l.mapM f with
        | error e =>
          simp only
          constructor
          · intro h; cases h
          · intro h
            cases h with
            | cons h1 h2 => rw [(ih _).2 h2] at hl; cases hl
        | ok bs =>
          simp only [Except.ok.injEq]
          constructor
          · rintro rfl
            exact List.Forall₂.cons hf ((ih _).1 hl)
          · intro h
            cases h with
            | cons h1 h2 =>
              rw [hf] at h1
              rw [(ih _).2 h2] at hl
              cases h1
              cases hl
              rfl
  unfold gather
  simp only [bind, Except.bind]
  constructor
  · intro h
    cases hr : (List.finRange n).mapM f with
    | error e => rw [hr] at h; cases h
    | ok r =>
      rw [hr] at h
      simp only [Except.ok.injEq] at h
      have hf := (hm _ _).1 hr
      intro i
      have hl := hf.length_eq
      rw [List.length_finRange] at hl
      have := List.Forall₂.get hf (i := i.val) (by simp) (by omega)
      simp only [List.get_eq_getElem, List.getElem_finRange] at this
      rw [← h]
      simp only
      rw [gd (by omega)]
      simpa using this
  · intro h
    have : (List.finRange n).mapM f = .ok ((List.finRange n).map v) := by
      rw [hm]
      rw [List.forall₂_map_right_iff]
      exact List.forall₂_same.2 fun i _ => h i
    rw [this]
    simp only [Except.ok.injEq]
    funext i
    rw [gd (by simp)]
    simp

/-- The table of a drum: drums 1, 4, 5 and 8 are of configuration A. -/
def drum (M : Model ℝ) (i : Fin 8) : Tab ℝ := if i = 0 ∨ i = 3 ∨ i = 4 ∨ i = 7 then M.jmA else M.jmB

/-- Ordered tables with the curves `g` through them, which cover a turn and half a coating on either side; coatings have positive width. -/
structure Sound (M : Model ℝ) (g : Fin 8 → ℝ → ℝ) : Prop where
  pi : 0 < M.pi
  ordered : ∀ i, Ordered (drum M i).x (drum M i).y
  curve : ∀ i, Interpolates (drum M i).x (drum M i).y (g i)
  width : ∀ i, 0 < M.cangles i
  covers : ∀ i, ∃ p q, (drum M i).x.head? = some p ∧ (drum M i).x.getLast? = some q ∧ p ≤ -M.pi - M.cangles i / 2 ∧ M.pi + M.cangles i / 2 ≤ q

/-- No edge of a coating, at the drum's angle or at rest, is an angle of its table. -/
def Clear (M : Model ℝ) (θ : Fin 8 → ℝ) : Prop :=
  ∀ i, M.cangles i / 2 ∉ (drum M i).x ∧ -M.cangles i / 2 ∉ (drum M i).x ∧ θ i - M.cangles i / 2 ∉ (drum M i).x ∧ θ i + M.cangles i / 2 ∉ (drum M i).x

/-- The weight of drum `i`: a constant and, for every drum, one minus the current its coating absorbs, times the coefficients. -/
noncomputable def weight (M : Model ℝ) (g : Fin 8 → ℝ → ℝ) (θ : Fin 8 → ℝ) (i : Fin 8) : ℝ :=
  M.alphas i 0 + ∑ j : Fin 8, M.alphas i j.succ * (1 - ∫ t in (θ j - M.cangles j / 2)..(θ j + M.cangles j / 2), g j t)

/-- The change of the squared current absorbed by drum `i`, against the drum at rest. -/
noncomputable def change (M : Model ℝ) (g : Fin 8 → ℝ → ℝ) (θ : Fin 8 → ℝ) (i : Fin 8) : ℝ :=
  (∫ t in (θ i - M.cangles i / 2)..(θ i + M.cangles i / 2), g i t ^ 2) - ∫ t in (-M.cangles i / 2)..(M.cangles i / 2), g i t ^ 2

/-- The reactivity of a position of the drums. -/
noncomputable def reactivity (M : Model ℝ) (g : Fin 8 → ℝ → ℝ) (θ : Fin 8 → ℝ) : ℝ := ∑ i, weight M g θ i * change M g θ i

variable {M : Model ℝ} {g : Fin 8 → ℝ → ℝ}

theorem Sound.long (h : Sound M g) (i : Fin 8) : 2 ≤ (drum M i).x.length := by
  obtain ⟨p, q, hp, hq, h1, h2⟩ := h.covers i
  have := h.pi
  have := h.width i
  by_contra hc
  have h0 := (head_eq hp).2
  have h3 := last_eq hq
  rw [show (drum M i).x.length - 1 = 0 by omega, (head_eq hp).1] at h3
  linarith

theorem Sound.within (h : Sound M g) (i : Fin 8) {l u : ℝ} (h1 : -M.pi - M.cangles i / 2 ≤ l) (h2 : l < u) (h3 : u ≤ M.pi + M.cangles i / 2) : Within (drum M i).x l u := by
  obtain ⟨p, q, hp, hq, h4, h5⟩ := h.covers i
  exact ⟨p, q, hp, hq, h4.trans h1, h2, h3.trans h5⟩

/-- The curve is continuous on the table. -/
theorem Sound.cont (h : Sound M g) (i : Fin 8) : ContinuousOn (g i) (Set.Icc (-M.pi - M.cangles i / 2) (M.pi + M.cangles i / 2)) := by
  obtain ⟨p, q, hp, hq, h4, h5⟩ := h.covers i
  refine ((curve_continuous (drum M i).x (drum M i).y).continuousOn).congr fun t ht => ?_
  exact interp_unique (h.ordered i).1 (h.long i) (h.curve i) (curve_interpolates (h.ordered i).1) hp hq (h4.trans ht.1) (ht.2.trans h5)

theorem Sound.integrable (h : Sound M g) (i : Fin 8) {a b : ℝ} (ha : a ∈ Set.Icc (-M.pi - M.cangles i / 2) (M.pi + M.cangles i / 2)) (hb : b ∈ Set.Icc (-M.pi - M.cangles i / 2) (M.pi + M.cangles i / 2)) :
    IntervalIntegrable (fun t => g i t ^ 2) volume a b := by
  refine ContinuousOn.intervalIntegrable ?_
  refine ContinuousOn.pow ((h.cont i).mono ?_) 2
  exact Set.uIcc_subset_Icc ha hb

theorem configA_iff (i : Fin 8) : i.val + 1 ∈ configA ↔ (i = 0 ∨ i = 3 ∨ i = 4 ∨ i = 7) := by
  revert i
  decide

theorem listA_iff (i : Fin 8) : i.val ∈ [0, 3, 4, 7] ↔ (i = 0 ∨ i = 3 ∨ i = 4 ∨ i = 7) := by
  revert i
  decide

theorem jmfs_eq (M : Model ℝ) (i : Fin 8) : jmfs M i = interp1d (drum M i).x (drum M i).y := by
  unfold jmfs drum
  fin_cases i <;> simp

theorem zetatildes_eq (h : Sound M g) {θ : Fin 8 → ℝ} (hc : Clear M θ) (hθ : ∀ i, -M.pi < θ i ∧ θ i ≤ M.pi) : zetatildes M θ = .ok (weight M g θ) := by
  unfold zetatildes
  have : gather (fun i : Fin 8 =>
      ((if i.val + 1 ∈ configA then integrate M.jmA.x M.jmA.y (θ i - M.cangles i / 2) (θ i + M.cangles i / 2)
        else integrate M.jmB.x M.jmB.y (θ i - M.cangles i / 2) (θ i + M.cangles i / 2)).map fun v => 1 - v : Py ℝ)) =
      .ok fun i => 1 - ∫ t in (θ i - M.cangles i / 2)..(θ i + M.cangles i / 2), g i t := by
    rw [gather_iff]
    intro i
    have hi := (C110_integral (h.ordered i) (h.curve i) (h.within i (l := θ i - M.cangles i / 2) (u := θ i + M.cangles i / 2) (by linarith [(hθ i).1]) (by linarith [h.width i]) (by linarith [(hθ i).2])) (Or.inl (hc i).2.2.1)).1
    by_cases hA : i = 0 ∨ i = 3 ∨ i = 4 ∨ i = 7
    · rw [if_pos ((configA_iff i).2 hA)]
      unfold drum at hi
      rw [if_pos hA] at hi
      rw [hi]
      rfl
    · rw [if_neg (fun hh => hA ((configA_iff i).1 hh))]
      unfold drum at hi
      rw [if_neg hA] at hi
      rw [hi]
      rfl
  simp only [bind, Except.bind]
  rw [this]
  simp only [Except.ok.injEq]
  funext i
  unfold weight
  rw [Fin.sum_univ_succ]
  simp only [Fin.cons_zero, Fin.cons_succ, one_mul]
  congr 1
  exact Finset.sum_congr rfl fun j _ => mul_comm _ _

theorem drumInts_eq (h : Sound M g) {θ : Fin 8 → ℝ} (hc : Clear M θ) (hθ : ∀ i, -M.pi < θ i ∧ θ i ≤ M.pi) (i : Fin 8) : drumInts M θ i = .ok (change M g θ i) := by
  have key : ∀ b : (ℝ × ℝ) × (ℝ × ℝ), intBounds M.pi (θ i) (M.cangles i) = .ok b → Within (drum M i).x b.1.1 b.1.2 → Within (drum M i).x b.2.1 b.2.2 → b.1.1 ∉ (drum M i).x → b.2.1 ∉ (drum M i).x →
      ((∫ t in b.1.1..b.1.2, g i t ^ 2) - ∫ t in b.2.1..b.2.2, g i t ^ 2) = change M g θ i → drumInts M θ i = .ok (change M g θ i) := by
    intro b hb w1 w2 n1 n2 he
    unfold drumInts
    rw [hb]
    simp only [bind, Except.bind]
    have i1 := (C110_integral (h.ordered i) (h.curve i) w1 (Or.inl n1)).2
    have i2 := (C110_integral (h.ordered i) (h.curve i) w2 (Or.inl n2)).2
    by_cases hA : i = 0 ∨ i = 3 ∨ i = 4 ∨ i = 7
    · rw [if_pos ((listA_iff i).2 hA)]
      unfold drum at i1 i2
      rw [if_pos hA] at i1 i2
      rw [i1, i2]
      simp only
      rw [he]
    · rw [if_neg (fun hh => hA ((listA_iff i).1 hh))]
      unfold drum at i1 i2
      rw [if_neg hA] at i1 i2
      rw [i1, i2]
      simp only
      rw [he]
  have hw := h.width i
  have hp := h.pi
  obtain ⟨t1, t2⟩ := hθ i
  obtain ⟨c1, c2, c3, c4⟩ := hc i
  have I : ∀ {a b : ℝ}, a ∈ Set.Icc (-M.pi - M.cangles i / 2) (M.pi + M.cangles i / 2) → b ∈ Set.Icc (-M.pi - M.cangles i / 2) (M.pi + M.cangles i / 2) → IntervalIntegrable (fun t => g i t ^ 2) volume a b :=
    fun ha hb => h.integrable i ha hb
  have ma : θ i - M.cangles i / 2 ∈ Set.Icc (-M.pi - M.cangles i / 2) (M.pi + M.cangles i / 2) := ⟨by linarith, by linarith⟩
  have mb : θ i + M.cangles i / 2 ∈ Set.Icc (-M.pi - M.cangles i / 2) (M.pi + M.cangles i / 2) := ⟨by linarith, by linarith⟩
  have mc : M.cangles i / 2 ∈ Set.Icc (-M.pi - M.cangles i / 2) (M.pi + M.cangles i / 2) := ⟨by linarith, by linarith⟩
  have md : -M.cangles i / 2 ∈ Set.Icc (-M.pi - M.cangles i / 2) (M.pi + M.cangles i / 2) := ⟨by linarith, by linarith⟩
  have hb0 : θ i < M.pi + 1 / 100000 ∧ θ i > -M.pi - 1 / 100000 := ⟨by linarith, by linarith⟩
  by_cases h1 : 0 < θ i ∧ θ i < M.cangles i
  · refine key ((M.cangles i / 2, θ i + M.cangles i / 2), (-M.cangles i / 2, θ i - M.cangles i / 2)) (by unfold intBounds; rw [if_pos hb0, if_pos h1]) (h.within i (by simp only; linarith) (by simp only; linarith [h1.1]) (by simp only; linarith))
      (h.within i (by simp only; linarith) (by simp only; linarith [h1.1]) (by simp only; linarith)) c1 c2 ?_
    unfold change
    simp only
    rw [integral_interval_sub_interval_comm (I mc mb) (I md ma) (I mc md)]
    rw [integral_interval_sub_interval_comm (I ma mb) (I md mc) (I ma md)]
    have e := integral_add_adjacent_intervals (I ma mc) (I mc mb)
    have e2 := integral_add_adjacent_intervals (I md ma) (I ma mc)
    have s1 := integral_symm (μ := volume) (f := fun t => g i t ^ 2) (θ i - M.cangles i / 2) (-M.cangles i / 2)
    have s2 := integral_symm (μ := volume) (f := fun t => g i t ^ 2) (M.cangles i / 2) (-M.cangles i / 2)
    have s3 := integral_symm (μ := volume) (f := fun t => g i t ^ 2) (M.cangles i / 2) (θ i + M.cangles i / 2)
    have s4 := integral_symm (μ := volume) (f := fun t => g i t ^ 2) (θ i + M.cangles i / 2) (θ i - M.cangles i / 2)
    linarith
  · by_cases h2 : -M.cangles i < θ i ∧ θ i < 0
    · refine key ((θ i - M.cangles i / 2, -M.cangles i / 2), (θ i + M.cangles i / 2, M.cangles i / 2)) (by unfold intBounds; rw [if_pos hb0, if_neg h1, if_pos h2])
        (h.within i (by simp only; linarith) (by simp only; linarith [h2.2]) (by simp only; linarith)) (h.within i (by simp only; linarith) (by simp only; linarith [h2.2]) (by simp only; linarith)) c3 c4 ?_
      unfold change
      simp only
      have e1 := integral_add_adjacent_intervals (I ma md) (I md mb)
      have e2 := integral_add_adjacent_intervals (I md mb) (I mb mc)
      linarith
    · refine key ((θ i - M.cangles i / 2, θ i + M.cangles i / 2), (-M.cangles i / 2, M.cangles i / 2)) (by unfold intBounds; rw [if_pos hb0, if_neg h1, if_neg h2])
        (h.within i (by simp only; linarith) (by simp only; linarith) (by simp only; linarith)) (h.within i (by simp only; linarith) (by simp only; linarith) (by simp only; linarith)) c3 c2 rfl

/-- Angles in the main range are left alone. -/
theorem adj_id {pi t : ℝ} (hp : 0 < pi) (h1 : -pi < t) (h2 : t ≤ pi) : adj pi t = t := by
  unfold adj
  simp only
  by_cases h0 : 0 ≤ t
  · have hf : ⌊t / (2 * pi)⌋ = 0 := by
      rw [Int.floor_eq_zero_iff]
      exact ⟨by positivity, by rw [div_lt_one (by positivity)]; linarith⟩
    rw [hf]
    simp only [Int.cast_zero, mul_zero, sub_zero]
    rw [if_neg (not_lt.2 h2)]
  · push Not at h0
    have hf : ⌊t / (2 * pi)⌋ = -1 := by
      rw [Int.floor_eq_iff]
      push_cast
      exact ⟨by rw [le_div_iff₀ (by positivity)]; linarith, by rw [div_lt_iff₀ (by positivity)]; linarith⟩
    rw [hf]
    push_cast
    rw [if_pos (by linarith)]
    ring

end Eval

/-- **C110.** Every angle is brought into `(-pi, pi]` by whole turns. -/
theorem C110_turns {pi t : ℝ} (hp : 0 < pi) : -pi < adj pi t ∧ adj pi t ≤ pi ∧ (∃ n : ℤ, adj pi t = t + n * (2 * pi)) ∧ ∀ n : ℤ, adj pi (t + n * (2 * pi)) = adj pi t := by
  have key : ∀ s : ℝ, -pi < adj pi s ∧ adj pi s ≤ pi ∧ ∃ n : ℤ, adj pi s = s + n * (2 * pi) := by
    intro s
    have h1 := Int.floor_le (s / (2 * pi))
    have h2 := Int.lt_floor_add_one (s / (2 * pi))
    rw [le_div_iff₀ (by positivity)] at h1
    rw [div_lt_iff₀ (by positivity)] at h2
    unfold adj
    simp only
    split_ifs with hc
    · exact ⟨by linarith, by linarith, -⌊s / (2 * pi)⌋ - 1, by push_cast; ring⟩
    · exact ⟨by linarith, by linarith, -⌊s / (2 * pi)⌋, by push_cast; ring⟩
  refine ⟨(key t).1, (key t).2.1, (key t).2.2, fun n => ?_⟩
  have hf : ⌊(t + n * (2 * pi)) / (2 * pi)⌋ = ⌊t / (2 * pi)⌋ + n := by
    rw [add_div, mul_div_assoc, div_self (by positivity), mul_one, Int.floor_add_intCast]
  unfold adj
  rw [hf]
  push_cast
  have : t + n * (2 * pi) - 2 * pi * (⌊t / (2 * pi)⌋ + n) = t - 2 * pi * ⌊t / (2 * pi)⌋ := by ring
  rw [this]

/-- **C110.** `eval` is the reactivity of the drums' position: for every drum its weight times the change of the squared current its coating absorbs. -/
theorem C110_eval {M : Model ℝ} {g : Fin 8 → ℝ → ℝ} (h : Sound M g) {θ : Fin 8 → ℝ} (hc : Clear M fun i => adj M.pi (θ i)) : eval M θ none = .ok (reactivity M g fun i => adj M.pi (θ i)) := by
  have hθ : ∀ i, -M.pi < adj M.pi (θ i) ∧ adj M.pi (θ i) ≤ M.pi := fun i => ⟨(C110_turns h.pi).1, (C110_turns h.pi).2.1⟩
  unfold eval
  simp only [bind, Except.bind]
  rw [zetatildes_eq h hc hθ, gather_iff.2 (drumInts_eq h hc hθ)]
  rfl

/-- **C110.** Whole turns of the drums do not change the reactivity; the drums at rest have none. -/
theorem C110_rest {M : Model ℝ} {g : Fin 8 → ℝ → ℝ} (h : Sound M g) : (∀ (θ : Fin 8 → ℝ) (n : Fin 8 → ℤ) nom, eval M (fun i => θ i + n i * (2 * M.pi)) nom = eval M θ nom) ∧
    ((∀ i, M.cangles i / 2 ∉ (drum M i).x ∧ -M.cangles i / 2 ∉ (drum M i).x) → eval M (fun _ => 0) none = .ok 0) := by
  constructor
  · intro θ n nom
    unfold eval
    have : (fun i => adj M.pi (θ i + n i * (2 * M.pi))) = fun i => adj M.pi (θ i) := funext fun i => (C110_turns h.pi).2.2.2 (n i)
    simp only [this]
  · intro hn
    have h0 : adj M.pi 0 = 0 := adj_id h.pi (by linarith [h.pi]) h.pi.le
    rw [C110_eval h (θ := fun _ => 0) (fun i => by
      simp only [h0, zero_sub, zero_add]
      refine ⟨(hn i).1, (hn i).2, ?_, (hn i).1⟩
      rw [← neg_div]
      exact (hn i).2)]
    simp only [h0]
    congr 1
    unfold reactivity
    refine Finset.sum_eq_zero fun i _ => ?_
    unfold change
    simp only [zero_sub, zero_add, ← neg_div, sub_self, mul_zero]

/-- **C110, defect.** With a starting position `nom` the evaluation raises, whatever the positions. -/
theorem C110_nom {M : Model ℝ} (θ nom : Fin 8 → ℝ) : ∀ v, eval M θ (some nom) ≠ .ok v := by
  intro v h
  unfold eval at h
  simp only [bind, Except.bind] at h
  split at h
  · cases h
  · split at h <;> cases h

section Grad

variable {M : Model ℝ} {g : Fin 8 → ℝ → ℝ}

theorem deriv_window {h : ℝ → ℝ} (hh : Continuous h) (c t : ℝ) : HasDerivAt (fun s => ∫ r in (s - c / 2)..(s + c / 2), h r) (h (t + c / 2) - h (t - c / 2)) t := by
  have e : (fun s => ∫ r in (s - c / 2)..(s + c / 2), h r) = fun s => (∫ r in (0 : ℝ)..(s + c / 2), h r) - ∫ r in (0 : ℝ)..(s - c / 2), h r := by
    funext s
    rw [integral_interval_sub_left (hh.intervalIntegrable _ _) (hh.intervalIntegrable _ _)]
  rw [e]
  have d : ∀ b, HasDerivAt (fun u => ∫ r in (0 : ℝ)..u, h r) (h b) b := fun b => (hh.integral_hasStrictDerivAt 0 b).hasDerivAt
  have d1 : HasDerivAt (fun s => ∫ r in (0 : ℝ)..(s + c / 2), h r) (h (t + c / 2)) t := by
    simpa [Function.comp_def] using (d (t + c / 2)).comp t ((hasDerivAt_id t).add_const (c / 2))
  have d2 : HasDerivAt (fun s => ∫ r in (0 : ℝ)..(s - c / 2), h r) (h (t - c / 2)) t := by
    simpa [Function.comp_def] using (d (t - c / 2)).comp t ((hasDerivAt_id t).sub_const (c / 2))
  exact d1.fun_sub d2

theorem Sound.smooth (h : Sound M g) : Sound M fun i => Reactivity.curve (drum M i).x (drum M i).y :=
  ⟨h.pi, h.ordered, fun i => curve_interpolates (h.ordered i).1, h.width, h.covers⟩

theorem deriv_weight (hg : ∀ i, Continuous (g i)) (θ : Fin 8 → ℝ) (k i : Fin 8) :
    HasDerivAt (fun t => weight M g (Function.update θ k t) i) (M.alphas i k.succ * (-g k (θ k + M.cangles k / 2) + g k (θ k - M.cangles k / 2))) (θ k) := by
  unfold weight
  have hs : HasDerivAt (fun t => ∑ j : Fin 8, M.alphas i j.succ * (1 - ∫ s in (Function.update θ k t j - M.cangles j / 2)..(Function.update θ k t j + M.cangles j / 2), g j s))
      (∑ j : Fin 8, if j = k then M.alphas i k.succ * (-g k (θ k + M.cangles k / 2) + g k (θ k - M.cangles k / 2)) else 0) (θ k) := by
    refine HasDerivAt.fun_sum fun j _ => ?_
    by_cases hj : j = k
    · subst hj
      simp only [Function.update_self, if_true]
      refine (((deriv_window (hg j) (M.cangles j) (θ j)).const_sub 1).const_mul (M.alphas i j.succ)).congr_deriv ?_
      ring
    · simp only [Function.update_of_ne hj, if_neg hj]
      exact hasDerivAt_const _ _
  rw [Finset.sum_ite_eq' Finset.univ k, if_pos (Finset.mem_univ k)] at hs
  exact hs.const_add _

theorem deriv_change (hg : ∀ i, Continuous (g i)) (θ : Fin 8 → ℝ) (k i : Fin 8) :
    HasDerivAt (fun t => change M g (Function.update θ k t) i) (if i = k then g k (θ k + M.cangles k / 2) ^ 2 - g k (θ k - M.cangles k / 2) ^ 2 else 0) (θ k) := by
  unfold change
  by_cases hi : i = k
  · subst hi
    simp only [Function.update_self, if_true]
    exact (deriv_window (h := fun t => g i t ^ 2) ((hg i).pow 2) (M.cangles i) (θ i)).sub_const _
  · simp only [Function.update_of_ne hi, if_neg hi]
    exact hasDerivAt_const _ _

theorem deriv_reactivity (hg : ∀ i, Continuous (g i)) (θ : Fin 8 → ℝ) (k : Fin 8) :
    HasDerivAt (fun t => reactivity M g (Function.update θ k t)) (∑ i, (M.alphas i k.succ * (-g k (θ k + M.cangles k / 2) + g k (θ k - M.cangles k / 2)) * change M g θ i +
      if i = k then weight M g θ k * (g k (θ k + M.cangles k / 2) ^ 2 - g k (θ k - M.cangles k / 2) ^ 2) else 0)) (θ k) := by
  unfold reactivity
  refine HasDerivAt.fun_sum fun i _ => ?_
  have := (deriv_weight (M := M) hg θ k i).mul (deriv_change (M := M) hg θ k i)
  refine this.congr_deriv ?_
  simp only [Function.update_eq_self]
  congr 1
  split_ifs with hi
  · rw [hi]
  · simp

theorem edge_current (h : Sound M g) (k : Fin 8) {t : ℝ} (h1 : -M.pi - M.cangles k / 2 ≤ t) (h2 : t ≤ M.pi + M.cangles k / 2) : jmfs M k t = .ok (g k t) := by
  obtain ⟨p, q, hp, hq, h3, h4⟩ := h.covers k
  rw [jmfs_eq]
  exact (C110_lookup (h.ordered k) (h.long k) hp hq).2.1 _ (h.curve k) t (h3.trans h1) (h2.trans h4)

theorem evald_eq (h : Sound M g) {θ : Fin 8 → ℝ} (hθ : ∀ i, -M.pi < θ i ∧ θ i ≤ M.pi) (hc : Clear M θ) (k : Fin 8) (z : Option (Fin 8 → ℝ)) (hz : ∀ w, z = some w → w = weight M g θ) :
    evald M θ k z = .ok (∑ i, (M.alphas i k.succ * (-g k (θ k + M.cangles k / 2) + g k (θ k - M.cangles k / 2)) * change M g θ i +
      if i = k then weight M g θ k * (g k (θ k + M.cangles k / 2) ^ 2 - g k (θ k - M.cangles k / 2) ^ 2) else 0)) := by
  have ha : ∀ i, adj M.pi (θ i) = θ i := fun i => adj_id h.pi (hθ i).1 (hθ i).2
  have hw := h.width k
  have e1 := edge_current h k (t := θ k + M.cangles k / 2) (by linarith [(hθ k).1]) (by linarith [(hθ k).2])
  have e2 := edge_current h k (t := θ k - M.cangles k / 2) (by linarith [(hθ k).1]) (by linarith [(hθ k).2])
  have e3 : zetatildes M (fun i => θ i) = .ok (weight M g θ) := zetatildes_eq h hc hθ
  have e4 : gather (drumInts M (fun i => θ i)) = .ok (change M g θ) := gather_iff.2 (drumInts_eq h hc hθ)
  cases z with
  | none =>
    unfold evald dzetatildes calcW
    simp only [ha, e1, e2, e3, e4, bind, Except.bind]
  | some w =>
    rw [hz w rfl]
    unfold evald dzetatildes calcW
    simp only [ha, e1, e2, e4, bind, Except.bind]

end Grad

/-- **C110.** `evald` is the partial derivative of `eval` with respect to the angle of drum `k`, for drums inside the main range. -/
theorem C110_derivative {M : Model ℝ} {g : Fin 8 → ℝ → ℝ} (h : Sound M g) {θ : Fin 8 → ℝ} (hθ : ∀ i, -M.pi < θ i ∧ θ i ≤ M.pi) (hc : Clear M θ) (k : Fin 8) (hk : θ k < M.pi) :
    ∃ f D, (∀ᶠ t in nhds (θ k), eval M (Function.update θ k t) none = .ok (f t)) ∧ evald M θ k none = .ok D ∧ HasDerivAt f D (θ k) := by
  have hs := h.smooth
  refine ⟨_, _, ?_, evald_eq hs hθ hc k none (by simp), deriv_reactivity (M := M) (g := fun i => Reactivity.curve (drum M i).x (drum M i).y) (fun i => curve_continuous _ _) θ k⟩
  have fin : ∀ φ : ℝ → ℝ, Continuous φ → φ (θ k) ∉ (drum M k).x → ∀ᶠ t in nhds (θ k), φ t ∉ (drum M k).x := by
    intro φ hφ hn
    have hcl : IsClosed {v : ℝ | v ∈ (drum M k).x} := (List.finite_toSet (drum M k).x).isClosed
    exact (hφ.tendsto (θ k)).eventually (hcl.isOpen_compl.mem_nhds hn)
  have e1 := fin (fun t => t - M.cangles k / 2) (by fun_prop) (hc k).2.2.1
  have e2 := fin (fun t => t + M.cangles k / 2) (by fun_prop) (hc k).2.2.2
  have e3 : ∀ᶠ t in nhds (θ k), t ∈ Set.Ioo (-M.pi) M.pi := isOpen_Ioo.mem_nhds ⟨(hθ k).1, hk⟩
  filter_upwards [e1, e2, e3] with t t1 t2 t3
  have ha : (fun i => adj M.pi (Function.update θ k t i)) = Function.update θ k t := funext fun i => by
    by_cases hi : i = k
    · subst hi
      rw [Function.update_self]
      exact adj_id h.pi t3.1 t3.2.le
    · rw [Function.update_of_ne hi]
      exact adj_id h.pi (hθ i).1 (hθ i).2
  have := C110_eval hs (θ := Function.update θ k t) (by
    rw [ha]
    intro i
    by_cases hi : i = k
    · subst hi
      rw [Function.update_self]
      exact ⟨(hc i).1, (hc i).2.1, t1, t2⟩
    · rw [Function.update_of_ne hi]
      exact hc i)
  rw [this, ha]

/-- **C110.** `evalg` is the gradient: its entries are the values of `evald`. -/
theorem C110_gradient {M : Model ℝ} {g : Fin 8 → ℝ → ℝ} (h : Sound M g) {θ : Fin 8 → ℝ} (hθ : ∀ i, -M.pi < θ i ∧ θ i ≤ M.pi) (hc : Clear M θ) :
    ∃ D, evalg M θ = .ok D ∧ ∀ k, evald M θ k none = .ok (D k) := by
  refine ⟨_, ?_, fun k => evald_eq h hθ hc k none (by simp)⟩
  unfold evalg
  simp only [bind, Except.bind]
  rw [zetatildes_eq h hc hθ]
  exact gather_iff.2 fun k => evald_eq h hθ hc k (some _) (by simp)

/-- **C110, defect.** `evalg` computes the weights from the angles as given: with a drum turned beyond the end of its table it raises, though `eval` and `evald` accept every angle. -/
theorem C110_far {M : Model ℝ} {θ : Fin 8 → ℝ} {k : Fin 8} (hk : ∀ v ∈ (drum M k).x, v < θ k - M.cangles k / 2) : ∀ v, evalg M θ ≠ .ok v := by
  intro v hv
  unfold evalg zetatildes at hv
  simp only [bind, Except.bind] at hv
  have herr : integrate (drum M k).x (drum M k).y (θ k - M.cangles k / 2) (θ k + M.cangles k / 2) = .error .indexError := by
    have hin : inside (drum M k).x (θ k - M.cangles k / 2) (θ k + M.cangles k / 2) = [] := by
      unfold inside
      rw [List.filter_eq_nil_iff]
      intro j hj
      rw [List.mem_range] at hj
      rw [List.getElem?_eq_getElem hj]
      simp only [Option.any_some, decide_eq_true_eq]
      rintro ⟨a, -⟩
      exact absurd a (not_lt.2 (hk _ (List.getElem_mem hj)).le)
    have hs : searchLeft (drum M k).x (θ k - M.cangles k / 2) = (drum M k).x.length := by
      unfold searchLeft
      exact List.countP_eq_length.2 fun v hv => by simpa using hk v hv
    have hi : ∀ i : ℤ, item (drum M k).x i = .error .indexError ∨ ∃ w, item (drum M k).x i = .ok w := by
      intro i
      cases hh : item (drum M k).x i with
      | ok w => exact Or.inr ⟨w, rfl⟩
      | error e =>
        left
        unfold item at hh
        simp only at hh
        split_ifs at hh
        all_goals first | (cases hh; rfl) | (split at hh <;> cases hh; rfl)
    have hn : item (drum M k).x ((drum M k).x.length : ℤ) = .error .indexError := by
      unfold item
      have h1 : ¬ (((drum M k).x.length : ℤ) < 0) := by omega
      simp only [h1, if_false, Int.toNat_natCast]
      rw [List.getElem?_eq_none (by omega)]
    unfold integrate
    rw [hin]
    simp only [hs, lin, bind, Except.bind, hn]
    rcases hi (((drum M k).x.length : ℤ) - 1) with e | ⟨w, e⟩ <;> rw [e]
  split at hv
  · cases hv
  · rename_i v0 hz
    split at hz
    · cases hz
    · rename_i gs hgs
      have := gather_iff.1 hgs k
      by_cases hA : k = 0 ∨ k = 3 ∨ k = 4 ∨ k = 7
      · rw [if_pos ((configA_iff k).2 hA)] at this
        unfold drum at herr
        rw [if_pos hA] at herr
        rw [herr] at this
        cases this
      · rw [if_neg (fun hh => hA ((configA_iff k).1 hh))] at this
        unfold drum at herr
        rw [if_neg hA] at herr
        rw [herr] at this
        cases this

section Table

/-- Shifted and brought into the main range. -/
noncomputable def wrapped (pi shift a : ℝ) : ℝ := if a - shift < -pi then a - shift + 2 * pi else a - shift

theorem wrapped_spec {pi shift a : ℝ} (hp : 0 < pi) (h1 : pi ≤ shift) (h2 : shift ≤ 2 * pi) (ha : 0 ≤ a) (ha' : a < 2 * pi) :
    -pi ≤ wrapped pi shift a ∧ wrapped pi shift a < pi ∧ ∃ k : ℤ, wrapped pi shift a = a - shift + k * (2 * pi) := by
  unfold wrapped
  split_ifs with h
  · exact ⟨by linarith, by linarith, 1, by simp⟩
  · exact ⟨by linarith, by linarith, 0, by simp⟩

theorem turn_unique {pi : ℝ} (hp : 0 < pi) {a b : ℝ} {k : ℤ} (h : a = b + k * (2 * pi)) (h1 : |a - b| < 2 * pi) : k = 0 := by
  have e : |(k : ℝ)| * (2 * pi) < 1 * (2 * pi) := by
    have : a - b = k * (2 * pi) := by linarith
    rw [this, abs_mul, abs_of_pos (show (0 : ℝ) < 2 * pi by linarith)] at h1
    linarith
  have e2 : |(k : ℝ)| < 1 := lt_of_mul_lt_mul_right e (by linarith)
  have : |k| < 1 := by exact_mod_cast e2
  exact Int.abs_lt_one_iff.1 this

variable {pi shift : ℝ} {rows : List (ℝ × ℝ)}

/-- The sorted table is three copies of one sorted turn. -/
theorem jminus_copies (hp : 0 < pi) (h1 : pi ≤ shift) (h2 : shift ≤ 2 * pi) (hr : ∀ p ∈ rows, 0 ≤ p.1 ∧ p.1 < 2 * pi) (hd : (rows.map Prod.fst).Nodup) :
    ∃ S : List (ℝ × ℝ), S.Perm (rows.map fun p => (wrapped pi shift p.1, p.2)) ∧ (S.map Prod.fst).Pairwise (· < ·) ∧ (∀ p ∈ S, -pi ≤ p.1 ∧ p.1 < pi) ∧
      jminus pi shift rows = S.map (fun p => (p.1 - 2 * pi, p.2)) ++ S ++ S.map (fun p => (p.1 + 2 * pi, p.2)) ∧
      ((S.map (fun p => (p.1 - 2 * pi, p.2)) ++ S ++ S.map (fun p => (p.1 + 2 * pi, p.2))).map Prod.fst).Pairwise (· < ·) := by
  set r := rows.map fun p => (wrapped pi shift p.1, p.2) with hrdef
  have base : ((rows.map fun p => (p.1 - shift, p.2)).map fun p => if p.1 < -pi then (p.1 + 2 * pi, p.2) else p) = r := by
    rw [hrdef, List.map_map]
    refine List.map_congr_left fun p _ => ?_
    simp only [Function.comp, wrapped]
    split_ifs <;> rfl
  have htr : ∀ a b c : ℝ × ℝ, decide (a.1 ≤ b.1) = true → decide (b.1 ≤ c.1) = true → decide (a.1 ≤ c.1) = true := by
    intro a b c; simp only [decide_eq_true_eq]; exact le_trans
  have hto : ∀ a b : ℝ × ℝ, (decide (a.1 ≤ b.1) || decide (b.1 ≤ a.1)) = true := by
    intro a b; simp only [Bool.or_eq_true, decide_eq_true_eq]; exact le_total _ _
  set S := r.mergeSort fun a b => decide (a.1 ≤ b.1) with hS
  have hperm : S.Perm r := List.mergeSort_perm _ _
  have hrange : ∀ p ∈ S, -pi ≤ p.1 ∧ p.1 < pi := by
    intro p hpS
    have := hperm.mem_iff.1 hpS
    rw [hrdef, List.mem_map] at this
    obtain ⟨q, hq, rfl⟩ := this
    have := wrapped_spec hp h1 h2 (hr q hq).1 (hr q hq).2
    exact ⟨this.1, this.2.1⟩
  have hnd : (S.map Prod.fst).Nodup := by
    rw [(hperm.map Prod.fst).nodup_iff, hrdef, List.map_map]
    have hd' := hd
    rw [List.nodup_map_iff_inj_on (List.Nodup.of_map _ hd)] at hd'
    rw [List.nodup_map_iff_inj_on (List.Nodup.of_map _ hd)]
    intro p hp' q hq e
    simp only [Function.comp] at e
    apply hd' p hp' q hq
    obtain ⟨-, -, k1, e1⟩ := wrapped_spec hp h1 h2 (hr p hp').1 (hr p hp').2
    obtain ⟨-, -, k2, e2⟩ := wrapped_spec hp h1 h2 (hr q hq).1 (hr q hq).2
    have e3 : p.1 = q.1 + ((k2 - k1 : ℤ) : ℝ) * (2 * pi) := by push_cast; linarith
    have k0 := turn_unique hp e3 (by
      rw [abs_lt]
      exact ⟨by linarith [(hr p hp').1, (hr q hq).2], by linarith [(hr p hp').2, (hr q hq).1]⟩)
    rw [k0] at e3
    simpa using e3
  have hsorted : S.Pairwise fun a b => decide (a.1 ≤ b.1) = true := List.pairwise_mergeSort htr hto r
  have hlt : (S.map Prod.fst).Pairwise (· < ·) := by
    have h3 : (S.map Prod.fst).Pairwise (· ≤ ·) := by
      rw [List.pairwise_map]
      exact hsorted.imp fun h => by simpa using h
    exact (List.Pairwise.and h3 hnd).imp fun h => lt_of_le_of_ne h.1 h.2
  set T := S.map (fun p => (p.1 - 2 * pi, p.2)) ++ S ++ S.map (fun p => (p.1 + 2 * pi, p.2)) with hT
  have hTlt : (T.map Prod.fst).Pairwise (· < ·) := by
    rw [List.pairwise_map] at hlt ⊢
    rw [hT, List.pairwise_append, List.pairwise_append, List.pairwise_map, List.pairwise_map]
    refine ⟨⟨hlt.imp fun h => by simpa using h, hlt, ?_⟩, hlt.imp fun h => by simpa using h, ?_⟩
    · intro a ha b hb
      rw [List.mem_map] at ha
      obtain ⟨a, ha, rfl⟩ := ha
      simp only
      linarith [(hrange a ha).2, (hrange b hb).1]
    · intro a ha b hb
      rw [List.mem_map] at hb
      obtain ⟨b, hb, rfl⟩ := hb
      simp only
      rw [List.mem_append, List.mem_map] at ha
      rcases ha with ⟨a, ha, rfl⟩ | ha
      · simp only
        linarith [(hrange a ha).2, (hrange b hb).1]
      · linarith [(hrange a ha).2, (hrange b hb).1]
  refine ⟨S, hperm, hlt, hrange, ?_, hTlt⟩
  unfold jminus
  simp only [base]
  have hTr : T.Perm (r ++ r.map (fun p => (p.1 - 2 * pi, p.2)) ++ r.map fun p => (p.1 + 2 * pi, p.2)) := by
    rw [hT]
    refine List.Perm.append (List.perm_append_comm.trans (List.Perm.append hperm (hperm.map _))) (hperm.map _)
  have hnodT : (T.map Prod.fst).Nodup := hTlt.imp fun h => ne_of_lt h
  refine List.Perm.eq_of_pairwise (le := fun a b => decide (a.1 ≤ b.1) = true) ?_ (List.pairwise_mergeSort htr hto _) ?_ ((List.mergeSort_perm _ _).trans hTr.symm)
  · intro a b ha hb e1 e2
    simp only [decide_eq_true_eq] at e1 e2
    have ha' : a ∈ T := hTr.mem_iff.2 ((List.mergeSort_perm _ _).mem_iff.1 ha)
    exact (List.nodup_map_iff_inj_on (List.Nodup.of_map _ hnodT)).1 hnodT a ha' b hb (le_antisymm e1 e2)
  · rw [List.pairwise_map] at hTlt
    exact hTlt.imp fun h => by simpa using h.le

theorem copies_getD (S : List (ℝ × ℝ)) (d : ℝ) {i : ℕ} (hi : i < 2 * S.length) :
    (((S.map (fun p => (p.1 - d, p.2)) ++ S ++ S.map (fun p => (p.1 + d, p.2))).map Prod.fst).getD (i + S.length) 0 =
      ((S.map (fun p => (p.1 - d, p.2)) ++ S ++ S.map (fun p => (p.1 + d, p.2))).map Prod.fst).getD i 0 + d) ∧
    (((S.map (fun p => (p.1 - d, p.2)) ++ S ++ S.map (fun p => (p.1 + d, p.2))).map Prod.snd).getD (i + S.length) 0 =
      ((S.map (fun p => (p.1 - d, p.2)) ++ S ++ S.map (fun p => (p.1 + d, p.2))).map Prod.snd).getD i 0) := by
  rw [gd (by simp; omega), gd (by simp; omega), gd (by simp; omega), gd (by simp; omega)]
  simp only [List.getElem_map]
  rcases Nat.lt_or_ge i S.length with h | h
  · have e1 : (S.map (fun p => (p.1 - d, p.2)) ++ S ++ S.map (fun p => (p.1 + d, p.2)))[i + S.length]'(by simp; omega) = S[i] := by
      rw [List.getElem_append_left (by simp; omega), List.getElem_append_right (by simp)]
      simp
    have e2 : (S.map (fun p => (p.1 - d, p.2)) ++ S ++ S.map (fun p => (p.1 + d, p.2)))[i]'(by simp; omega) = (S[i].1 - d, S[i].2) := by
      rw [List.getElem_append_left (by simp; omega), List.getElem_append_left (by simp; omega)]
      simp
    rw [e1, e2]
    simp
  · have e1 : (S.map (fun p => (p.1 - d, p.2)) ++ S ++ S.map (fun p => (p.1 + d, p.2)))[i + S.length]'(by simp; omega) = (S[i - S.length].1 + d, S[i - S.length].2) := by
      rw [List.getElem_append_right (by simp; omega)]
      have idx : i + S.length - (S.length + S.length) = i - S.length := by omega
      simp only [List.getElem_map, List.length_append, List.length_map, idx]
    have e2 : (S.map (fun p => (p.1 - d, p.2)) ++ S ++ S.map (fun p => (p.1 + d, p.2)))[i]'(by simp; omega) = S[i - S.length] := by
      rw [List.getElem_append_left (by simp; omega), List.getElem_append_right (by simp; omega)]
      simp
    rw [e1, e2]
    exact ⟨rfl, rfl⟩

end Table

/-- **C110.** The table of the currents: every row of the file appears at its shifted angle and at all whole turns of it between `-3 pi` and `3 pi`, nothing else does, the angles increase, and the curve through the
table repeats after a whole turn. -/
theorem C110_table {pi shift : ℝ} (hp : 0 < pi) (h1 : pi ≤ shift) (h2 : shift ≤ 2 * pi) {rows : List (ℝ × ℝ)} (hr : ∀ p ∈ rows, 0 ≤ p.1 ∧ p.1 < 2 * pi) (hd : (rows.map Prod.fst).Nodup) :
    (jminus pi shift rows).length = 3 * rows.length ∧
    Ordered ((jminus pi shift rows).map Prod.fst) ((jminus pi shift rows).map Prod.snd) ∧
    (∀ e, e ∈ jminus pi shift rows ↔ ∃ p ∈ rows, ∃ k : ℤ, e = (p.1 - shift + k * (2 * pi), p.2) ∧ -3 * pi ≤ e.1 ∧ e.1 < 3 * pi) ∧
    ∀ g, Interpolates ((jminus pi shift rows).map Prod.fst) ((jminus pi shift rows).map Prod.snd) g → ∀ a b t, ((jminus pi shift rows).map Prod.fst).head? = some a →
      ((jminus pi shift rows).map Prod.fst).getLast? = some b → a ≤ t → t + 2 * pi ≤ b → g (t + 2 * pi) = g t := by
  obtain ⟨S, hperm, hlt, hrange, hj, hTlt⟩ := jminus_copies hp h1 h2 hr hd
  have hlen : S.length = rows.length := by rw [hperm.length_eq, List.length_map]
  refine ⟨by rw [hj]; simp; omega, ?_, ?_, ?_⟩
  · rw [hj]
    exact ⟨hTlt, by simp⟩
  · intro e
    rw [hj]
    have hS : ∀ q, q ∈ S ↔ ∃ p ∈ rows, q = (wrapped pi shift p.1, p.2) := fun q => by
      rw [hperm.mem_iff, List.mem_map]
      exact ⟨fun ⟨p, h3, h4⟩ => ⟨p, h3, h4.symm⟩, fun ⟨p, h3, h4⟩ => ⟨p, h3, h4.symm⟩⟩
    constructor
    · intro he
      rw [List.mem_append, List.mem_append, List.mem_map, List.mem_map] at he
      rcases he with (⟨q, hq, rfl⟩ | he) | ⟨q, hq, rfl⟩
      · obtain ⟨p, hp', rfl⟩ := (hS q).1 hq
        obtain ⟨a1, a2, k, a3⟩ := wrapped_spec hp h1 h2 (hr p hp').1 (hr p hp').2
        exact ⟨p, hp', k - 1, by simp only [a3]; push_cast; congr 1; ring, by simp only; linarith, by simp only; linarith⟩
      · obtain ⟨p, hp', rfl⟩ := (hS e).1 he
        obtain ⟨a1, a2, k, a3⟩ := wrapped_spec hp h1 h2 (hr p hp').1 (hr p hp').2
        exact ⟨p, hp', k, by simp only [a3], by simp only; linarith, by simp only; linarith⟩
      · obtain ⟨p, hp', rfl⟩ := (hS q).1 hq
        obtain ⟨a1, a2, k, a3⟩ := wrapped_spec hp h1 h2 (hr p hp').1 (hr p hp').2
        exact ⟨p, hp', k + 1, by simp only [a3]; push_cast; congr 1; ring, by simp only; linarith, by simp only; linarith⟩
    · rintro ⟨p, hp', k, he, b1, b2⟩
      obtain ⟨a1, a2, k', a3⟩ := wrapped_spec hp h1 h2 (hr p hp').1 (hr p hp').2
      have hmem := (hS _).2 ⟨p, hp', rfl⟩
      have e1 : e.1 = wrapped pi shift p.1 + ((k - k' : ℤ) : ℝ) * (2 * pi) := by rw [he, a3]; push_cast; ring
      have e2 : e.2 = p.2 := by rw [he]
      rw [List.mem_append, List.mem_append, List.mem_map, List.mem_map]
      rcases lt_or_ge e.1 (-pi) with c1 | c1
      · have := turn_unique hp (a := e.1 + 2 * pi) (b := wrapped pi shift p.1) (k := k - k' + 1) (by rw [e1]; push_cast; ring) (by rw [abs_lt]; exact ⟨by linarith, by linarith⟩)
        refine Or.inl (Or.inl ⟨_, hmem, ?_⟩)
        rw [show k - k' = -1 by omega] at e1
        refine Prod.ext ?_ e2.symm
        rw [e1]
        push_cast
        ring
      · rcases lt_or_ge e.1 pi with c2 | c2
        · have := turn_unique hp (a := e.1) (b := wrapped pi shift p.1) (k := k - k') e1 (by rw [abs_lt]; exact ⟨by linarith, by linarith⟩)
          refine Or.inl (Or.inr ?_)
          rw [this] at e1
          have : e = (wrapped pi shift p.1, p.2) := Prod.ext (by rw [e1]; simp) e2
          rw [this]
          exact hmem
        · have := turn_unique hp (a := e.1 - 2 * pi) (b := wrapped pi shift p.1) (k := k - k' - 1) (by rw [e1]; push_cast; ring) (by rw [abs_lt]; exact ⟨by linarith, by linarith⟩)
          refine Or.inr ⟨_, hmem, ?_⟩
          rw [show k - k' = 1 by omega] at e1
          refine Prod.ext ?_ e2.symm
          rw [e1]
          push_cast
          ring
  · rw [hj]
    intro g hg a b t ha hb h3 h4
    set x := (S.map (fun p => (p.1 - 2 * pi, p.2)) ++ S ++ S.map (fun p => (p.1 + 2 * pi, p.2))).map Prod.fst with hx
    set y := (S.map (fun p => (p.1 - 2 * pi, p.2)) ++ S ++ S.map (fun p => (p.1 + 2 * pi, p.2))).map Prod.snd with hy
    have hxl : x.length = 3 * S.length := by rw [hx]; simp; omega
    have hpos := (head_eq ha).2
    have hn : 0 < S.length := by omega
    obtain ⟨i, hi, t1, t2⟩ := segment hTlt (by omega) ha hb h3 (by linarith)
    have hlast := last_eq hb
    obtain ⟨j, hj1, hj2, hj3⟩ : ∃ j, j + 1 < 2 * S.length ∧ x.getD j 0 ≤ t ∧ t ≤ x.getD (j + 1) 0 := by
      by_cases hc : i + 1 < 2 * S.length
      · exact ⟨i, hc, t1, t2⟩
      · have k1 := (copies_getD S (2 * pi) (i := 2 * S.length - 1) (by omega)).1
        rw [← hx] at k1
        rw [show x.length - 1 = 2 * S.length - 1 + S.length by omega, k1] at hlast
        refine ⟨2 * S.length - 2, by omega, ?_, ?_⟩
        · exact (getD_le hTlt (by omega) (by omega)).trans t1
        · rw [show 2 * S.length - 2 + 1 = 2 * S.length - 1 by omega]
          linarith
    have k1 := copies_getD S (2 * pi) (i := j) (by omega)
    have k2 := copies_getD S (2 * pi) (i := j + 1) (by omega)
    rw [← hx, ← hy] at k1 k2
    rw [hg j (by omega) t hj2 hj3]
    have e := hg (j + S.length) (by omega) (t + 2 * pi)
    rw [show j + S.length + 1 = j + 1 + S.length by omega, k1.1, k2.1, k1.2, k2.2] at e
    rw [e (by linarith) (by linarith)]
    ring

section Examples

/-- A table with a peak: the integrals are those of the broken line. -/
example : integrate (K := ℚ) [0, 1, 2, 4] [0, 1, 0, 2] (1 / 2) 3 = .ok (11 / 8) ∧ integrateSq (K := ℚ) [0, 1, 2, 4] [0, 1, 0, 2] 1 3 = .ok (2 / 3) := by decide +kernel

/-- The defect of `C110_node`: 5/8 instead of 3/8. -/
example : integrate (K := ℚ) [0, 1, 2] [0, 1, 0] 1 (3 / 2) = .ok (5 / 8) := by decide +kernel

/-- The hypotheses of `C110_table` for a turn of three rows; its wrapped copy of the first row is in the table. -/
example : (0 : ℝ) < 3 ∧ (3 : ℝ) ≤ 4 ∧ (4 : ℝ) ≤ 2 * 3 ∧ (∀ p ∈ [((1 : ℝ), (10 : ℝ)), (2, 20), (5, 50)], 0 ≤ p.1 ∧ p.1 < 2 * 3) ∧ ([((1 : ℝ), (10 : ℝ)), (2, 20), (5, 50)].map Prod.fst).Nodup ∧
    ((-8 : ℝ), (20 : ℝ)) ∈ jminus (3 : ℝ) 4 [(1, 10), (2, 20), (5, 50)] := by
  have h : (∀ p ∈ [((1 : ℝ), (10 : ℝ)), (2, 20), (5, 50)], 0 ≤ p.1 ∧ p.1 < 2 * 3) := by
    intro p hp
    simp only [List.mem_cons, List.not_mem_nil, or_false] at hp
    rcases hp with rfl | rfl | rfl <;> norm_num
  have hd : ([((1 : ℝ), (10 : ℝ)), (2, 20), (5, 50)].map Prod.fst).Nodup := by simp
  refine ⟨by norm_num, by norm_num, by norm_num, h, hd, ?_⟩
  rw [(C110_table (by norm_num) (by norm_num) (by norm_num) h hd).2.2.1]
  exact ⟨(2, 20), by simp, -1, by norm_num, by norm_num, by norm_num⟩

noncomputable def peak : Model ℝ := ⟨3, ⟨[-10, 0, 10], [1, 2, 1]⟩, ⟨[-10, 0, 10], [0, 1, 3]⟩, fun i j => i.val + j.val, fun _ => 1⟩

/-- The hypotheses of the theorems on `eval` and its derivatives are met by a small model with every drum at angle 1. -/
example : Sound peak (fun i => curve (drum peak i).x (drum peak i).y) ∧ Clear peak (fun _ => 1) ∧ ∀ i : Fin 8, -peak.pi < (1 : ℝ) ∧ (1 : ℝ) < peak.pi := by
  have hx : ∀ i, (drum peak i).x = [-10, 0, 10] := fun i => by unfold drum; split_ifs <;> rfl
  have hy : ∀ i, (drum peak i).y.length = 3 := fun i => by unfold drum; split_ifs <;> rfl
  have ho : ∀ i, Ordered (drum peak i).x (drum peak i).y := fun i => by
    refine ⟨?_, by rw [hx, hy]; rfl⟩
    rw [hx]
    simp
  refine ⟨⟨by simp [peak], ho, fun i => curve_interpolates (ho i).1, fun i => by simp [peak], fun i => ⟨-10, 10, by rw [hx]; rfl, by rw [hx]; rfl, by simp only [peak]; norm_num, by simp only [peak]; norm_num⟩⟩, ?_, ?_⟩
  · intro i
    rw [hx]
    simp only [peak, List.mem_cons, List.not_mem_nil, or_false]
    norm_num
  · intro i
    simp only [peak]
    norm_num

end Examples

end Neorl.Reactivity

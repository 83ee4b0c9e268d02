import Verif.DTLZ
import Verif.Props.Classic

/-!
# DTLZ2 and its Pareto front (C85)
-/

set_option linter.unusedSectionVars false
set_option linter.unusedVariables false

namespace Neorl.DTLZ

open Real Neorl.Classic

/-! ## Specification -/

/-- The box the variables live in. -/
def Unit01 (x : List ℝ) : Prop := ∀ a ∈ x, 0 ≤ a ∧ a ≤ 1

/-- `u` is at least as good as `v` in every objective and better in one (all are minimised). -/
def Dominates (u v : List ℝ) : Prop :=
  u.length = v.length ∧ (∀ i (h : i < u.length) (h' : i < v.length), u[i] ≤ v[i]) ∧
    ∃ i, ∃ (h : i < u.length) (h' : i < v.length), u[i] < v[i]

/-- `x` is in the box and no point of the box has objectives that dominate its own. -/
def ParetoOptimal (P : Problem) (x : List ℝ) : Prop :=
  x.length = P.nVar ∧ Unit01 x ∧ ∃ F, evaluate1 P x = .ok F ∧
    ∀ y G, y.length = P.nVar → Unit01 y → evaluate1 P y = .ok G → ¬Dominates G F

/-- The sum of the squares. -/
def sumSq (v : List ℝ) : ℝ := (v.map fun a => a ^ 2).sum

/-! ## The objectives of one row -/

/-- All objectives of a row. -/
noncomputable def row (t : List ℝ) (g : ℝ) : List ℝ := (List.range (t.length + 1)).map (objective t g)

theorem row_nil (g : ℝ) : row [] g = [1 + g] := by
  simp [row, objective, prodOf]

theorem row_cons (a : ℝ) (t : List ℝ) (g : ℝ) :
    row (a :: t) g = (row t g).map (fun b => cos (a * π / 2) * b) ++ [(1 + g) * sin (a * π / 2)] := by
  unfold row
  rw [List.length_cons, List.range_succ, List.map_append, List.map_map]
  congr 1
  · refine List.map_congr_left fun i hi => ?_
    have hi' := List.mem_range.1 hi
    obtain ⟨j, hj⟩ : ∃ j, t.length = i + j := ⟨t.length - i, by omega⟩
    have h1 : (a :: t).length - i = j + 1 := by simp; omega
    have h2 : t.length - i = j := by omega
    simp only [objective, h1, h2, Function.comp, List.take_succ_cons, List.getD_cons_succ]
    simp only [prodOf, List.map_cons, List.prod_cons]
    ring
  · simp [objective, prodOf]

theorem row_length (t : List ℝ) (g : ℝ) : (row t g).length = t.length + 1 := by simp [row]

theorem sumSq_append (u v : List ℝ) : sumSq (u ++ v) = sumSq u + sumSq v := by simp [sumSq]

theorem sumSq_scale (c : ℝ) (u : List ℝ) : sumSq (u.map fun b => c * b) = c ^ 2 * sumSq u := by
  induction u with
  | nil => simp [sumSq]
  | cons a t ih =>
    simp only [sumSq, List.map_cons, List.sum_cons] at ih ⊢
    rw [ih]; ring

theorem row_sumSq (t : List ℝ) (g : ℝ) : sumSq (row t g) = (1 + g) ^ 2 := by
  induction t with
  | nil => simp [row_nil, sumSq]
  | cons a t ih =>
    rw [row_cons, sumSq_append, sumSq_scale, ih]
    have := sin_sq_add_cos_sq (a * π / 2)
    simp only [sumSq, List.map_cons, List.map_nil, List.sum_cons, List.sum_nil]
    linear_combination (1 + g) ^ 2 * this

theorem trig_nonneg {a : ℝ} (h : 0 ≤ a ∧ a ≤ 1) : 0 ≤ cos (a * π / 2) ∧ 0 ≤ sin (a * π / 2) := by
  have hp := pi_pos
  have h1 : 0 ≤ a * π := mul_nonneg h.1 hp.le
  have h2 : a * π ≤ 1 * π := mul_le_mul_of_nonneg_right h.2 hp.le
  exact ⟨cos_nonneg_of_neg_pi_div_two_le_of_le (by linarith) (by linarith),
    sin_nonneg_of_nonneg_of_le_pi (by linarith) (by linarith)⟩

theorem row_nonneg {t : List ℝ} (ht : Unit01 t) {g : ℝ} (hg : 0 ≤ g) : ∀ b ∈ row t g, 0 ≤ b := by
  induction t with
  | nil => rw [row_nil]; simp; linarith
  | cons a t ih =>
    intro b hb
    have ha := trig_nonneg (ht a (by simp))
    rw [row_cons, List.mem_append] at hb
    rcases hb with hb | hb
    · obtain ⟨c, hc, rfl⟩ := List.mem_map.1 hb
      exact mul_nonneg ha.1 (ih (fun d hd => ht d (by simp [hd])) c hc)
    · rw [List.mem_singleton.1 hb]
      exact mul_nonneg (by linarith) ha.2

theorem row_scale (t : List ℝ) (g : ℝ) : row t g = (row t 0).map fun b => (1 + g) * b := by
  induction t with
  | nil => simp [row_nil]
  | cons a t ih =>
    rw [row_cons, row_cons, ih]
    simp only [List.map_append, List.map_map, List.map_cons, List.map_nil]
    congr 1
    · refine List.map_congr_left fun b _ => ?_
      simp only [Function.comp]; ring
    · congr 1; ring

theorem sumSq_nonneg (u : List ℝ) : 0 ≤ sumSq u := sumOf_nonneg fun a _ => sq_nonneg a

theorem sumSq_zero {u : List ℝ} (h : sumSq u = 0) : ∀ a ∈ u, a = 0 := fun a ha =>
  pow_eq_zero_iff two_ne_zero |>.1 (sumOf_zero_mem (fun b _ => sq_nonneg b) h a ha)

/-- Every vector of non-negative numbers of norm one is the row of some point of the box. -/
theorem row_onto (m : ℕ) : ∀ v : List ℝ, v.length = m + 1 → (∀ a ∈ v, 0 ≤ a) → sumSq v = 1 →
    ∃ t : List ℝ, t.length = m ∧ Unit01 t ∧ row t 0 = v := by
  induction m with
  | zero =>
    intro v hv hn hs
    obtain ⟨a, rfl⟩ := List.length_eq_one_iff.1 hv
    refine ⟨[], rfl, by simp [Unit01], ?_⟩
    have h0 := hn a (by simp)
    simp only [sumSq, List.map_cons, List.map_nil, List.sum_cons, List.sum_nil, add_zero] at hs
    have : a = 1 := by nlinarith
    rw [row_nil, this, add_zero]
  | succ m ih =>
    intro v hv hn hs
    obtain ⟨w, a, rfl⟩ : ∃ w a, v = w ++ [a] :=
      ⟨v.dropLast, v.getLast (by intro h; simp [h] at hv), (List.dropLast_append_getLast _).symm⟩
    have hw : w.length = m + 1 := by simpa using hv
    have ha : 0 ≤ a := hn a (by simp)
    have hwn : ∀ b ∈ w, 0 ≤ b := fun b hb => hn b (by simp [hb])
    rw [sumSq_append] at hs
    have hsa : sumSq [a] = a ^ 2 := by simp [sumSq]
    rw [hsa] at hs
    have hwS := sumSq_nonneg w
    have ha1 : a ≤ 1 := by nlinarith
    have hp := pi_pos
    -- the angle whose sine is `a`
    have hx0 : 0 ≤ arcsin a * 2 / π := by
      have := arcsin_nonneg.2 ha; positivity
    have hx1 : arcsin a * 2 / π ≤ 1 := by
      rw [div_le_one hp]; have := arcsin_le_pi_div_two a; linarith
    have hang : arcsin a * 2 / π * π / 2 = arcsin a := by field_simp
    have hsin : sin (arcsin a * 2 / π * π / 2) = a := by
      rw [hang, sin_arcsin (by linarith) ha1]
    have hcos : cos (arcsin a * 2 / π * π / 2) = √(1 - a ^ 2) := by rw [hang, cos_arcsin]
    have hwa : sumSq w = 1 - a ^ 2 := by linarith
    by_cases hz : sumSq w = 0
    · have hw0 := sumSq_zero hz
      refine ⟨(arcsin a * 2 / π) :: List.replicate m 0, by simp, ?_, ?_⟩
      · intro b hb
        rcases List.mem_cons.1 hb with rfl | hb
        · exact ⟨hx0, hx1⟩
        · rw [List.eq_of_mem_replicate hb]; norm_num
      · rw [row_cons, hsin, hcos, ← hwa, hz, sqrt_zero, add_zero, one_mul]
        congr 1
        rw [eq_replicate hw hw0]
        refine eq_replicate (by simp [row_length]) fun b hb => ?_
        obtain ⟨c, _, rfl⟩ := List.mem_map.1 hb
        ring
    · have hpos : 0 < sumSq w := lt_of_le_of_ne hwS (Ne.symm hz)
      have hc : 0 < √(sumSq w) := sqrt_pos.2 hpos
      obtain ⟨t, ht, htu, htr⟩ := ih (w.map fun b => (√(sumSq w))⁻¹ * b) (by simpa using hw) (by
        intro b hb
        obtain ⟨c, hc', rfl⟩ := List.mem_map.1 hb
        exact mul_nonneg (inv_nonneg.2 hc.le) (hwn c hc')) (by
        rw [sumSq_scale, inv_pow, sq_sqrt hwS, inv_mul_cancel₀ hz])
      refine ⟨(arcsin a * 2 / π) :: t, by simp [ht], ?_, ?_⟩
      · intro b hb
        rcases List.mem_cons.1 hb with rfl | hb
        · exact ⟨hx0, hx1⟩
        · exact htu b hb
      · rw [row_cons, hsin, hcos, ← hwa, htr, List.map_map, add_zero, one_mul]
        congr 1
        have : ((fun b => √(sumSq w) * b) ∘ fun b => (√(sumSq w))⁻¹ * b) = id := by
          funext b
          simp only [Function.comp, id]
          rw [← mul_assoc, mul_inv_cancel₀ hc.ne', one_mul]
        rw [this, List.map_id]

/-! ## C85 -/

/-- The problem can be evaluated: at least one objective, and enough variables for it. -/
def Usable (P : Problem) : Prop := 1 ≤ P.nObj ∧ P.nObj ≤ P.nVar + 1

theorem g2_nonneg (x : List ℝ) : 0 ≤ g2 x := sumOf_nonneg fun a _ => sq_nonneg _

theorem eval_ok {P : Problem} (hP : Usable P) {x : List ℝ} (hx : x.length = P.nVar) :
    evaluate1 P x = .ok (row (x.take (P.nObj - 1)) (g2 (x.drop (P.nObj - 1)))) := by
  obtain ⟨h1, h2⟩ := hP
  have hl : (x.take (P.nObj - 1)).length = P.nObj - 1 := by simp; omega
  have : evaluate P [x] = .ok [evalRow P x] := by simp [evaluate, hx]
  rw [evaluate1, this]
  show Except.ok (evalRow P x) = _
  rw [evalRow, row, hl, Nat.sub_add_cancel h1]

/-- **C85.** The objectives of any point lie on the sphere around the origin of radius `1 + g`, where `g`
is the squared distance of the last variables from one half. In the box they are not negative. -/
theorem C85_sphere {P : Problem} (hP : Usable P) {x : List ℝ} (hx : x.length = P.nVar) :
    ∃ F, evaluate1 P x = .ok F ∧ F.length = P.nObj ∧
      sumSq F = (1 + ((x.drop (P.nObj - 1)).map fun a => (a - 0.5) ^ 2).sum) ^ 2 ∧
      (Unit01 x → ∀ b ∈ F, 0 ≤ b) := by
  refine ⟨_, eval_ok hP hx, ?_, row_sumSq _ _, fun hu => ?_⟩
  · obtain ⟨h1, h2⟩ := hP
    rw [row_length]; simp; omega
  · exact row_nonneg (fun a ha => hu a (List.mem_of_mem_take ha)) (g2_nonneg _)

/-- **C85.** Any other number of variables raises. -/
theorem C85_wrong_dimension (P : Problem) (x : List ℝ) (hx : x.length ≠ P.nVar) :
    evaluate1 P x = .error .valueError := by
  have : evaluate P [x] = .error .valueError := by simp [evaluate, hx]
  rw [evaluate1, this]; rfl

/-- **C85.** Evaluating several points at once is evaluating each of them. -/
theorem C85_rows {P : Problem} (hP : Usable P) {X : List (List ℝ)} (hX : ∀ x ∈ X, x.length = P.nVar) :
    ∃ Fs, evaluate P X = .ok Fs ∧ Fs.length = X.length ∧
      ∀ i (h : i < X.length) (h' : i < Fs.length), evaluate1 P X[i] = .ok Fs[i] := by
  refine ⟨X.map (evalRow P), ?_, by simp, fun i h h' => ?_⟩
  · unfold evaluate
    rw [if_pos]
    rw [List.all_eq_true]
    exact fun x hx => by simp [hX x hx]
  · have : evaluate P [X[i]] = .ok [evalRow P X[i]] := by simp [evaluate, hX X[i] (by simp)]
    rw [evaluate1, this]
    simp [bind, Except.bind]

theorem sumSq_le {u v : List ℝ} (hl : u.length = v.length) (hu : ∀ a ∈ u, 0 ≤ a)
    (h : ∀ i (h : i < u.length) (h' : i < v.length), u[i] ≤ v[i]) : sumSq u ≤ sumSq v ∧
    ((∃ i, ∃ (h : i < u.length) (h' : i < v.length), u[i] < v[i]) → sumSq u < sumSq v) := by
  induction u generalizing v with
  | nil => cases v with
    | nil => exact ⟨le_rfl, fun ⟨i, h, _⟩ => by simp at h⟩
    | cons b v => simp at hl
  | cons a u ih => cases v with
    | nil => simp at hl
    | cons b v =>
      have h0 := h 0 (by simp) (by simp)
      simp only [List.getElem_cons_zero] at h0
      have ha := hu a (by simp)
      obtain ⟨h1, h2⟩ := ih (v := v) (by simpa using hl) (fun c hc => hu c (by simp [hc]))
        fun i h3 h4 => h (i + 1) (Nat.succ_lt_succ h3) (Nat.succ_lt_succ h4)
      have hab : a ^ 2 ≤ b ^ 2 := by nlinarith
      have e1 : sumSq (a :: u) = a ^ 2 + sumSq u := by simp [sumSq]
      have e2 : sumSq (b :: v) = b ^ 2 + sumSq v := by simp [sumSq]
      rw [e1, e2]
      refine ⟨by linarith, ?_⟩
      rintro ⟨i, h3, h4, h5⟩
      cases i with
      | zero =>
        simp only [List.getElem_cons_zero] at h5
        have : a ^ 2 < b ^ 2 := by nlinarith
        linarith
      | succ i =>
        have := h2 ⟨i, by simpa using h3, by simpa using h4, by simpa using h5⟩
        linarith

/-- **C85.** A point of the box is Pareto-optimal exactly if its last variables are all one half. -/
theorem C85_pareto {P : Problem} (hP : Usable P) {x : List ℝ} (hx : x.length = P.nVar) (hu : Unit01 x) :
    ParetoOptimal P x ↔ ∀ a ∈ x.drop (P.nObj - 1), a = 0.5 := by
  have hP' := hP
  obtain ⟨h1, h2⟩ := hP'
  constructor
  · rintro ⟨_, _, F, hF, hno⟩
    by_contra hne
    have hg : 0 < g2 (x.drop (P.nObj - 1)) := by
      refine lt_of_le_of_ne (g2_nonneg _) fun h0 => hne fun a ha => ?_
      have := sumOf_zero_mem (fun b _ => sq_nonneg (b - 0.5)) h0.symm a ha
      have := pow_eq_zero_iff two_ne_zero |>.1 this
      linarith
    rw [eval_ok hP hx] at hF
    injection hF with hF
    subst hF
    set t := x.take (P.nObj - 1) with ht
    have htl : t.length = P.nObj - 1 := by simp [ht]; omega
    have hut : Unit01 t := fun a ha => hu a (List.mem_of_mem_take ha)
    let y := t ++ List.replicate (P.nVar - (P.nObj - 1)) (0.5 : ℝ)
    have hyl : y.length = P.nVar := by simp [y, htl]; omega
    have hyt : y.take (P.nObj - 1) = t := by
      rw [← htl]; exact List.take_left
    have hyd : y.drop (P.nObj - 1) = List.replicate (P.nVar - (P.nObj - 1)) 0.5 :=
      List.drop_left' htl
    have hg0 : g2 (y.drop (P.nObj - 1)) = 0 := by
      rw [hyd]; unfold g2; rw [sumOf_replicate]; norm_num
    have hey := eval_ok hP hyl
    rw [hyt, hg0] at hey
    refine hno y _ hyl ?_ hey ⟨by simp [row_length], ?_, ?_⟩
    · intro a ha
      rcases List.mem_append.1 ha with ha | ha
      · exact hut a ha
      · rw [List.eq_of_mem_replicate ha]; norm_num
    · intro i h h'
      have hb := row_nonneg hut (le_refl (0 : ℝ)) _ (List.getElem_mem h)
      simp only [row_scale t (g2 _), List.getElem_map]
      nlinarith
    · have hs : sumSq (row t 0) = 1 := by rw [row_sumSq]; norm_num
      obtain ⟨b, hb, hb0⟩ : ∃ b ∈ row t 0, b ≠ 0 := by
        by_contra hc
        push Not at hc
        have : sumSq (row t 0) = 0 := sumOf_eq_zero fun a ha => by rw [hc a ha]; norm_num
        linarith
      obtain ⟨i, hi, rfl⟩ := List.mem_iff_getElem.1 hb
      have hb1 := row_nonneg hut (le_refl (0 : ℝ)) _ (List.getElem_mem hi)
      have hb2 : 0 < (row t 0)[i] := lt_of_le_of_ne hb1 (Ne.symm hb0)
      refine ⟨i, hi, by rw [row_length] at hi ⊢; exact hi, ?_⟩
      simp only [row_scale t (g2 _), List.getElem_map]
      nlinarith
  · intro hall
    have hg0 : g2 (x.drop (P.nObj - 1)) = 0 :=
      sumOf_eq_zero fun a ha => by rw [hall a ha]; norm_num
    refine ⟨hx, hu, _, eval_ok hP hx, fun y G hy hyu hG hd => ?_⟩
    rw [eval_ok hP hy] at hG
    injection hG with hG
    subst hG
    obtain ⟨hl, hle, hlt⟩ := hd
    have hlt' := (sumSq_le hl (row_nonneg (fun a ha => hyu a (List.mem_of_mem_take ha)) (g2_nonneg _))
      hle).2 hlt
    rw [row_sumSq, row_sumSq, hg0] at hlt'
    have := g2_nonneg (y.drop (P.nObj - 1))
    nlinarith

/-- A reference direction: as many entries as objectives, none negative, not all zero. -/
def Direction (P : Problem) (v : List ℝ) : Prop :=
  v.length = P.nObj ∧ (∀ a ∈ v, 0 ≤ a) ∧ ∃ a ∈ v, a ≠ 0

/-- **C85.** Every point `pareto_front` returns lies on the Pareto front: it consists of the objectives
of a Pareto-optimal point. It is a positive multiple of its reference direction. -/
theorem C85_front {P : Problem} (hP : Usable P) (hc : P.front = none) {refs : List (List ℝ)}
    (hr : ∀ v ∈ refs, Direction P v) : ∃ Fs P', paretoFront P (some refs) = .ok (Fs, P') ∧
      Fs.length = refs.length ∧
      ∀ i (h : i < refs.length) (h' : i < Fs.length),
        (∃ x, ParetoOptimal P x ∧ evaluate1 P x = .ok Fs[i]) ∧
        ∃ c, 0 < c ∧ Fs[i] = refs[i].map fun a => c * a := by
  refine ⟨genericSphere refs, { P with front := some (genericSphere refs) }, by simp [paretoFront, hc],
    by simp [genericSphere], fun i h h' => ?_⟩
  obtain ⟨hl, hn, a, ha, ha0⟩ := hr refs[i] (by simp)
  have hS : 0 < sumSq refs[i] := by
    refine lt_of_le_of_ne (sumSq_nonneg _) fun h0 => ha0 ?_
    exact sumSq_zero h0.symm a ha
  have hN : 0 < norm refs[i] := sqrt_pos.2 hS
  have hv : (genericSphere refs)[i]'(by simpa [genericSphere] using h)
      = refs[i].map fun a => (norm refs[i])⁻¹ * a := by
    simp only [genericSphere, List.getElem_map]
    refine List.map_congr_left fun b _ => by rw [div_eq_inv_mul]
  rw [hv]
  refine ⟨?_, _, inv_pos.2 hN, rfl⟩
  obtain ⟨t, htl, htu, htr⟩ := row_onto (P.nObj - 1) (refs[i].map fun a => (norm refs[i])⁻¹ * a)
    (by rw [List.length_map, hl]; have := hP.1; omega) (by
      intro b hb
      obtain ⟨c, hc, rfl⟩ := List.mem_map.1 hb
      exact mul_nonneg (inv_nonneg.2 hN.le) (hn c hc)) (by
      rw [sumSq_scale, inv_pow, norm]
      show (√(sumSq refs[i]) ^ 2)⁻¹ * _ = 1
      rw [sq_sqrt hS.le, inv_mul_cancel₀ hS.ne'])
  obtain ⟨h1, h2⟩ := hP
  let x := t ++ List.replicate (P.nVar - (P.nObj - 1)) (0.5 : ℝ)
  have hxl : x.length = P.nVar := by simp [x, htl]; omega
  have hxd : x.drop (P.nObj - 1) = List.replicate (P.nVar - (P.nObj - 1)) 0.5 :=
    List.drop_left' htl
  have hxt : x.take (P.nObj - 1) = t := by rw [← htl]; exact List.take_left
  have hxu : Unit01 x := by
    intro b hb
    rcases List.mem_append.1 hb with hb | hb
    · exact htu b hb
    · rw [List.eq_of_mem_replicate hb]; norm_num
  refine ⟨x, (C85_pareto ⟨h1, h2⟩ hxl hxu).2 (by rw [hxd]; exact fun b hb => List.eq_of_mem_replicate hb), ?_⟩
  rw [eval_ok ⟨h1, h2⟩ hxl, hxt, hxd, ← htr]
  congr 2
  unfold g2; rw [sumOf_replicate]; norm_num

/-- **C85.** The whole Pareto front can be had that way: the objectives of a Pareto-optimal point are a
reference direction, and `pareto_front` returns them unchanged. -/
theorem C85_front_complete {P : Problem} (hP : Usable P) (hc : P.front = none) {x F : List ℝ}
    (hx : ParetoOptimal P x) (hF : evaluate1 P x = .ok F) :
    Direction P F ∧ ∃ P', paretoFront P (some [F]) = .ok ([F], P') := by
  obtain ⟨hl, hu, _⟩ := id hx
  have hall := (C85_pareto hP hl hu).1 hx
  obtain ⟨F', hF', hlen, hs, hn⟩ := C85_sphere hP hl
  rw [hF] at hF'
  injection hF' with hF'
  subst hF'
  have h0 : ((x.drop (P.nObj - 1)).map fun a => (a - 0.5) ^ 2).sum = 0 :=
    sumOf_eq_zero fun a ha => by rw [hall a ha]; norm_num
  rw [h0] at hs
  norm_num at hs
  refine ⟨⟨hlen, hn hu, ?_⟩, ?_⟩
  · by_contra hcon
    push Not at hcon
    have : sumSq F = 0 := sumOf_eq_zero fun a ha => by rw [hcon a ha]; norm_num
    linarith
  · have hN : norm F = 1 := by
      show √(sumSq F) = 1
      rw [hs, sqrt_one]
    refine ⟨{ P with front := some (genericSphere [F]) }, ?_⟩
    simp [paretoFront, hc, genericSphere, hN]

/-- **C85 (defect).** The front is computed once: a later call with other reference directions returns
the points of the first call. -/
theorem C85_cached {P P' : Problem} {r : Option (List (List ℝ))} {F : List (List ℝ)}
    (h : paretoFront P r = .ok (F, P')) (r' : Option (List (List ℝ))) :
    paretoFront P' r' = .ok (F, P') := by
  unfold paretoFront at h
  split at h
  · next G hG =>
    injection h with h
    injection h with h1 h2
    subst h1 h2
    simp [paretoFront, hG]
  · next hG =>
    cases r with
    | none => cases h
    | some r =>
      injection h with h
      injection h with h1 h2
      subst h1 h2
      simp [paretoFront]

/-- **C85 (defect).** On a fresh problem `nadir_point` and `ideal_point` raise a type error; they work
only after `pareto_front` has been called. -/
theorem C85_nadir_fails {nVar : Option (Option ℕ)} {nObj k : Option ℕ} {P : Problem}
    (h : dtlz2 nVar nObj k = .ok P) :
    nadirPoint P = .error .typeError ∧ idealPoint P = .error .typeError := by
  have hf : P.front = none := by
    unfold dtlz2 mk at h
    split at h
    · injection h with h; rw [← h]
    · split at h
      · injection h with h; rw [← h]
      · cases h
  simp [nadirPoint, idealPoint, paretoFront, hf, bind, Except.bind]

theorem columns_bound (op : ℝ → ℝ → ℝ) (le : ℝ → ℝ → Prop) (hrefl : ∀ a, le a a)
    (htrans : ∀ a b c, le a b → le b c → le a c) (hl : ∀ a b, le a (op a b)) (hr : ∀ a b, le b (op a b))
    (n : ℕ) (F : List (List ℝ)) (hF : ∀ v ∈ F, v.length = n) (hne : F ≠ []) :
    ∃ z, columns op F = .ok z ∧ z.length = n ∧
      ∀ v ∈ F, ∀ i (h : i < v.length) (h' : i < z.length), le v[i] z[i] := by
  obtain ⟨v, t, rfl⟩ := List.exists_cons_of_ne_nil hne
  have key : ∀ (t : List (List ℝ)) (v : List ℝ), v.length = n → (∀ u ∈ t, u.length = n) →
      (t.foldl (List.zipWith op) v).length = n ∧
      ∀ u ∈ v :: t, ∀ i (h : i < u.length) (h' : i < (t.foldl (List.zipWith op) v).length),
        le u[i] (t.foldl (List.zipWith op) v)[i] := by
    intro t
    induction t with
    | nil =>
      intro v hv _
      refine ⟨hv, fun u hu i h h' => ?_⟩
      obtain rfl : u = v := by simpa using hu
      exact hrefl _
    | cons w t ih =>
      intro v hv ht
      have hw := ht w (by simp)
      obtain ⟨h1, h2⟩ := ih (List.zipWith op v w) (by simp [hv, hw]) fun u hu => ht u (by simp [hu])
      refine ⟨h1, fun u hu i h h' => ?_⟩
      have hz : i < (List.zipWith op v w).length := by
        have h'' : i < n := h1 ▸ h'
        simp [hv, hw, h'']
      have h3 := h2 (List.zipWith op v w) (by simp) i hz h'
      simp only [List.getElem_zipWith] at h3
      simp only [List.foldl_cons] at h' ⊢
      rcases List.mem_cons.1 hu with rfl | hu
      · exact htrans _ _ _ (hl _ _) h3
      · rcases List.mem_cons.1 hu with rfl | hu
        · exact htrans _ _ _ (hr _ _) h3
        · exact h2 u (by simp [hu]) i h h'
  obtain ⟨h1, h2⟩ := key t v (hF v (by simp)) fun u hu => hF u (by simp [hu])
  exact ⟨_, rfl, h1, h2⟩

/-- **C85.** After that they bound the points of the front from above and from below. -/
theorem C85_nadir {P : Problem} {F : List (List ℝ)} (hf : P.front = some F) (hne : F ≠ [])
    (hF : ∀ v ∈ F, v.length = P.nObj) :
    ∃ hi lo, nadirPoint P = .ok hi ∧ idealPoint P = .ok lo ∧ hi.length = P.nObj ∧ lo.length = P.nObj ∧
      ∀ v ∈ F, ∀ i (h : i < v.length) (h1 : i < hi.length) (h2 : i < lo.length),
        lo[i] ≤ v[i] ∧ v[i] ≤ hi[i] := by
  obtain ⟨hi, hhi, hl, hb⟩ := columns_bound max (· ≤ ·) le_refl (fun _ _ _ => le_trans) le_max_left
    le_max_right P.nObj F hF hne
  obtain ⟨lo, hlo, hl', hb'⟩ := columns_bound min (· ≥ ·) le_refl (fun _ _ _ => ge_trans) min_le_left
    min_le_right P.nObj F hF hne
  refine ⟨hi, lo, ?_, ?_, hl, hl', fun v hv i h h1 h2 => ⟨hb' v hv i h h2, hb v hv i h h1⟩⟩
  · simp only [nadirPoint, paretoFront, hf]; exact hhi
  · simp only [idealPoint, paretoFront, hf]; exact hlo

/-- **C85 (defect).** `DTLZ2(n_obj=…, k=…)` ignores `k`: the number of variables is ten, whatever `k`. -/
theorem C85_k_ignored (nObj : ℕ) (k : Option ℕ) :
    ∃ P, dtlz2 none (some nObj) k = .ok P ∧ P.nVar = 10 ∧ P.k = 11 - nObj :=
  ⟨⟨10, nObj, (9 + 1 : ℤ) - nObj + 1, none⟩, rfl, rfl, by simp; ring⟩

/-- **C85.** With `n_var=None` the number of variables is `k + n_obj - 1`; `k` is then the number of
variables that measure the distance from the front. Neither given raises. -/
theorem C85_k (nObj k : ℕ) (hk : 0 < k) (ho : 0 < nObj) :
    (∃ P, dtlz2 (some none) (some nObj) (some k) = .ok P ∧ P.nVar = k + nObj - 1 ∧ P.k = k ∧ Usable P ∧
      ∀ x : List ℝ, x.length = P.nVar → (x.drop (P.nObj - 1)).length = k) ∧
    dtlz2 (some none) (some nObj) none = .error .valueError := by
  obtain ⟨j, rfl⟩ : ∃ j, k = j + 1 := ⟨k - 1, by omega⟩
  refine ⟨⟨⟨j + 1 + nObj - 1, nObj, j + 1, none⟩, rfl, rfl, by simp, ⟨ho, ?_⟩, fun x hx => ?_⟩, rfl⟩
  · simp; omega
  · simp only at hx ⊢; rw [List.length_drop]; omega

/-- Two objectives and three variables: the middle of the front. -/
example : ParetoOptimal ⟨3, 2, 2, none⟩ [0.25, 0.5, 0.5] :=
  (C85_pareto (P := ⟨3, 2, 2, none⟩) ⟨by simp, by simp⟩ rfl
    (by intro a ha; simp at ha; rcases ha with rfl | rfl <;> norm_num)).2 (by simp)

example : ¬ParetoOptimal ⟨3, 2, 2, none⟩ [0.25, 0.5, 0.75] := fun h => by
  have := (C85_pareto (P := ⟨3, 2, 2, none⟩) ⟨by simp, by simp⟩ rfl
    (by intro a ha; simp at ha; rcases ha with rfl | rfl | rfl <;> norm_num)).1 h 0.75 (by simp)
  norm_num at this

example : Direction ⟨3, 2, 2, none⟩ [0.5, 0] := ⟨rfl, by intro a ha; simp at ha; rcases ha with rfl | rfl <;> norm_num,
  0.5, by simp, by norm_num⟩

end Neorl.DTLZ

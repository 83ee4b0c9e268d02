import Verif.Schedule

/-!
# C51: schedules
-/

set_option linter.unusedSectionVars false
set_option linter.unusedVariables false

namespace Neorl.Schedule

section
variable {K : Type} [Field K] [LinearOrder K] [IsStrictOrderedRing K]

/-- **C51.** Interpolation stays between its end points and hits them. -/
theorem C51_interp (a b : K) : interp a b 0 = a ∧ interp a b 1 = b ∧
    ∀ t, 0 ≤ t → t ≤ 1 → min a b ≤ interp a b t ∧ interp a b t ≤ max a b := by
  unfold interp
  refine ⟨by ring, by ring, ?_⟩
  intro t h0 h1
  rcases le_total a b with h | h
  · rw [min_eq_left h, max_eq_right h]
    have h2 := mul_nonneg h0 (sub_nonneg.2 h)
    have h3 := mul_le_mul_of_nonneg_right h1 (sub_nonneg.2 h)
    constructor <;> linarith
  · rw [min_eq_right h, max_eq_left h]
    have h2 := mul_nonneg h0 (sub_nonneg.2 h)
    have h3 := mul_le_mul_of_nonneg_right h1 (sub_nonneg.2 h)
    constructor <;> nlinarith

/-- **C51.** `LinearSchedule`: starts at `initial_p`, is affine until `schedule_timesteps`, equals `final_p` from then on, stays between the two and moves monotonically towards
`final_p`. -/
theorem C51_linear {T final init : K} (hT : 0 < T) :
    linearValue T final init 0 = .ok init ∧ (∀ t, T ≤ t → linearValue T final init t = .ok final) ∧
    (∀ t, 0 ≤ t → t ≤ T → linearValue T final init t = .ok (init + t / T * (final - init))) ∧
    (∀ t v, 0 ≤ t → linearValue T final init t = .ok v → min init final ≤ v ∧ v ≤ max init final) ∧
    (∀ t t' v v', 0 ≤ t → t ≤ t' → linearValue T final init t = .ok v → linearValue T final init t' = .ok v' → |final - v'| ≤ |final - v|) := by
  unfold linearValue
  simp only [hT.ne', if_false]
  have hfrac : ∀ t : K, 0 ≤ t → 0 ≤ min (t / T) 1 := fun t ht => le_min (div_nonneg ht hT.le) zero_le_one
  refine ⟨by simp, ?_, ?_, ?_, ?_⟩
  · intro t ht
    rw [min_eq_right ((one_le_div hT).2 ht)]
    congr 1
    ring
  · intro t h0 h1
    rw [min_eq_left ((div_le_one hT).2 h1)]
  · intro t v h0 h
    cases h
    exact (C51_interp init final).2.2 _ (hfrac t h0) (min_le_right _ _)
  · intro t t' v v' h0 h1 h h'
    cases h
    cases h'
    have e : ∀ f : K, final - (init + f * (final - init)) = (1 - f) * (final - init) := by intro f; ring
    rw [e, e, abs_mul, abs_mul]
    apply mul_le_mul_of_nonneg_right _ (abs_nonneg _)
    have m1 : min (t / T) 1 ≤ min (t' / T) 1 := min_le_min (by gcongr) le_rfl
    rw [abs_of_nonneg (sub_nonneg.2 (min_le_right _ _)), abs_of_nonneg (sub_nonneg.2 (min_le_right _ _))]
    linarith

/-- **C51.** A linear schedule over zero steps raises. -/
theorem C51_linear_zero (final init t : K) : linearValue 0 final init t = .error .zeroDivision := by simp [linearValue]

theorem pieceLoop_some {step : K} : ∀ {ps : List ((K × K) × (K × K))} {v : K}, pieceLoop step ps = some v →
    ∃ p ∈ ps, p.1.1 ≤ step ∧ step < p.2.1 ∧ v = interp p.1.2 p.2.2 ((step - p.1.1) / (p.2.1 - p.1.1))
  | [], _, h => by cases h
  | p :: ps, v, h => by
    rw [pieceLoop] at h
    split_ifs at h with h1
    · cases h
      simp only [inPiece, decide_eq_true_eq] at h1
      exact ⟨p, List.mem_cons_self, h1.1, h1.2, rfl⟩
    · obtain ⟨q, hq, rest⟩ := pieceLoop_some h
      exact ⟨q, List.mem_cons_of_mem _ hq, rest⟩

theorem pieceLoop_none {step : K} : ∀ {ps : List ((K × K) × (K × K))}, pieceLoop step ps = none ↔ ∀ p ∈ ps, ¬ (p.1.1 ≤ step ∧ step < p.2.1)
  | [] => by simp [pieceLoop]
  | p :: ps => by
    rw [pieceLoop]
    by_cases h1 : p.1.1 ≤ step ∧ step < p.2.1
    · rw [if_pos (by simpa [inPiece] using h1)]
      exact ⟨fun h => (by cases h), fun h => absurd h1 (h p List.mem_cons_self)⟩
    · rw [if_neg (by simpa [inPiece] using h1), pieceLoop_none]
      constructor
      · intro h q hq
        rcases List.mem_cons.1 hq with rfl | hq
        · exact h1
        · exact h q hq
      · exact fun h q hq => h q (List.mem_cons_of_mem _ hq)

/-- The pieces are the consecutive pairs. -/
theorem mem_pieces {l : List (K × K)} {p : (K × K) × (K × K)} : p ∈ l.dropLast.zip l.tail ↔ ∃ i, l[i]? = some p.1 ∧ l[i + 1]? = some p.2 := by
  rw [List.mem_iff_getElem?]
  constructor
  · rintro ⟨i, hi⟩
    rw [List.getElem?_zip_eq_some] at hi
    obtain ⟨h1, h2⟩ := hi
    rw [List.getElem?_dropLast] at h1
    split_ifs at h1
    rw [List.getElem?_tail] at h2
    exact ⟨i, h1, h2⟩
  · rintro ⟨i, h1, h2⟩
    refine ⟨i, ?_⟩
    rw [List.getElem?_zip_eq_some, List.getElem?_dropLast, List.getElem?_tail]
    have := (List.getElem?_eq_some_iff.1 h2).1
    rw [if_pos (by omega)]
    exact ⟨h1, h2⟩

/-- **C51.** `PiecewiseSchedule` with sorted times: inside a piece it is the interpolation of the two ends (so it takes the left value at the left end and stays between the
two); outside all pieces it is the outside value, or an assertion error if there is none. -/
theorem C51_piecewise {l : List (K × K)} (hs : (l.map Prod.fst).Pairwise (· ≤ ·)) (outside : Option K) :
    (∀ (i : ℕ) (a b : K × K) (t : K), l[i]? = some a → l[i + 1]? = some b → a.1 ≤ t → t < b.1 →
      ∃ v, piecewise l outside t = .ok v ∧ (v - a.2) * (b.1 - a.1) = (t - a.1) * (b.2 - a.2) ∧ min a.2 b.2 ≤ v ∧ v ≤ max a.2 b.2 ∧ (t = a.1 → v = a.2)) ∧
    (∀ t, (∀ (i : ℕ) (a b : K × K), l[i]? = some a → l[i + 1]? = some b → t < a.1 ∨ b.1 ≤ t) →
      piecewise l outside t = match outside with | none => .error .assertion | some o => .ok o) := by
  have hget : ∀ (i j : ℕ) (a b : K × K), i ≤ j → l[i]? = some a → l[j]? = some b → a.1 ≤ b.1 := by
    intro i j a b hij ha hb
    rcases Nat.lt_or_eq_of_le hij with h | h
    · rw [List.pairwise_map] at hs
      obtain ⟨hi, ei⟩ := List.getElem?_eq_some_iff.1 ha
      obtain ⟨hj, ej⟩ := List.getElem?_eq_some_iff.1 hb
      have := List.pairwise_iff_getElem.1 hs i j hi hj h
      rw [ei, ej] at this
      exact this
    · subst h
      rw [ha] at hb
      cases hb
      exact le_rfl
  have hpw : ∀ t, piecewise l outside t = match pieceLoop t (l.dropLast.zip l.tail) with
      | some v => .ok v
      | none =>
        match outside with
        | none => .error .assertion
        | some o => .ok o := by
    intro t
    unfold piecewise
    rw [if_pos hs]
    rfl
  constructor
  · intro i a b t ha hb h1 h2
    rw [hpw]
    cases hp : pieceLoop t (l.dropLast.zip l.tail) with
    | none =>
      rw [pieceLoop_none] at hp
      exact absurd ⟨h1, h2⟩ (hp (a, b) (mem_pieces.2 ⟨i, ha, hb⟩))
    | some v =>
      obtain ⟨p, hmem, p1, p2, rfl⟩ := pieceLoop_some hp
      obtain ⟨j, hj1, hj2⟩ := mem_pieces.1 hmem
      have hij : i = j := by
        rcases Nat.lt_trichotomy i j with h | h | h
        · have := hget (i + 1) j b p.1 h hb hj1
          exact absurd h2 (not_lt.2 (this.trans p1))
        · exact h
        · have := hget (j + 1) i p.2 a h hj2 ha
          exact absurd p2 (not_lt.2 (this.trans h1))
      subst hij
      rw [ha] at hj1
      rw [hb] at hj2
      have e1 : a = p.1 := Option.some.inj hj1
      have e2 : b = p.2 := Option.some.inj hj2
      rw [← e1, ← e2]
      have hab : 0 < b.1 - a.1 := by linarith
      refine ⟨_, rfl, ?_, ?_⟩
      · unfold interp
        field_simp
        ring
      · have h3 := (C51_interp a.2 b.2).2.2 ((t - a.1) / (b.1 - a.1)) (div_nonneg (by linarith) hab.le) ((div_le_one hab).2 (by linarith))
        refine ⟨h3.1, h3.2, ?_⟩
        intro ht
        rw [ht, sub_self, zero_div]
        exact (C51_interp a.2 b.2).1
  · intro t ht
    have : pieceLoop t (l.dropLast.zip l.tail) = none := by
      rw [pieceLoop_none]
      intro p hp
      obtain ⟨i, h1, h2⟩ := mem_pieces.1 hp
      rintro ⟨g1, g2⟩
      rcases ht i _ _ h1 h2 with h | h
      · exact absurd g1 (not_le.2 h)
      · exact absurd g2 (not_lt.2 h)
    rw [hpw, this]

/-- **C51, defect.** At the time of the last end point the schedule does not return its value (as the documentation promises for every end point) but the outside value, and raises
if there is none. -/
theorem C51_last_endpoint {l : List (K × K)} (hs : (l.map Prod.fst).Pairwise (· ≤ ·)) (outside : Option K) (e : K × K) (he : l.getLast? = some e) :
    piecewise l outside e.1 = match outside with | none => .error .assertion | some o => .ok o := by
  apply (C51_piecewise hs outside).2
  intro i a b ha hb
  right
  rw [List.getLast?_eq_getElem?] at he
  obtain ⟨hb1, hb2⟩ := List.getElem?_eq_some_iff.1 hb
  obtain ⟨he1, he2⟩ := List.getElem?_eq_some_iff.1 he
  rw [List.pairwise_map] at hs
  rcases Nat.lt_or_eq_of_le (show i + 1 ≤ l.length - 1 by omega) with h | h
  · have := List.pairwise_iff_getElem.1 hs (i + 1) (l.length - 1) hb1 he1 h
    rw [hb2, he2] at this
    exact this
  · rw [h, he] at hb
    cases hb
    exact le_rfl

/-- **C51.** Unsorted times are refused. -/
theorem C51_unsorted {l : List (K × K)} (hs : ¬ (l.map Prod.fst).Pairwise (· ≤ ·)) (outside : Option K) (t : K) : piecewise l outside t = .error .assertion := by
  unfold piecewise
  rw [if_neg hs]

/-- **C51.** The legacy curves on `[0, 1]`: all start at one and stay in `[0, 1]`; 'linear', 'middle_drop' and 'double_linear_con' never increase. -/
theorem C51_curves : (∀ p : K, 0 ≤ p → p ≤ 1 → (0 ≤ linearC p ∧ linearC p ≤ 1) ∧ (0 < middleDrop p ∧ middleDrop p ≤ 1) ∧ (1 / 8 ≤ doubleLinearCon p ∧ doubleLinearCon p ≤ 1) ∧
      (0 < doubleMiddleDrop p ∧ doubleMiddleDrop p ≤ 1)) ∧
    (linearC (0 : K) = 1 ∧ middleDrop (0 : K) = 1 ∧ doubleLinearCon (0 : K) = 1 ∧ doubleMiddleDrop (0 : K) = 1 ∧ constantC (0 : K) = 1) ∧
    (∀ p q : K, p ≤ q → linearC q ≤ linearC p ∧ middleDrop q ≤ middleDrop p ∧ doubleLinearCon q ≤ doubleLinearCon p) := by
  unfold linearC middleDrop doubleLinearCon doubleMiddleDrop constantC
  refine ⟨?_, ?_, ?_⟩
  · intro p h0 h1
    refine ⟨⟨by linarith, by linarith⟩, ?_, ?_, ?_⟩
    · split_ifs with h
      · norm_num
      · constructor <;> linarith
    · split_ifs with h
      · norm_num
      · constructor <;> linarith
    · split_ifs with h h'
      · norm_num
      · norm_num
      · constructor <;> linarith
  · norm_num
  · intro p q h
    refine ⟨by linarith, ?_, ?_⟩
    · split_ifs with h1 h2 h2
      · exact le_rfl
      · linarith
      · linarith
      · linarith
    · split_ifs with h1 h2 h2
      · exact le_rfl
      · linarith
      · linarith
      · linarith

/-- **C51, defect.** 'double_middle_drop' drops below its final value first and rises again at the second drop (its documentation promises 0.75 in the middle section). -/
theorem C51_double_middle_drop (p q : K) (hp : 1 / 4 ≤ 1 - p) (hp' : 1 - p < 3 / 4) (hq : 1 - q < 1 / 4) :
    p < q ∧ doubleMiddleDrop p = 3 / 40 ∧ doubleMiddleDrop q = 1 / 8 ∧ doubleMiddleDrop p < doubleMiddleDrop q := by
  have h1 : doubleMiddleDrop p = 3 / 40 := by
    unfold doubleMiddleDrop
    rw [if_pos hp', if_neg (not_lt.2 hp)]
    norm_num
  have h2 : doubleMiddleDrop q = 1 / 8 := by
    unfold doubleMiddleDrop
    rw [if_pos (by linarith), if_pos hq]
    norm_num
  refine ⟨by linarith, h1, h2, ?_⟩
  rw [h1, h2]
  norm_num

theorem values_aux (curve : K → K) : ∀ (k : ℕ) (s : Sched K) (j : ℕ), j < k → (Sched.values curve k s)[j]? = some (s.initial * curve ((s.step + j) / s.n))
  | 0, _, _, h => by omega
  | k + 1, s, 0, _ => by simp [Sched.values, Sched.value]
  | k + 1, s, j + 1, h => by
    rw [Sched.values, List.getElem?_cons_succ, values_aux curve k _ j (by omega)]
    simp only [Sched.value, Nat.cast_add, Nat.cast_one]
    congr 4
    ring

/-- **C51.** The `j`-th call of `Scheduler.value` returns the initial value times the curve at `j / n`, the same as `value_steps(j)`. -/
theorem C51_scheduler (curve : K → K) (initial n : K) (k j : ℕ) (h : j < k) :
    (Sched.values curve k { step := 0, initial := initial, n := n })[j]? = some (initial * curve (j / n)) ∧
    (Sched.values curve k { step := 0, initial := initial, n := n })[j]? = some (Sched.valueSteps curve { step := 0, initial := initial, n := n } j) := by
  have := values_aux curve k { step := 0, initial := initial, n := n } j h
  simp only [zero_add] at this
  exact ⟨this, this⟩

end

example : linearValue (10 : ℚ) 0 1 3 = .ok (7 / 10) ∧ linearValue (10 : ℚ) 0 1 30 = .ok 0 := by decide +kernel
example : piecewise [((0 : ℚ), 1), (4, 3), (4, 9), (6, 5)] none 2 = .ok 2 ∧ piecewise [((0 : ℚ), 1), (4, 3), (4, 9), (6, 5)] none 4 = .ok 9 ∧
    piecewise [((0 : ℚ), 1), (4, 3), (4, 9), (6, 5)] none 6 = .error .assertion ∧ piecewise [((0 : ℚ), 1), (4, 3)] (some 7) 4 = .ok 7 := by decide +kernel
example : (([((0 : ℚ), (1 : ℚ)), (4, 3), (4, 9), (6, 5)]).map Prod.fst).Pairwise (· ≤ ·) := by decide +kernel
example : Sched.values linearC 3 { step := 0, initial := (2 : ℚ), n := 4 } = [2, 3 / 2, 1] := by decide +kernel

end Neorl.Schedule

import Verif.SavePlot
import Mathlib.Tactic.Ring
import Mathlib.Tactic.FieldSimp
import Mathlib.Tactic.Linarith
import Mathlib.Tactic.Positivity
import Mathlib.Data.Nat.GCD.Basic
import Mathlib.Data.List.Range

/-!
# C126: training an agent from an input file
-/

set_option linter.unusedSectionVars false
set_option linter.unusedVariables false

namespace Neorl.SavePlot

open Neorl.InputFile (Str)

variable {K : Type} [Field K] [LinearOrder K] [IsStrictOrderedRing K] {M : Type}

/-! ### Statistics -/

theorem slices_flatten {α : Type} (N : ℕ) (hN : 0 < N) : ∀ (k : ℕ) (data : List α), data.length ≤ k * N → ((List.range k).map fun i => (data.drop (i * N)).take N).flatten = data
  | 0, data, h => by
    have : data = [] := List.length_eq_zero_iff.1 (by omega)
    simp [this]
  | k + 1, data, h => by
    rw [List.range_succ_eq_map, List.map_cons, List.flatten_cons, List.map_map]
    have e : (List.range k).map ((fun i => (data.drop (i * N)).take N) ∘ Nat.succ) = (List.range k).map fun i => ((data.drop N).drop (i * N)).take N := by
      refine List.map_congr_left fun i _ => ?_
      simp only [Function.comp, List.drop_drop]
      congr 2
      rw [Nat.succ_mul]; omega
    rw [e, slices_flatten N hN k (data.drop N) (by rw [List.length_drop]; rw [Nat.succ_mul] at h; omega)]
    simp

/-- **C126.** The blocks of a plot: consecutive, together the whole column, `N` values each except possibly the last, none empty.  A block length of 0 raises, a negative one gives no blocks. -/
theorem C126_blocks {N : ℤ} {data : List K} : (N = 0 → slices N data = .error .valueError) ∧ (N < 0 → slices N data = .ok []) ∧
    (0 < N → ∃ bs, slices N data = .ok bs ∧ bs.flatten = data ∧ (∀ b ∈ bs, b ≠ [] ∧ (b.length : ℤ) ≤ N) ∧ ∀ b ∈ bs.dropLast, (b.length : ℤ) = N) := by
  refine ⟨fun h => by simp [slices, h], fun h => by unfold slices; rw [if_neg (by omega), if_pos h], fun h => ?_⟩
  obtain ⟨n, rfl⟩ := Int.eq_ofNat_of_zero_le h.le
  have hn : 0 < n := by simpa using h
  unfold slices
  rw [if_neg (by omega), if_neg (by omega)]
  simp only [Int.toNat_natCast]
  obtain ⟨k, hk⟩ : ∃ k, k = (data.length + n - 1) / n := ⟨_, rfl⟩
  rw [← hk]
  have h1 : data.length ≤ k * n := by
    have := Nat.lt_div_mul_add (a := data.length + n - 1) hn
    rw [← hk] at this
    omega
  have h2 : k = 0 ∨ (k - 1) * n < data.length := by
    rcases Nat.eq_zero_or_pos k with h0 | h0
    · exact Or.inl h0
    · right
      have := Nat.div_mul_le_self (data.length + n - 1) n
      rw [← hk] at this
      have e : k * n = (k - 1) * n + n := by
        conv_lhs => rw [show k = k - 1 + 1 by omega]
        rw [Nat.succ_mul]
      omega
  have h3 : ∀ i < k, i * n < data.length := fun i hi => by
    rcases h2 with h0 | h0
    · omega
    · exact lt_of_le_of_lt (Nat.mul_le_mul_right _ (by omega)) h0
  refine ⟨_, rfl, slices_flatten n hn k data h1, fun b hb => ?_, fun b hb => ?_⟩
  · obtain ⟨i, hi, rfl⟩ := List.mem_map.1 hb
    have := h3 i (List.mem_range.1 hi)
    constructor
    · rw [← List.length_pos_iff, List.length_take, List.length_drop]
      omega
    · rw [List.length_take]
      push_cast
      exact min_le_left _ _
  · rw [← List.map_dropLast] at hb
    obtain ⟨i, hi, rfl⟩ := List.mem_map.1 hb
    have hi' : i + 1 < k := by
      rcases k with _ | k
      · simp at hi
      · rw [List.range_succ, List.dropLast_concat, List.mem_range] at hi
        omega
    have := h3 (i + 1) hi'
    rw [Nat.succ_mul] at this
    rw [List.length_take, List.length_drop]
    congr 1
    omega

theorem foldl_max_spec : ∀ (l : List K) (a : K), l.foldl max a ∈ a :: l ∧ ∀ x ∈ a :: l, x ≤ l.foldl max a
  | [], a => by simp
  | b :: l, a => by
    obtain ⟨h1, h2⟩ := foldl_max_spec l (max a b)
    rw [List.foldl_cons]
    refine ⟨?_, fun x hx => ?_⟩
    · rcases List.mem_cons.1 h1 with h | h
      · rw [h]; rcases max_choice a b with e | e <;> rw [e] <;> simp
      · simp [h]
    · rcases List.mem_cons.1 hx with rfl | hx
      · exact (le_max_left _ _).trans (h2 _ List.mem_cons_self)
      · rcases List.mem_cons.1 hx with rfl | hx
        · exact (le_max_right _ _).trans (h2 _ List.mem_cons_self)
        · exact h2 x (by simp [hx])

theorem foldl_min_spec : ∀ (l : List K) (a : K), l.foldl min a ∈ a :: l ∧ ∀ x ∈ a :: l, l.foldl min a ≤ x
  | [], a => by simp
  | b :: l, a => by
    obtain ⟨h1, h2⟩ := foldl_min_spec l (min a b)
    rw [List.foldl_cons]
    refine ⟨?_, fun x hx => ?_⟩
    · rcases List.mem_cons.1 h1 with h | h
      · rw [h]; rcases min_choice a b with e | e <;> rw [e] <;> simp
      · simp [h]
    · rcases List.mem_cons.1 hx with rfl | hx
      · exact (h2 _ List.mem_cons_self).trans (min_le_left _ _)
      · rcases List.mem_cons.1 hx with rfl | hx
        · exact (h2 _ List.mem_cons_self).trans (min_le_right _ _)
        · exact h2 x (by simp [hx])

theorem sum_sq (m : K) : ∀ l : List K, (l.map fun a => (a - m) ^ 2).sum = (l.map fun a => a ^ 2).sum - 2 * m * l.sum + (l.length : K) * m ^ 2
  | [] => by simp
  | a :: l => by
    simp only [List.map_cons, List.sum_cons, sum_sq m l, List.length_cons]
    push_cast
    ring

/-- **C126.** A point of a plot: the extremes are values of the block, the mean lies between them and is the sum over the number, the deviation is the root of the mean square minus the squared mean, which is not negative. -/
theorem C126_point (sq : K → K) {b : List K} (hb : b ≠ []) : ∃ p, point sq b = some p ∧ p.max ∈ b ∧ p.min ∈ b ∧ (∀ x ∈ b, p.min ≤ x ∧ x ≤ p.max) ∧ p.avg * (b.length : K) = b.sum ∧
    p.min ≤ p.avg ∧ p.avg ≤ p.max ∧ ∃ v, p.std = sq v ∧ 0 ≤ v ∧ v = (b.map fun a => a ^ 2).sum / (b.length : K) - p.avg ^ 2 := by
  cases b with
  | nil => exact absurd rfl hb
  | cons a l =>
    obtain ⟨m1, m2⟩ := foldl_max_spec l a
    obtain ⟨n1, n2⟩ := foldl_min_spec l a
    have hpos : (0 : K) < (((a :: l).length : ℕ) : K) := by
      rw [Nat.cast_pos]
      simp
    have hle : (a :: l).sum ≤ (((a :: l).length : ℕ) : K) * l.foldl max a := by
      have := List.sum_le_card_nsmul (a :: l) (l.foldl max a) m2
      rwa [nsmul_eq_mul] at this
    have hge : (((a :: l).length : ℕ) : K) * l.foldl min a ≤ (a :: l).sum := by
      have := List.card_nsmul_le_sum (a :: l) (l.foldl min a) n2
      rwa [nsmul_eq_mul] at this
    refine ⟨_, rfl, m1, n1, fun x hx => ⟨n2 x hx, m2 x hx⟩, div_mul_cancel₀ _ hpos.ne', ?_, ?_, variance (a :: l), rfl, ?_, ?_⟩
    · rw [le_div_iff₀ hpos, mul_comm]; exact hge
    · rw [div_le_iff₀ hpos, mul_comm]; exact hle
    · unfold variance
      refine div_nonneg (List.sum_nonneg fun x hx => ?_) hpos.le
      obtain ⟨y, -, rfl⟩ := List.mem_map.1 hx
      positivity
    · unfold variance
      rw [sum_sq]
      generalize (a :: l).sum = S at *
      generalize (((a :: l).length : ℕ) : K) = n at *
      have := hpos.ne'
      field_simp
      ring

theorem mapM_point (sq : K → K) : ∀ bs : List (List K), (∀ b ∈ bs, b ≠ []) → ∃ ps, (bs.mapM fun b => match point sq b with
    | none => (.error .valueError : Py (Point K))
    | some p => .ok p) = .ok ps ∧ List.Forall₂ (fun b p => point sq b = some p) bs ps
  | [], _ => ⟨[], rfl, .nil⟩
  | b :: bs, h => by
    obtain ⟨ps, e, hf⟩ := mapM_point sq bs fun x hx => h x (by simp [hx])
    obtain ⟨p, hp, -⟩ := C126_point sq (h b (by simp))
    refine ⟨p :: ps, ?_, .cons hp hf⟩
    rw [List.mapM_cons, hp]
    simp only [bind, Except.bind, pure, Except.pure]
    rw [e]

/-- **C126.** With a positive block length the statistics of a column are one point per block; with 0 they raise, also for an empty column. -/
theorem C126_cumavg (sq : K → K) {N : ℤ} {data : List K} : (N = 0 → cumavg sq N data = .error .valueError) ∧ (N < 0 → cumavg sq N data = .ok []) ∧
    (0 < N → ∃ bs ps, slices N data = .ok bs ∧ cumavg sq N data = .ok ps ∧ List.Forall₂ (fun b p => point sq b = some p) bs ps) := by
  obtain ⟨h1, h2, h3⟩ := C126_blocks (N := N) (data := data)
  refine ⟨fun h => by simp [cumavg, h1 h, bind, Except.bind], fun h => by simp [cumavg, h2 h, bind, Except.bind, pure, Except.pure], fun h => ?_⟩
  obtain ⟨bs, e, -, hb, -⟩ := h3 h
  obtain ⟨ps, e2, hf⟩ := mapM_point sq bs fun b hbb => (hb b hbb).1
  refine ⟨bs, ps, e, ?_, hf⟩
  unfold cumavg
  rw [e]
  exact e2

example : slices 2 [1, 2, 3, 4, (5 : ℚ)] = .ok [[1, 2], [3, 4], [5]] ∧ cumavg id 2 [1, 3, (5 : ℚ)] = .ok [⟨2, 1, 3, 1⟩, ⟨5, 0, 5, 5⟩] := by decide +kernel

/-! ### Figures -/

/-- **C126.** The grid of the subplots has room for every column and no empty row, and up to four columns no empty place; it is three wide up to 21 columns and four wide above; there is one for 2 to 99 columns only. -/
theorem C126_layout (ny : ℕ) : ((layout ny).isSome = true ↔ 2 ≤ ny ∧ ny ≤ 99) ∧
    ∀ r c, layout ny = some (r, c) → ny ≤ r * c ∧ (r - 1) * c < ny ∧ 2 ≤ c ∧ c ≤ 4 ∧ (ny ≤ 4 → r * c = ny) ∧ (5 ≤ ny → ny ≤ 21 → c = 3) ∧ (22 ≤ ny → c = 4) := by
  unfold layout
  constructor
  · split_ifs <;> simp <;> omega
  · intro r c h
    split_ifs at h <;> simp only [Option.some.injEq, Prod.mk.injEq] at h <;> obtain ⟨rfl, rfl⟩ := h <;> omega

/-- **C126.** The ten colours go round. -/
theorem C126_color : ∀ i, color i = i % 10
  | 0 => rfl
  | i + 1 => by
    rw [color, C126_color i]
    split_ifs <;> omega

theorem panels_ok (sq : K → K) {N : ℤ} (hN : N ≠ 0) (grid : ℕ → ℕ × ℕ × ℕ) : ∀ (cols : List (Str × List K)) (i : ℕ), ∃ ps, panels sq N (fun i => .ok (grid i)) i cols = .ok ps ∧ ps.length = cols.length ∧
    ∀ j (h : j < ps.length) (h' : j < cols.length), cumavg sq N cols[j].2 = .ok ps[j].points ∧ ps[j].label = cols[j].1 ∧ ps[j].color = color (i + j) ∧ (ps[j].rows, ps[j].cols, ps[j].idx) = grid (i + j)
  | [], i => ⟨[], rfl, rfl, fun j h => absurd h (by simp)⟩
  | c :: cs, i => by
    obtain ⟨ps, e, hl, hp⟩ := panels_ok sq hN grid cs (i + 1)
    obtain ⟨pts, hpts⟩ : ∃ pts, cumavg sq N c.2 = .ok pts := by
      rcases lt_trichotomy N 0 with h | h | h
      · exact ⟨_, (C126_cumavg sq).2.1 h⟩
      · exact absurd h hN
      · obtain ⟨bs, ps, -, h2, -⟩ := (C126_cumavg sq (data := c.2)).2.2 h
        exact ⟨ps, h2⟩
    refine ⟨⟨(grid i).1, (grid i).2.1, (grid i).2.2, c.1, color i, pts⟩ :: ps, ?_, by simp [hl], ?_⟩
    · rw [panels, hpts, e]
      rfl
    · intro j h h'
      cases j with
      | zero => exact ⟨hpts, rfl, rfl, rfl⟩
      | succ j =>
        obtain ⟨a, b, d, f⟩ := hp j (by simpa using h) (by simpa using h')
        simp only [List.getElem_cons_succ]
        rw [show i + (j + 1) = i + 1 + j by omega]
        exact ⟨a, b, d, f⟩

/-- **C126.** The figures.  In classic mode, and for a single column, one figure per column named after it; in subplot mode with 2 to 99 columns one figure, with the columns in order in the places 1, 2, 3, ...  Every panel has the statistics of its column.
**Defect**: with 100 columns or more the subplot mode raises; with a block length of 0 every mode does. -/
theorem C126_plot (sq : K → K) (mode : PlotMode) (N : ℤ) (cols : List (Str × List K)) :
    (N ≠ 0 → mode = .classic ∨ cols.length = 1 → ∃ fs, plot sq mode N cols = .ok fs ∧ fs.length = cols.length ∧
      ∀ j (h : j < fs.length) (h' : j < cols.length), fs[j].1 = "_".toList ++ cols[j].1 ++ ".png".toList ∧ ∃ p, fs[j].2 = [p] ∧ p.label = cols[j].1 ∧ p.color = j % 10 ∧ cumavg sq N cols[j].2 = .ok p.points) ∧
    (N ≠ 0 → mode = .subplot → 2 ≤ cols.length → cols.length ≤ 99 → ∃ ps r c, plot sq mode N cols = .ok [("_res.png".toList, ps)] ∧ layout cols.length = some (r, c) ∧ ps.length = cols.length ∧
      ∀ j (h : j < ps.length) (h' : j < cols.length), ps[j].rows = r ∧ ps[j].cols = c ∧ ps[j].idx = j + 1 ∧ ps[j].label = cols[j].1 ∧ ps[j].color = j % 10 ∧ cumavg sq N cols[j].2 = .ok ps[j].points) ∧
    (mode = .subplot → 100 ≤ cols.length → plot sq mode N cols = .error .unboundLocal) ∧
    (N = 0 → cols ≠ [] → ∃ e, plot sq mode N cols = .error e) ∧
    (mode = .other → cols.length ≠ 1 → plot sq mode N cols = .error .runtimeError) := by
  refine ⟨fun hN hm => ?_, fun hN hm h2 h99 => ?_, fun hm h => ?_, fun hN hc => ?_, fun hm h => ?_⟩
  · obtain ⟨ps, e, hl, hp⟩ := panels_ok sq hN (fun _ => (1, 1, 1)) cols 0
    refine ⟨ps.map fun p => ('_' :: p.label ++ ".png".toList, [p]), ?_, by simp [hl], fun j h h' => ?_⟩
    · unfold plot
      rw [if_pos hm, e]
      rfl
    · rw [List.length_map] at h
      obtain ⟨a, b, c, -⟩ := hp j h h'
      rw [List.getElem_map]
      refine ⟨by rw [b]; rfl, ps[j], rfl, b, by rw [c, C126_color]; simp, a⟩
  · obtain ⟨g, hg⟩ := Option.isSome_iff_exists.1 ((C126_layout cols.length).1.2 ⟨h2, h99⟩)
    obtain ⟨ps, e, hl, hp⟩ := panels_ok sq hN (fun i => (g.1, g.2, i + 1)) cols 0
    refine ⟨ps, g.1, g.2, ?_, hg, hl, fun j h h' => ?_⟩
    · unfold plot
      rw [if_neg (by rw [hm]; simp; omega), hm, hg]
      simp only
      rw [e]
      rfl
    · obtain ⟨a, b, c, d⟩ := hp j h h'
      simp only [Prod.mk.injEq, Nat.zero_add] at d
      exact ⟨d.1, d.2.1, d.2.2, b, by rw [c, C126_color]; simp, a⟩
  · have hn : layout cols.length = none := by
      rw [← Option.not_isSome_iff_eq_none, (C126_layout _).1]
      omega
    unfold plot
    rw [if_neg (by rw [hm]; simp; omega), hm, hn]
    cases cols with
    | nil => simp at h
    | cons c cs => rfl
  · cases cols with
    | nil => exact absurd rfl hc
    | cons c cs =>
      have hcum := (C126_cumavg sq (data := c.2)).1 hN
      unfold plot
      split_ifs with h1
      · rw [panels, hcum]
        exact ⟨_, rfl⟩
      · cases mode with
        | classic => simp at h1
        | other => exact ⟨_, rfl⟩
        | subplot =>
          simp only
          rw [panels]
          cases layout (c :: cs).length with
          | none => exact ⟨_, rfl⟩
          | some g =>
            rw [hcum]
            exact ⟨_, rfl⟩
  · unfold plot
    rw [if_neg (by rw [hm]; simp [h]), hm]

/-! ### The calls of the callback -/

/-- **C126.** The window of a check: the last `avg` rewards, or all if there are fewer.  **Defect**: with 0 it is all of them, and with a negative number all but the first. -/
theorem C126_window (avg : ℤ) (y : List K) : lastOf avg y <:+ y ∧ (0 < avg → ((lastOf avg y).length : ℤ) = min avg y.length) ∧ (avg = 0 → lastOf avg y = y) ∧ (avg < 0 → lastOf avg y = y.drop avg.natAbs) := by
  unfold lastOf
  refine ⟨by split_ifs <;> exact List.drop_suffix _ _, fun h => ?_, fun h => by simp [h], fun h => ?_⟩
  · rw [if_pos h, List.length_drop]
    omega
  · rw [if_neg (by omega)]
    congr 1
    omega

example : lastOf 2 [1, 2, (3 : ℚ)] = [2, 3] ∧ lastOf 5 [1, 2, (3 : ℚ)] = [1, 2, 3] ∧ lastOf 0 [1, 2, (3 : ℚ)] = [1, 2, 3] := by decide +kernel

/-- **C126.** The mean of a window: the sum over the number; none for an empty window. -/
theorem C126_mean (l : List K) : (mean l = none ↔ l = []) ∧ ∀ m, mean l = some m → m * (l.length : K) = l.sum := by
  cases l with
  | nil => simp [mean]
  | cons a t =>
    refine ⟨by simp [mean], fun m h => ?_⟩
    have hpos : (((a :: t).length : ℕ) : K) ≠ 0 := by
      rw [Nat.cast_ne_zero]
      simp
    simp only [mean, Option.some.injEq] at h
    rw [← h, div_mul_cancel₀ _ hpos]

/-- **C126.** The number of rollouts: as many as fit into the time steps; for ACER as many as cover them. -/
theorem C126_rollouts {total batch : ℕ} (hb : 0 < batch) (k : ℕ) :
    (k ≤ Agent.acer.rollouts total batch ↔ k = 0 ∨ (k - 1) * batch < total) ∧ ∀ a, a ≠ .acer → (k ≤ Agent.rollouts a total batch ↔ k * batch ≤ total) := by
  constructor
  · show k ≤ (total + batch - 1) / batch ↔ _
    rw [Nat.le_div_iff_mul_le hb]
    cases k with
    | zero => simp
    | succ k =>
      simp only [Nat.succ_mul, Nat.add_sub_cancel, Nat.add_one_ne_zero, false_or]
      omega
  · intro a ha
    cases a <;> first | exact absurd rfl ha | exact Nat.le_div_iff_mul_le hb

/-- **C126.** One check.  Without a readable file or a `reward` column nothing is saved; otherwise the current model is saved as the last one, also as the best one if the mean of the window exceeds all earlier ones, whether or not the plot succeeds. -/
theorem C126_call (c : Cfg K) (csv : Option (List (Str × List K))) (w : M) (s : St K M) :
    (csv.bind rewards = none → (runcall c csv w s).1 = s ∧ ∃ e, (runcall c csv w s).2 = .error e) ∧
    ∀ cols y, csv = some cols → rewards cols = some y → (runcall c csv w s).1.lastFile = some w ∧
      (runcall c csv w s).1.best = (save (mean (lastOf c.avg y)) w s).best ∧ (runcall c csv w s).1.bestFile = (save (mean (lastOf c.avg y)) w s).bestFile ∧
      ((∀ f, plot c.sq c.mode c.avg cols = .ok f → (runcall c csv w s).1.figs = f ∧ (runcall c csv w s).2 = .ok ()) ∧
       ∀ e, plot c.sq c.mode c.avg cols = .error e → (runcall c csv w s).1.figs = s.figs ∧ (runcall c csv w s).2 = .error e) := by
  constructor
  · intro h
    cases csv with
    | none => exact ⟨rfl, _, rfl⟩
    | some cols =>
      have h : rewards cols = none := h
      unfold runcall
      simp only [h]
      exact ⟨trivial, _, rfl⟩
  · rintro cols y rfl hy
    have hl : ∀ m, (save m w s).lastFile = some w := fun m => by unfold save; split_ifs <;> rfl
    have hf : ∀ m, (save m w s).figs = s.figs := fun m => by unfold save; split_ifs <;> rfl
    unfold runcall
    simp only [hy]
    cases plot c.sq c.mode c.avg cols with
    | error e => exact ⟨hl _, rfl, rfl, fun f h => (by cases h), fun e' h => ⟨hf _, by cases h; rfl⟩⟩
    | ok f => exact ⟨hl _, rfl, rfl, fun f' h => ⟨by cases h; rfl, rfl⟩, fun e' h => (by cases h)⟩

/-- **C126.** The times of the calls: every multiple of the number of environments up to the end of the last rollout, in order, the k-th after as many updates as there are complete rollouts before it. -/
theorem C126_times (e : ℕ) {n : ℕ} (hn : 0 < n) : ∀ m, schedule e n m = (List.range (m * n)).map fun k => ((k + 1) * e, k / n)
  | 0 => by simp [schedule]
  | m + 1 => by
    have ih := C126_times e hn m
    unfold schedule at ih ⊢
    rw [List.range_succ, List.flatMap_append, ih, Nat.succ_mul, List.range_add, List.map_append]
    congr 1
    simp only [List.flatMap_cons, List.flatMap_nil, List.append_nil, List.map_map, rollout]
    refine List.map_congr_left fun j hj => ?_
    have hj := List.mem_range.1 hj
    simp only [Function.comp, Prod.mk.injEq, true_and]
    rw [Nat.add_comm, Nat.add_mul_div_right _ _ hn, Nat.div_eq_of_lt hj, Nat.zero_add]

/-- The steps up to and including the one at `total`. -/
def upTo (total : ℕ) (l : List (ℕ × ℕ)) : List (ℕ × ℕ) := l.takeWhile (fun x => x.1 ≠ total) ++ (l.find? fun x => x.1 = total).toList

theorem steps_eq (c : Cfg K) (csv : ℕ → Option (List (Str × List K))) (w : ℕ → M) : ∀ (l : List (ℕ × ℕ)) (s : St K M),
    steps c csv w l s = (((upTo c.total l).filter fun x => due c x.1).foldl (fun s x => (runcall c (csv x.1) (w x.2) s).1) s, l.any fun x => x.1 = c.total)
  | [], s => rfl
  | (t, u) :: l, s => by
    rw [steps]
    unfold onStep upTo
    by_cases h : t = c.total
    · subst h
      simp only [beq_self_eq_true, if_true, List.any_cons, decide_true, Bool.true_or, List.takeWhile_cons, ne_eq, not_true_eq_false, decide_false, List.find?_cons, Option.toList_some]
      by_cases hd : due c c.total <;> simp [hd]
    · have h1 : (t == c.total) = false := by simpa using h
      simp only [h1, List.any_cons, h, decide_false, Bool.false_or, List.takeWhile_cons, ne_eq, not_false_eq_true, decide_true, if_true, List.find?_cons]
      rw [if_neg (by simp), steps_eq c csv w l]
      unfold upTo
      by_cases hd : due c t = true <;> simp [hd]

/-- The checks of a run, in order: what the file holds and the model, for the calls due up to `total`, and at the end of the training if `total` is not met. -/
def checks (c : Cfg K) (csv : ℕ → Option (List (Str × List K))) (csvEnd : Option (List (Str × List K))) (w : ℕ → M) (l : List (ℕ × ℕ)) (m : ℕ) : List (Option (List (Str × List K)) × M) :=
  (((upTo c.total l).filter fun x => due c x.1).map fun x => (csv x.1, w x.2)) ++ if (∃ x ∈ l, x.1 = c.total) then [] else [(csvEnd, w m)]

/-- The means of the windows of the checks that could read the rewards. -/
def means (avg : ℤ) (l : List (Option (List (Str × List K)) × M)) : List (Option K × M) := l.filterMap fun x => (x.1.bind rewards).map fun y => (mean (lastOf avg y), x.2)

theorem learn_eq (a : Agent) (e n : ℕ) (c : Cfg K) (csv : ℕ → Option (List (Str × List K))) (csvEnd : Option (List (Str × List K))) (w : ℕ → M) (s : St K M) :
    (learn a e n c csv csvEnd w s).1 = (checks c csv csvEnd w (schedule e n (a.rollouts c.total (e * n))) (a.rollouts c.total (e * n))).foldl (fun s x => (runcall c x.1 x.2 s).1) s := by
  unfold learn checks
  simp only [steps_eq]
  rw [List.foldl_append, List.foldl_map]
  by_cases h : ∃ x ∈ schedule e n (a.rollouts c.total (e * n)), x.1 = c.total
  · rw [if_pos h, if_pos (by simpa using h)]
    rfl
  · rw [if_neg h, if_neg (by simpa using h)]
    unfold trainingEnd
    simp only [List.foldl_cons, List.foldl_nil]
    rcases hr : runcall c csvEnd (w (a.rollouts c.total (e * n))) _ with ⟨s', r⟩
    cases r <;> rfl

/-- The state after some checks tells which mean was the largest, and the last model. -/
structure Good (l : List (Option K × M)) (s : St K M) : Prop where
  last : s.lastFile = l.getLast?.map Prod.snd
  none_ : (∀ x ∈ l, x.1 = none) → s.best = none ∧ s.bestFile = none
  some_ : (∃ x ∈ l, x.1 ≠ none) → ∃ pre m w post, l = pre ++ (some m, w) :: post ∧ s.best = some m ∧ s.bestFile = some w ∧ (∀ x ∈ pre, ∀ m', x.1 = some m' → m' < m) ∧ ∀ x ∈ post, ∀ m', x.1 = some m' → m' ≤ m

theorem save_good {l : List (Option K × M)} {s : St K M} (h : Good l s) (m : Option K) (w : M) : Good (l ++ [(m, w)]) (save m w s) := by
  refine ⟨by rw [List.getLast?_concat]; unfold save; split_ifs <;> rfl, fun hn => ?_, fun hs => ?_⟩
  · have hm : m = none := hn (m, w) (by simp)
    subst hm
    exact h.none_ fun x hx => hn x (by simp [hx])
  · cases m with
    | none =>
      obtain ⟨x, hx, hx'⟩ := hs
      have hx0 : x ∈ l := by
        rcases List.mem_append.1 hx with h1 | h1
        · exact h1
        · rw [List.mem_singleton.1 h1] at hx'; exact absurd rfl hx'
      obtain ⟨pre, m, w', post, e, b1, b2, b3, b4⟩ := h.some_ ⟨x, hx0, hx'⟩
      refine ⟨pre, m, w', post ++ [(none, w)], by rw [e]; simp, b1, b2, b3, fun y hy m' hm' => ?_⟩
      rcases List.mem_append.1 hy with h1 | h1
      · exact b4 y h1 m' hm'
      · rw [List.mem_singleton.1 h1] at hm'; cases hm'
    | some m =>
      by_cases hl : ∃ x ∈ l, x.1 ≠ none
      · obtain ⟨pre, m0, w', post, e, b1, b2, b3, b4⟩ := h.some_ hl
        by_cases hlt : m0 < m
        · have hi : improves s.best (some m) = true := by rw [b1]; simpa [improves] using hlt
          refine ⟨l, m, w, [], rfl, by unfold save; rw [if_pos hi], by unfold save; rw [if_pos hi], fun y hy m' hm' => ?_, by simp⟩
          rw [e] at hy
          rcases List.mem_append.1 hy with h1 | h1
          · exact (b3 y h1 m' hm').trans hlt
          · rcases List.mem_cons.1 h1 with rfl | h1
            · cases hm'; exact hlt
            · exact lt_of_le_of_lt (b4 y h1 m' hm') hlt
        · have hi : ¬ improves s.best (some m) = true := by rw [b1]; simpa [improves] using hlt
          refine ⟨pre, m0, w', post ++ [(some m, w)], by rw [e]; simp, by unfold save; rw [if_neg hi]; exact b1, by unfold save; rw [if_neg hi]; exact b2, b3, fun y hy m' hm' => ?_⟩
          rcases List.mem_append.1 hy with h1 | h1
          · exact b4 y h1 m' hm'
          · rw [List.mem_singleton.1 h1] at hm'
            cases hm'
            exact not_lt.1 hlt
      · push Not at hl
        obtain ⟨b1, b2⟩ := h.none_ hl
        have hi : improves s.best (some m) = true := by rw [b1]; rfl
        exact ⟨l, m, w, [], rfl, by unfold save; rw [if_pos hi], by unfold save; rw [if_pos hi], (fun y hy m' hm' => by rw [hl y hy] at hm'; cases hm'), by simp⟩

theorem runcall_good (c : Cfg K) {l : List (Option (List (Str × List K)) × M)} {s : St K M} (h : Good (means c.avg l) s) (x : Option (List (Str × List K)) × M) : Good (means c.avg (l ++ [x])) (runcall c x.1 x.2 s).1 := by
  obtain ⟨csv, w⟩ := x
  have hm : means c.avg (l ++ [(csv, w)]) = means c.avg l ++ ((csv.bind rewards).map fun y => (mean (lastOf c.avg y), w)).toList := by
    unfold means
    rw [List.filterMap_append]
    congr 1
  rw [hm]
  cases hr : csv.bind rewards with
  | none =>
    rw [((C126_call c csv w s).1 hr).1]
    simpa using h
  | some y =>
    cases csv with
    | none => cases hr
    | some cols =>
      obtain ⟨h1, h2, h3, -⟩ := (C126_call c (some cols) w s).2 cols y rfl hr
      have g := save_good h (mean (lastOf c.avg y)) w
      simp only [Option.map_some, Option.toList_some]
      refine ⟨?_, fun hn => ?_, fun hs => ?_⟩
      · rw [h1, List.getLast?_concat]; rfl
      · rw [h2, h3]; exact g.none_ hn
      · rw [h2, h3]; exact g.some_ hs

theorem foldl_good (c : Cfg K) : ∀ (l2 l1 : List (Option (List (Str × List K)) × M)) (s : St K M), Good (means c.avg l1) s → Good (means c.avg (l1 ++ l2)) (l2.foldl (fun s x => (runcall c x.1 x.2 s).1) s)
  | [], l1, s, h => by simpa using h
  | x :: l2, l1, s, h => by
    have := foldl_good c l2 (l1 ++ [x]) _ (runcall_good c h x)
    simpa using this

/-- **C126.** The files of a training.  The last model is that of the last check that could read the rewards; the best model is that of the first check with the largest mean window among them, and `best_mean_reward` is that mean.  Without a mean there is no best model. -/
theorem C126_best (a : Agent) (e n : ℕ) (c : Cfg K) (csv : ℕ → Option (List (Str × List K))) (csvEnd : Option (List (Str × List K))) (w : ℕ → M) :
    let l := means c.avg (checks c csv csvEnd w (schedule e n (a.rollouts c.total (e * n))) (a.rollouts c.total (e * n)))
    let s := (learn a e n c csv csvEnd w St.init).1
    s.lastFile = l.getLast?.map Prod.snd ∧ ((∀ x ∈ l, x.1 = none) → s.best = none ∧ s.bestFile = none) ∧
    ((∃ x ∈ l, x.1 ≠ none) → ∃ pre m v post, l = pre ++ (some m, v) :: post ∧ s.best = some m ∧ s.bestFile = some v ∧ (∀ x ∈ pre, ∀ m', x.1 = some m' → m' < m) ∧ ∀ x ∈ post, ∀ m', x.1 = some m' → m' ≤ m) := by
  have := foldl_good c (checks c csv csvEnd w (schedule e n (a.rollouts c.total (e * n))) (a.rollouts c.total (e * n))) [] St.init
    ⟨rfl, fun _ => ⟨rfl, rfl⟩, fun ⟨x, hx, _⟩ => absurd hx (by simp [means])⟩
  rw [List.nil_append, ← learn_eq] at this
  exact ⟨this.last, this.none_, this.some_⟩

/-! ### The end of the training -/

theorem mem_schedule {e n m : ℕ} (hn : 0 < n) {t u : ℕ} : (t, u) ∈ schedule e n m ↔ ∃ k, k < m * n ∧ t = (k + 1) * e ∧ u = k / n := by
  rw [C126_times e hn, List.mem_map]
  constructor
  · rintro ⟨k, hk, h⟩
    simp only [Prod.mk.injEq] at h
    exact ⟨k, List.mem_range.1 hk, h.1.symm, h.2.symm⟩
  · rintro ⟨k, hk, rfl, rfl⟩
    exact ⟨k, List.mem_range.2 hk, rfl⟩

/-- `total` is among the times of the calls. -/
theorem hit_iff {e n m total : ℕ} (he : 0 < e) (hn : 0 < n) (ht : 0 < total) : (∃ x ∈ schedule e n m, x.1 = total) ↔ e ∣ total ∧ total ≤ m * n * e := by
  constructor
  · rintro ⟨⟨t, u⟩, hx, rfl⟩
    obtain ⟨k, hk, h1, -⟩ := (mem_schedule hn).1 hx
    simp only at h1 ⊢
    rw [h1]
    exact ⟨Dvd.intro_left _ rfl, Nat.mul_le_mul_right _ (by omega)⟩
  · rintro ⟨⟨q, rfl⟩, h2⟩
    have hq : 0 < q := Nat.pos_of_mul_pos_left ht
    have hq2 : q ≤ m * n := by
      rw [mul_comm e q] at h2
      exact Nat.le_of_mul_le_mul_right h2 he
    exact ⟨(e * q, (q - 1) / n), (mem_schedule hn).2 ⟨q - 1, by omega, by rw [Nat.sub_add_cancel hq, mul_comm], rfl⟩, rfl⟩

/-- **C126 (defect).** The training never returns: the process ends with exit status 1 or an exception, also after a complete training.  So `build` never reaches its own `model.save`. -/
theorem C126_exit (a : Agent) (e n : ℕ) (c : Cfg K) (csv : ℕ → Option (List (Str × List K))) (csvEnd : Option (List (Str × List K))) (w : ℕ → M) :
    (∀ s, (learn a e n c csv csvEnd w s).2 = .exit1 ∨ ∃ x, (learn a e n c csv csvEnd w s).2 = .raised x) ∧
    (∀ s, ((learn a e n c csv csvEnd w s).2 = .exit1 ↔ (∃ x ∈ schedule e n (a.rollouts c.total (e * n)), x.1 = c.total) ∨
      ∃ cols f, csvEnd = some cols ∧ (rewards cols).isSome ∧ plot c.sq c.mode c.avg cols = .ok f)) ∧
    ∀ m, m = .train ∨ m = .continue_ → (build a m e n c csv csvEnd w).2.1 = none ∧ (build a m e n c csv csvEnd w).2.2 ≠ .returned := by
  have key : ∀ s : St K M, ((trainingEnd c csvEnd (w (a.rollouts c.total (e * n))) s).2 = .exit1 ↔ ∃ cols f, csvEnd = some cols ∧ (rewards cols).isSome ∧ plot c.sq c.mode c.avg cols = .ok f) ∧
      ((trainingEnd c csvEnd (w (a.rollouts c.total (e * n))) s).2 = .exit1 ∨ ∃ x, (trainingEnd c csvEnd (w (a.rollouts c.total (e * n))) s).2 = .raised x) := by
    intro s
    unfold trainingEnd runcall
    cases csvEnd with
    | none => exact ⟨by simp, Or.inr ⟨_, rfl⟩⟩
    | some cols =>
      cases hr : rewards cols with
      | none => simp [hr]
      | some y =>
        cases hp : plot c.sq c.mode c.avg cols with
        | error x => simp [hr, hp]
        | ok f => simp [hr, hp]
  have h1 : ∀ s : St K M, (learn a e n c csv csvEnd w s).2 = .exit1 ∨ ∃ x, (learn a e n c csv csvEnd w s).2 = .raised x := by
    intro s
    unfold learn
    simp only
    split_ifs
    · exact Or.inl rfl
    · exact (key _).2
  refine ⟨h1, fun s => ?_, fun m hm => ?_⟩
  · unfold learn
    simp only [steps_eq]
    by_cases h : ∃ x ∈ schedule e n (a.rollouts c.total (e * n)), x.1 = c.total
    · rw [if_pos (by simpa using h)]
      exact ⟨fun _ => Or.inl h, fun _ => rfl⟩
    · rw [if_neg (by simpa using h), (key _).1]
      exact ⟨Or.inr, fun hh => hh.resolve_left h⟩
  · have h := h1 St.init
    unfold build
    rcases hl : learn a e n c csv csvEnd w (St.init : St K M) with ⟨s, o⟩
    rw [hl] at h
    rcases hm with rfl | rfl <;> rcases h with h | ⟨x, h⟩ <;> simp only at h <;> subst h <;> exact ⟨rfl, by simp⟩

theorem find_last {e n m total : ℕ} (he : 0 < e) (hn : 0 < n) (ht : 0 < total) (h : e ∣ total ∧ total ≤ m * n * e) : (schedule e n m).find? (fun x => x.1 = total) = some (total, (total / e - 1) / n) := by
  obtain ⟨x, hx, hx2⟩ := (hit_iff he hn ht).2 h
  have hs : ((schedule e n m).find? fun x => x.1 = total).isSome := by
    rw [List.find?_isSome]
    exact ⟨x, hx, by simpa using hx2⟩
  obtain ⟨⟨t, u⟩, hy⟩ := Option.isSome_iff_exists.1 hs
  have h1 : t = total := by simpa using List.find?_some hy
  obtain ⟨k, -, h2, h3⟩ := (mem_schedule hn).1 (List.mem_of_find?_eq_some hy)
  rw [hy, h1, h3]
  congr 3
  rw [← h1, h2, Nat.mul_div_cancel _ he]
  rfl

/-- **C126.** The last model on disk.  If `total` is met, it is the model at that time, before the update of the rollout that `total` belongs to; if not, it is the model after all updates. -/
theorem C126_last (a : Agent) {e n : ℕ} (he : 0 < e) (hn : 0 < n) (c : Cfg K) (ht : 0 < c.total) (hf : c.freq ≠ 0) (csv : ℕ → Option (List (Str × List K))) (csvEnd : Option (List (Str × List K))) (w : ℕ → M) :
    (e ∣ c.total → c.total ≤ a.rollouts c.total (e * n) * n * e → ((csv c.total).bind rewards).isSome → (learn a e n c csv csvEnd w St.init).1.lastFile = some (w ((c.total / e - 1) / n))) ∧
    (¬ (e ∣ c.total ∧ c.total ≤ a.rollouts c.total (e * n) * n * e) → (csvEnd.bind rewards).isSome → (learn a e n c csv csvEnd w St.init).1.lastFile = some (w (a.rollouts c.total (e * n)))) := by
  obtain ⟨h1, -⟩ := C126_best a e n c csv csvEnd w
  constructor
  · intro h2 h3 h4
    rw [h1]
    obtain ⟨y, hy⟩ := Option.isSome_iff_exists.1 h4
    unfold checks
    rw [if_pos ((hit_iff he hn ht).2 ⟨h2, h3⟩), List.append_nil]
    unfold upTo
    rw [find_last he hn ht ⟨h2, h3⟩]
    have hd : due c c.total = true := by unfold due; simp [hf]
    unfold means
    simp only [Option.toList_some, List.filter_append, List.filter_cons, hd, if_true, List.filter_nil, List.map_append, List.map_cons, List.map_nil, List.filterMap_append, List.filterMap_cons, hy, Option.map_some, List.filterMap_nil,
      List.getLast?_concat]
  · intro h2 h4
    rw [h1]
    obtain ⟨y, hy⟩ := Option.isSome_iff_exists.1 h4
    unfold checks
    rw [if_neg (fun h => h2 ((hit_iff he hn ht).1 h))]
    unfold means
    simp only [List.filterMap_append, List.filterMap_cons, hy, Option.map_some, List.filterMap_nil, List.getLast?_concat]

/-- **C126 (defect).** When the time steps are a multiple of the steps of a rollout, the documented use, the saved last model lacks the last update; if they are one rollout, it is the untrained model. -/
theorem C126_short (a : Agent) {e n q : ℕ} (he : 0 < e) (hn : 0 < n) (hq : 0 < q) (c : Cfg K) (hc : c.total = q * (e * n)) (hf : c.freq ≠ 0) (csv : ℕ → Option (List (Str × List K))) (csvEnd : Option (List (Str × List K))) (w : ℕ → M)
    (hr : ((csv c.total).bind rewards).isSome) : a.rollouts c.total (e * n) = q ∧ (learn a e n c csv csvEnd w St.init).2 = .exit1 ∧ (learn a e n c csv csvEnd w St.init).1.lastFile = some (w (q - 1)) := by
  have hb : 0 < e * n := Nat.mul_pos he hn
  have ht : 0 < c.total := by rw [hc]; exact Nat.mul_pos hq hb
  have hm : a.rollouts c.total (e * n) = q := by
    have h1 : (q * (e * n) + e * n - 1) / (e * n) = q := by
      rw [show q * (e * n) + e * n - 1 = (e * n - 1) + q * (e * n) by omega, Nat.add_mul_div_right _ _ hb, Nat.div_eq_of_lt (by omega), Nat.zero_add]
    rw [hc]
    cases a <;> simp [Agent.rollouts, h1, Nat.mul_div_cancel _ hb]
  have hd : e ∣ c.total := ⟨q * n, by rw [hc]; ring⟩
  have hle : c.total ≤ a.rollouts c.total (e * n) * n * e := by rw [hm, hc]; exact le_of_eq (by ring)
  refine ⟨hm, ((C126_exit a e n c csv csvEnd w).2.1 _).2 (Or.inl ((hit_iff he hn ht).2 ⟨hd, hle⟩)), ?_⟩
  rw [(C126_last a he hn c ht hf csv csvEnd w).1 hd hle hr]
  have e1 : c.total / e = q * n := by rw [hc, show q * (e * n) = q * n * e by ring, Nat.mul_div_cancel _ he]
  have e2 : (q * n - 1) / n = q - 1 := by
    obtain ⟨q, rfl⟩ : ∃ k, q = k + 1 := ⟨q - 1, by omega⟩
    rw [show (q + 1) * n - 1 = (n - 1) + q * n by rw [Nat.succ_mul]; omega, Nat.add_mul_div_right _ _ hn, Nat.div_eq_of_lt (by omega)]
    simp
  rw [e1, e2]

/-- **C126 (defect).** With a frequency of 0 the test raises inside the `try`; a training that meets `total` ends without having saved any model. -/
theorem C126_zero (a : Agent) {e n : ℕ} (c : Cfg K) (hf : c.freq = 0) (csv : ℕ → Option (List (Str × List K))) (csvEnd : Option (List (Str × List K))) (w : ℕ → M)
    (hh : ∃ x ∈ schedule e n (a.rollouts c.total (e * n)), x.1 = c.total) : (learn a e n c csv csvEnd w St.init).1.lastFile = none ∧ (learn a e n c csv csvEnd w St.init).1.bestFile = none := by
  have hd : ∀ t, due c t = false := fun t => by unfold due; simp [hf]
  rw [learn_eq]
  unfold checks
  rw [if_pos hh, List.filter_eq_nil_iff.2 (by simp [hd])]
  exact ⟨rfl, rfl⟩

/-- **C126.** The checks before the end.  A call at a time other than `total` checks exactly when the frequency divides the time, so the checks come at the common multiples of the frequency and the number of environments; a frequency that
is a multiple of that number, as the parser makes it (C109), is met at each of its multiples. -/
theorem C126_freq {e n m : ℕ} (he : 0 < e) (hn : 0 < n) (c : Cfg K) {f : ℕ} (hf : c.freq = f) (hpos : 0 < f) (t : ℕ) (htot : t ≠ c.total) :
    ((∃ u, (t, u) ∈ schedule e n m ∧ due c t = true) ↔ Nat.lcm e f ∣ t ∧ 0 < t ∧ t ≤ m * n * e) ∧ (e ∣ f → ∀ k, 0 < k → k * f ≤ m * n * e → ∃ u, (k * f, u) ∈ schedule e n m) := by
  have hmem : ∀ t, (∃ u, (t, u) ∈ schedule e n m) ↔ e ∣ t ∧ 0 < t ∧ t ≤ m * n * e := by
    intro t
    constructor
    · rintro ⟨u, hu⟩
      have hp : 0 < t := by
        obtain ⟨k, -, h1, -⟩ := (mem_schedule hn).1 hu
        rw [h1]; positivity
      have := (hit_iff he hn hp).1 ⟨_, hu, rfl⟩
      exact ⟨this.1, hp, this.2⟩
    · rintro ⟨h1, h2, h3⟩
      obtain ⟨⟨t', u⟩, hx, hx2⟩ := (hit_iff he hn h2).2 ⟨h1, h3⟩
      simp only at hx2
      subst hx2
      exact ⟨u, hx⟩
  have hdue : due c t = true ↔ f ∣ t := by
    unfold due
    rw [hf]
    have : ((f : ℤ) ≠ 0) := by exact_mod_cast hpos.ne'
    simp only [ne_eq, this, not_false_eq_true, decide_true, Bool.true_and, Bool.or_eq_true, decide_eq_true_eq, beq_iff_eq, htot, or_false]
    rw [← Int.natCast_mod, Int.natCast_eq_zero, Nat.dvd_iff_mod_eq_zero]
  constructor
  · constructor
    · rintro ⟨u, hu, hd⟩
      obtain ⟨h1, h2, h3⟩ := (hmem t).1 ⟨u, hu⟩
      exact ⟨Nat.lcm_dvd h1 (hdue.1 hd), h2, h3⟩
    · rintro ⟨h1, h2, h3⟩
      obtain ⟨u, hu⟩ := (hmem t).2 ⟨(Nat.dvd_lcm_left e f).trans h1, h2, h3⟩
      exact ⟨u, hu, hdue.2 ((Nat.dvd_lcm_right e f).trans h1)⟩
  · intro h k hk hk2
    exact (hmem _).2 ⟨h.trans (Dvd.intro_left _ rfl), Nat.mul_pos hk hpos, hk2⟩

/-- A run of A2C with 2 environments, rollouts of 3 steps, 12 time steps and a check every 4: the rewards grow, then fall. -/
def exCfg : Cfg ℚ := ⟨4, 2, 12, .subplot, id⟩

def exCsv (t : ℕ) : Option (List (Str × List ℚ)) := some [("reward".toList, if t ≤ 4 then [1, 2] else if t ≤ 8 then [1, 2, 5, 7] else [1, 2, 5, 7, 0, 0])]

example : schedule 2 3 2 = [(2, 0), (4, 0), (6, 0), (8, 1), (10, 1), (12, 1)] ∧
    ((learn .a2c 2 3 exCfg exCsv none id St.init).1.best, (learn .a2c 2 3 exCfg exCsv none id St.init).1.bestFile, (learn .a2c 2 3 exCfg exCsv none id St.init).1.lastFile, (learn .a2c 2 3 exCfg exCsv none id St.init).2) =
      (some 6, some 1, some 1, .exit1) := by decide +kernel

/-- The same with 10 time steps: `total` lies beyond the only rollout, and the training ends with the exception of a missing file. -/
example : (learn .a2c 2 3 { exCfg with total := 10 } exCsv none id St.init).2 = .raised .runtimeError ∧ (learn .acer 2 3 { exCfg with total := 10 } exCsv none id St.init).2 = .exit1 := by decide +kernel

/-! ### Evaluation -/

/-- An episode: the steps of the environment from a state and an observation to the first `done`, with the rewards. -/
inductive Ep {S O A H : Type} (predict : O → Option H → A × Option H) (env : Env S O A K) : S → O → Option H → List K → S → Prop
  | stop {s o h s' o' r} : env.step s (predict o h).1 = (s', o', r, true) → Ep predict env s o h [r] s'
  | go {s o h s1 o1 r rs s'} : env.step s (predict o h).1 = (s1, o1, r, false) → Ep predict env s1 o1 (predict o h).2 rs s' → Ep predict env s o h (r :: rs) s'

/-- Episodes one after the other, each after a reset and without a recurrent state. -/
inductive Eps {S O A H : Type} (predict : O → Option H → A × Option H) (env : Env S O A K) : S → List (List K) → S → Prop
  | nil {s} : Eps predict env s [] s
  | cons {s rs s1 l s'} : Ep predict env (env.reset s).1 (env.reset s).2 none rs s1 → Eps predict env s1 l s' → Eps predict env s (rs :: l) s'

theorem episode_iff {S O A H : Type} (predict : O → Option H → A × Option H) (env : Env S O A K) : ∀ (fuel : ℕ) (s : S) (o : O) (h : Option H) (r : K) (l : ℕ) (x : S × K × ℕ),
    episode predict env fuel s o h r l = some x ↔ ∃ rs, Ep predict env s o h rs x.1 ∧ rs.length ≤ fuel ∧ x.2.1 = r + rs.sum ∧ x.2.2 = l + rs.length
  | 0, s, o, h, r, l, x => by
    refine ⟨fun hh => (by cases hh), fun ⟨rs, h1, h2, _⟩ => ?_⟩
    cases h1 <;> simp at h2
  | fuel + 1, s, o, h, r, l, ⟨xs, xr, xl⟩ => by
    rw [episode]
    simp only
    rcases hst : env.step s (predict o h).1 with ⟨s1, o1, r1, d⟩
    cases d with
    | true =>
      simp only [if_true, Option.some.injEq, Prod.mk.injEq]
      constructor
      · rintro ⟨rfl, rfl, rfl⟩
        exact ⟨[r1], .stop hst, by simp, by simp, by simp⟩
      · rintro ⟨rs, h1, -, h3, h4⟩
        cases h1 with
        | stop hs => rw [hst] at hs; cases hs; exact ⟨rfl, by simpa using h3.symm, by simpa using h4.symm⟩
        | go hs _ => rw [hst] at hs; cases hs
    | false =>
      rw [if_neg (by simp), episode_iff predict env fuel]
      constructor
      · rintro ⟨rs, h1, h2, h3, h4⟩
        exact ⟨r1 :: rs, .go hst h1, by simp [h2], by simp only [List.sum_cons]; simp only at h3; rw [h3]; ring, by simp only [List.length_cons]; simp only at h4; omega⟩
      · rintro ⟨rs, h1, h2, h3, h4⟩
        cases h1 with
        | stop hs => rw [hst] at hs; cases hs
        | go hs hr =>
          rw [hst] at hs
          cases hs
          exact ⟨_, hr, by simpa using h2, by simp only [List.sum_cons] at h3; simp only; rw [h3]; ring, by simp only [List.length_cons] at h4; simp only; omega⟩

theorem evalLoop_iff {S O A H : Type} (predict : O → Option H → A × Option H) (env : Env S O A K) (fuel : ℕ) : ∀ (n : ℕ) (s : S) (x : S × List K × List ℕ),
    evalLoop predict env fuel n s = some x ↔ ∃ l, Eps predict env s l x.1 ∧ l.length = n ∧ (∀ rs ∈ l, rs.length ≤ fuel) ∧ x.2.1 = l.map List.sum ∧ x.2.2 = l.map List.length
  | 0, s, ⟨xs, xr, xl⟩ => by
    rw [evalLoop]
    simp only [Option.some.injEq, Prod.mk.injEq]
    constructor
    · rintro ⟨rfl, rfl, rfl⟩
      exact ⟨[], .nil, rfl, by simp, rfl, rfl⟩
    · rintro ⟨l, h1, h2, -, h3, h4⟩
      cases h1 with
      | nil => exact ⟨rfl, h3.symm, h4.symm⟩
      | cons _ _ => simp at h2
  | n + 1, s, ⟨xs, xr, xl⟩ => by
    rw [evalLoop]
    cases he : episode predict env fuel (env.reset s).1 (env.reset s).2 none 0 0 with
    | none =>
      refine ⟨fun h => (by cases h), fun ⟨l, h1, h2, h3, _⟩ => ?_⟩
      cases h1 with
      | nil => simp at h2
      | @cons _ rs s1 _ _ hep _ =>
        have := (episode_iff predict env fuel _ _ none 0 0 (s1, 0 + rs.sum, 0 + rs.length)).2 ⟨rs, hep, h3 rs (by simp), rfl, rfl⟩
        rw [he] at this
        cases this
    | some y =>
      obtain ⟨s1, r1, l1⟩ := y
      obtain ⟨rs, e1, e2, e3, e4⟩ := (episode_iff predict env fuel _ _ none 0 0 _).1 he
      simp only [zero_add] at e3 e4
      simp only [Option.map_eq_some_iff]
      constructor
      · rintro ⟨x, hx, hx2⟩
        obtain ⟨l, f1, f2, f3, f4, f5⟩ := (evalLoop_iff predict env fuel n s1 x).1 hx
        simp only [Prod.mk.injEq] at hx2
        obtain ⟨rfl, rfl, rfl⟩ := hx2
        refine ⟨rs :: l, .cons e1 f1, by simp [f2], fun z hz => ?_, by simp [e3, f4], by simp [e4, f5]⟩
        rcases List.mem_cons.1 hz with rfl | hz
        · exact e2
        · exact f3 z hz
      · rintro ⟨l, f1, f2, f3, f4, f5⟩
        cases f1 with
        | nil => simp at f2
        | @cons _ rs' s1' l' _ hep hl =>
          have := (episode_iff predict env fuel _ _ none 0 0 (s1', 0 + rs'.sum, 0 + rs'.length)).2 ⟨rs', hep, f3 rs' (by simp), rfl, rfl⟩
          rw [he] at this
          simp only [zero_add, Option.some.injEq, Prod.mk.injEq] at this
          obtain ⟨rfl, h5, h6⟩ := this
          exact ⟨(xs, l'.map List.sum, l'.map List.length), (evalLoop_iff predict env fuel n s1 _).2 ⟨l', hl, by simpa using f2, fun z hz => f3 z (by simp [hz]), rfl, rfl⟩, by
            simp only [List.map_cons] at f4 f5
            simp only [Prod.mk.injEq, true_and]
            rw [f4, f5, h5, h6]
            exact ⟨rfl, rfl⟩⟩

/-- **C126 (defect).** `evaluate_policy` runs exactly the given number of episodes, each from a reset to its first `done` without a recurrent state from before, and adds up their rewards; but contrary to its description it returns none of this. -/
theorem C126_eval {S O A H : Type} (predict : O → Option H → A × Option H) (env : Env S O A K) (fuel n : ℕ) (s : S) :
    (∀ s', (∃ v, evaluatePolicy predict env fuel n s = some (s', v)) ↔ ∃ l, Eps predict env s l s' ∧ l.length = n ∧ ∀ rs ∈ l, rs.length ≤ fuel) ∧
    (∀ x, evalLoop predict env fuel n s = some x → ∃ l, Eps predict env s l x.1 ∧ l.length = n ∧ x.2.1 = l.map List.sum ∧ x.2.2 = l.map List.length) ∧
    ∀ s' v, evaluatePolicy predict env fuel n s = some (s', v) → v = none := by
  refine ⟨fun s' => ?_, fun x hx => ?_, fun s' v h => ?_⟩
  · unfold evaluatePolicy
    constructor
    · rintro ⟨v, h⟩
      obtain ⟨x, hx, hx2⟩ := Option.map_eq_some_iff.1 h
      cases hx2
      obtain ⟨l, a, b, c, -⟩ := (evalLoop_iff predict env fuel n s x).1 hx
      exact ⟨l, a, b, c⟩
    · rintro ⟨l, a, b, c⟩
      exact ⟨none, by rw [(evalLoop_iff predict env fuel n s (s', l.map List.sum, l.map List.length)).2 ⟨l, a, b, c, rfl, rfl⟩]; rfl⟩
  · obtain ⟨l, a, b, -, d, e⟩ := (evalLoop_iff predict env fuel n s x).1 hx
    exact ⟨l, a, b, d, e⟩
  · unfold evaluatePolicy at h
    obtain ⟨x, hx, hx2⟩ := Option.map_eq_some_iff.1 h
    cases hx2
    rfl

/-- A counter that ends an episode after three steps. -/
def exEnv : Env ℕ ℕ ℕ ℚ := ⟨fun _ => (0, 0), fun s a => (s + 1, s + 1, (a : ℚ), decide (s + 1 = 3))⟩

example : evalLoop (H := Unit) (fun o h => (o + 1, h)) exEnv 5 2 7 = some (3, [6, 6], [3, 3]) ∧ evaluatePolicy (H := Unit) (fun o h => (o + 1, h)) exEnv 5 2 7 = some (3, none) := by decide +kernel

end Neorl.SavePlot

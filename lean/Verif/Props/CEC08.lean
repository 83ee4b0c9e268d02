import Verif.CEC08
import Verif.Props.CEC17

/-!
# The CEC 2008 functions (C84)
-/

set_option linter.unusedSectionVars false
set_option linter.unusedVariables false

namespace Neorl.CEC08

open Real Neorl.Classic

/-! ## The functions behind the shift -/

theorem f1_min (n : ℕ) : OnlyMinAt f1 (allEq n 0) 0 := sphere_min n

theorem foldl_max_le (t : List ℝ) (m : ℝ) : m ≤ t.foldl (fun m b => max m |b|) m ∧
    ∀ b ∈ t, |b| ≤ t.foldl (fun m b => max m |b|) m := by
  induction t generalizing m with
  | nil => simp
  | cons b t ih =>
    obtain ⟨h1, h2⟩ := ih (max m |b|)
    refine ⟨(le_max_left _ _).trans h1, fun c hc => ?_⟩
    rcases List.mem_cons.1 hc with rfl | hc
    · exact (le_max_right _ _).trans h1
    · exact h2 c hc

theorem foldl_max_zero (m : ℕ) : (List.replicate m (0 : ℝ)).foldl (fun m b => max m |b|) 0 = 0 := by
  induction m with
  | zero => rfl
  | succ m ih => simpa [List.replicate_succ] using ih

theorem f2_min {n : ℕ} (hn : 0 < n) : OnlyMinAt f2 (allEq n 0) 0 := by
  obtain ⟨m, rfl⟩ : ∃ m, n = m + 1 := ⟨n - 1, by omega⟩
  refine onlyMin_of (fun x => x.tail.foldl (fun m b => max m |b|) |x.headD 0|) ?_ ?_ ?_ ?_
  · rintro (_ | ⟨a, t⟩) hx
    · simp at hx
    · rfl
  · simpa [allEq, List.replicate_succ] using foldl_max_zero m
  · intro x _
    exact (abs_nonneg _).trans (foldl_max_le _ _).1
  · rintro (_ | ⟨a, t⟩) hx h
    · simp at hx
    · obtain ⟨h1, h2⟩ := foldl_max_le t |a|
      simp only [List.tail_cons, List.headD_cons] at h
      rw [h] at h1 h2
      refine eq_replicate (by simpa using hx) fun c hc => ?_
      rcases List.mem_cons.1 hc with rfl | hc
      · exact abs_eq_zero.1 (le_antisymm h1 (abs_nonneg _))
      · exact abs_eq_zero.1 (le_antisymm (h2 c hc) (abs_nonneg _))

theorem f3_min (n : ℕ) : MinAt f3 (allEq n 0) 0 ∧ (2 ≤ n → OnlyMinAt f3 (allEq n 0) 0) := by
  have hv : ∀ d, f3 d = rosenbrock (d.map fun a => a + 1) := fun d => by
    unfold f3 rosenbrock
    exact congrArg _ (sumOf_congr fun p _ => by ring)
  have hz : (allEq n (0 : ℝ)).map (fun a => a + 1) = allEq n 1 := by simp
  obtain ⟨h1, h2⟩ := rosenbrock_min n
  have hm : MinAt f3 (allEq n 0) 0 := by
    constructor
    · rw [hv, hz]; exact h1.1
    · intro x hx
      rw [hv]; exact h1.2 _ (by simpa using hx)
  refine ⟨hm, fun hn => ⟨hm, fun x hx h => ?_⟩⟩
  rw [hv] at h
  have h3 := (h2 hn).2 _ (by simpa using hx) h
  refine eq_replicate (by simpa using hx) fun a ha => ?_
  have h4 : a + 1 ∈ x.map (fun a => a + 1) := List.mem_map.2 ⟨a, ha, rfl⟩
  rw [h3] at h4
  have := mem_allEq h4
  linarith

theorem f4_min (n : ℕ) : OnlyMinAt f4 (allEq n 0) 0 := by
  have hn : ∀ a : ℝ, 0 ≤ a ^ 2 - 10 * cos (2 * π * a) + 10 := fun a => by
    have := (CEC17.nonCont_term a).1; rw [← sq] at this; exact this
  refine onlyMin_of _ (fun _ _ => rfl) ?_ (fun x _ => sumOf_nonneg fun a _ => hn a) fun x hx h => ?_
  · rw [sumOf_replicate]; simp
  · refine eq_replicate (by simpa using hx) fun a ha => (CEC17.nonCont_term a).2 ?_
    have := sumOf_zero_mem (fun a _ => hn a) h a ha
    rw [sq] at this; exact this

theorem f5_min (n : ℕ) : OnlyMinAt f5 (allEq n 0) 0 := by
  have : f5 = griewank := funext fun x => by
    unfold f5 griewank
    congr 3
    rw [← sumOf_mul]
    exact sumOf_congr fun a _ => by ring
  rw [this]; exact griewank_min n

theorem f6_min {n : ℕ} (hn : 0 < n) : OnlyMinAt f6 (allEq n 0) 0 := by
  have : f6 = ackley := funext fun x => by
    unfold f6 ackley
    split_ifs
    · rfl
    · rw [one_div_mul_eq_div, one_div_mul_eq_div]
      congr 1; ring
  rw [this]; exact ackley_min hn

/-! ## C84 -/

section
variable {g : List ℝ → Py ℝ} {bias : ℝ} {data : List ℝ} {n : ℕ}

theorem frame_val (hd : n ≤ data.length) (hn : n ≤ 1000) {x : List ℝ} (hx : x.length = n) :
    frame g bias data x
      = (g (List.zipWith (fun a b => a - b) x (data.take n)) >>= fun y => .ok (y + bias)) := by
  unfold frame diff
  rw [if_neg (by omega), hx, CEC17.sub_ok (by simp; omega)]
  rfl

theorem frame_min (hd : n ≤ data.length) (hn : n ≤ 1000) (h : MinAt g (allEq n 0) 0) :
    MinAt (frame g bias data) (data.take n) bias := by
  have hl : (data.take n).length = n := by simp; omega
  constructor
  · rw [frame_val hd hn hl, CEC17.sub_self', hl, h.1]
    simp [bind, Except.bind]
  · intro x hx
    obtain ⟨y, hy, hle⟩ := h.2 (List.zipWith (fun a b => a - b) x (data.take n)) (by simp [hx, hd])
    exact ⟨y + bias, by rw [frame_val hd hn (hx.trans hl), hy]; rfl, by linarith⟩

theorem frame_only (hd : n ≤ data.length) (hn : n ≤ 1000) (h : OnlyMinAt g (allEq n 0) 0) :
    OnlyMinAt (frame g bias data) (data.take n) bias := by
  have hl : (data.take n).length = n := by simp; omega
  refine ⟨frame_min hd hn h.1, fun x hx he => ?_⟩
  rw [frame_val hd hn (hx.trans hl)] at he
  have hlen : (List.zipWith (fun a b => a - b) x (data.take n)).length = (allEq n (0 : ℝ)).length := by
    simp [hx]; omega
  obtain ⟨y, hy, _⟩ := h.1.2 _ hlen
  rw [hy] at he
  have : y = 0 := by have := ok_inj he; linarith
  subst this
  refine CEC17.sub_zero hx ?_
  rw [h.2 _ hlen hy, hl]

end

/-- **C84.** For every dimension from two to a thousand each of the six shifted functions has its global
minimum at the first entries of its column of the data file, with its documented value, and nowhere
else. -/
theorem C84_minima {data : List ℝ} {n : ℕ} (hd : data.length = 1000) (h2 : 2 ≤ n) (hn : n ≤ 1000) :
    OnlyMinAt (F1 data) (data.take n) (-450) ∧ OnlyMinAt (F2 data) (data.take n) (-450) ∧
    OnlyMinAt (F3 data) (data.take n) 390 ∧ OnlyMinAt (F4 data) (data.take n) (-330) ∧
    OnlyMinAt (F5 data) (data.take n) (-180) ∧ OnlyMinAt (F6 data) (data.take n) (-140) :=
  have hd' : n ≤ data.length := by omega
  ⟨frame_only hd' hn (f1_min n), frame_only hd' hn (f2_min (by omega)),
   frame_only hd' hn ((f3_min n).2 h2), frame_only hd' hn (f4_min n), frame_only hd' hn (f5_min n),
   frame_only hd' hn (f6_min (by omega))⟩

/-- **C84.** `return_global` returns that minimiser and that minimum. -/
theorem C84_global {data : List ℝ} {n : ℕ} (hd : data.length = 1000) (h2 : 2 ≤ n) (hn : n ≤ 1000) :
    ∀ p ∈ [(F1, -450), (F2, -450), (F3, 390), (F4, -330), (F5, -180), (F6, -140)],
      returnGlobal p.1 data n = .ok (data.take n, p.2) ∧ (data.take n).length = n ∧
      ∀ x : List ℝ, x.length = n → ∃ y, p.1 data x = .ok y ∧ p.2 ≤ y := by
  obtain ⟨h1, h2, h3, h4, h5, h6⟩ := C84_minima hd h2 hn
  have hl : (data.take n).length = n := by simp; omega
  have key : ∀ (f : List ℝ → List ℝ → Py ℝ) (b : ℝ), OnlyMinAt (f data) (data.take n) b →
      returnGlobal f data n = .ok (data.take n, b) ∧ (data.take n).length = n ∧
      ∀ x : List ℝ, x.length = n → ∃ y, f data x = .ok y ∧ b ≤ y := fun f b h =>
    ⟨by rw [returnGlobal, h.1.1]; rfl, hl, fun x hx => h.1.2 x (hx.trans hl.symm)⟩
  intro p hp
  simp only [List.mem_cons, List.not_mem_nil, or_false] at hp
  rcases hp with rfl | rfl | rfl | rfl | rfl | rfl
  · exact key _ _ h1
  · exact key _ _ h2
  · exact key _ _ h3
  · exact key _ _ h4
  · exact key _ _ h5
  · exact key _ _ h6

/-- **C84 (defect).** More than a thousand coordinates are not refused: every such individual scores 1.
For `F3` that is better than its global minimum. -/
theorem C84_oversize (data x : List ℝ) (hx : 1000 < x.length) :
    (∀ f ∈ [F1, F2, F3, F4, F5, F6], f data x = .ok 1) ∧
    ∀ y : List ℝ, data.length = 1000 → 2 ≤ y.length → y.length ≤ 1000 →
      ∃ v, F3 data y = .ok v ∧ 1 < v := by
  constructor
  · intro f hf
    simp only [List.mem_cons, List.not_mem_nil, or_false] at hf
    rcases hf with rfl | rfl | rfl | rfl | rfl | rfl <;>
      simp only [F1, F2, F3, F4, F5, F6, frame, if_pos hx]
  · intro y hd h2 hn
    obtain ⟨v, hv, hle⟩ := (C84_minima hd h2 hn).2.2.1.1.2 y (by simp; omega)
    exact ⟨v, hv, by linarith⟩

/-- **C84.** `F7` is a function of the individual: the state the generator was in does not matter. -/
theorem C84_F7_pure {S : Type} (G : Rng S) (x : List ℝ) (s s' : S) : (F7 G x s).1 = (F7 G x s').1 := rfl

theorem dips_state {S : Type} (G : Rng S) (x y w w' : ℝ) (c : ℕ) (s : S) :
    (dips G x w c s).2 = (dips G y w' c s).2 := by
  induction c generalizing s with
  | zero => rfl
  | succ c ih => exact ih _

theorem groups_state {S : Type} (G : Rng S) (x y w w' : ℝ) (t : ℕ) (s : S) :
    (groups G x w t s).2 = (groups G y w' t s).2 := by
  induction t generalizing s with
  | zero => rfl
  | succ t ih =>
    show (groups G x w t (dips G x w _ _).2).2 = (groups G y w' t (dips G y w' _ _).2).2
    rw [dips_state G x y w w']; exact ih _

theorem fractal_state {S : Type} (G : Rng S) (x y : ℝ) (s : S) :
    (fractal G x s).2 = (fractal G y s).2 := by
  show (groups G x 4 3 (groups G x 2 1 (groups G x 1 0 s).2).2).2
    = (groups G y 4 3 (groups G y 2 1 (groups G y 1 0 s).2).2).2
  rw [groups_state G x y 1 1, groups_state G x y 2 2, groups_state G x y 4 4]

theorem fractals_state {S : Type} (G : Rng S) (l l' : List (ℝ × ℝ)) (h : l.length = l'.length) (s : S) :
    (fractals G l s).2 = (fractals G l' s).2 := by
  induction l generalizing l' s with
  | nil => cases l' with
    | nil => rfl
    | cons q l' => simp at h
  | cons p l ih => cases l' with
    | nil => simp at h
    | cons q l' =>
      show (fractals G l (fractal G _ s).2).2 = (fractals G l' (fractal G _ s).2).2
      rw [fractal_state G _ (q.1 + twist q.2)]
      exact ih l' (by simpa using h) _

/-- **C84 (defect).** Every evaluation of `F7` resets numpy's global generator: whatever state it was in
and whatever individual was evaluated, it is afterwards in one and the same state, which depends on the
number of coordinates only. An optimiser that draws from it between two evaluations draws the same
numbers each time. -/
theorem C84_F7_reseeds {S : Type} (G : Rng S) (x y : List ℝ) (h : x.length = y.length) (s s' : S) :
    (F7 G x s).2 = (F7 G y s').2 := by
  unfold F7
  simp only [h]
  split_ifs
  · rfl
  · cases x with
    | nil => cases y with
      | nil => rfl
      | cons b u => simp at h
    | cons a t => cases y with
      | nil => simp at h
      | cons b u =>
        exact fractals_state G _ _ (by rw [length_pairs, length_pairs, h]) _

/-- **C84.** Outside the bowl of the fractal terms `F7` is the twist alone: if no twisted coordinate lies
in `(-1/2, 1/2)`, it is `x[n-1] + twist(x[0])`, and the twist is never negative. -/
theorem C84_F7_outside {S : Type} (G : Rng S) (a : ℝ) (t : List ℝ) (hn : (a :: t).length ≤ 1000)
    (hout : ∀ p ∈ pairs (a :: t), ¬(-0.5 < p.1 + twist p.2 ∧ p.1 + twist p.2 < 0.5)) (s : S) :
    (F7 G (a :: t) s).1 = .ok ((a :: t).getLast (by simp) + twist a) ∧ 0 ≤ twist a := by
  have hd : ∀ {x : ℝ}, ¬(-0.5 < x ∧ x < 0.5) → ∀ (w : ℝ) (c : ℕ) (s : S), (dips G x w c s).1 = 0 := by
    intro x hx w c
    induction c with
    | zero => intro s; rfl
    | succ c ih =>
      intro s
      show doubledip x _ _ + (dips G x w c _).1 = 0
      rw [ih, doubledip, if_neg hx, add_zero]
  have hg : ∀ {x : ℝ}, ¬(-0.5 < x ∧ x < 0.5) → ∀ (w : ℝ) (c : ℕ) (s : S), (groups G x w c s).1 = 0 := by
    intro x hx w c
    induction c with
    | zero => intro s; rfl
    | succ c ih =>
      intro s
      show (dips G x w _ _).1 + (groups G x w c _).1 = 0
      rw [ih, hd hx, add_zero]
  have hfr : ∀ {x : ℝ}, ¬(-0.5 < x ∧ x < 0.5) → ∀ s : S, (fractal G x s).1 = 0 := by
    intro x hx s
    show (groups G x 1 0 s).1 + (groups G x 2 1 (groups G x 1 0 s).2).1
      + (groups G x 4 3 (groups G x 2 1 (groups G x 1 0 s).2).2).1 = 0
    rw [hg hx, hg hx, hg hx]; norm_num
  have hf : ∀ (l : List (ℝ × ℝ)), (∀ p ∈ l, ¬(-0.5 < p.1 + twist p.2 ∧ p.1 + twist p.2 < 0.5)) →
      ∀ s : S, (fractals G l s).1 = 0 := by
    intro l
    induction l with
    | nil => intro _ s; rfl
    | cons p l ih =>
      intro h s
      have hp := h p (by simp)
      show (fractal G (p.1 + twist p.2) s).1 + (fractals G l (fractal G (p.1 + twist p.2) s).2).1 = 0
      rw [ih (fun q hq => h q (by simp [hq])), hfr hp, add_zero]
  constructor
  · have h1 := hf _ hout G.seeded
    unfold F7
    simp only [if_neg (Nat.not_lt.2 hn), h1, add_zero]
  · have : twist a = 4 * (a * (a - 1)) ^ 2 := by unfold twist; ring
    rw [this]; positivity

example : OnlyMinAt (F3 (List.replicate 1000 2)) [2, 2] 390 := by
  have := (C84_minima (data := List.replicate 1000 (2 : ℝ)) (n := 2) List.length_replicate le_rfl
    (by norm_num)).2.2.1
  rw [List.take_replicate] at this
  exact this

/-- A generator that counts its draws: evaluating two different individuals leaves it in the same state. -/
example (G : Rng ℕ) (hG : G = ⟨0, fun s => (⟨s % 3, Nat.mod_lt _ (by norm_num)⟩, s + 1), fun s => (0, s + 1)⟩) :
    (F7 G [0.1, 0.7] 5).2 = (F7 G [3, 4] 8).2 := C84_F7_reseeds G [0.1, 0.7] [3, 4] (by rfl) 5 8

end Neorl.CEC08

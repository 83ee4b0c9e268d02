import Verif.Py
import Mathlib.Order.WithBot

/-!
# Shared specifications for optimisers

Running minima with an initial value `float("inf")` (the top element), best-of-a-set specifications, recorded histories and
the sign convention by which `mode='max'` is reduced to minimisation (or `mode='min'` to maximisation).
-/

set_option linter.unusedSectionVars false
set_option linter.unusedVariables false

namespace Neorl

section
variable {K : Type} [Field K] [LinearOrder K] [IsStrictOrderedRing K] {X : Type}

/-- Specification: `b` is not worse than `a` in the given mode. -/
def NotWorse (minMode : Bool) (a b : K) : Prop := if minMode then b ≤ a else a ≤ b

/-- Specification: `y` is the least value of `f` on the list `l`, and is attained. -/
def MinOn (f : X → K) (l : List X) (y : K) : Prop := (∃ z ∈ l, f z = y) ∧ ∀ z ∈ l, y ≤ f z

/-- Specification: `y` is the best value of `f` on `l` in the given mode, and is attained. -/
def BestOn (minMode : Bool) (f : X → K) (l : List X) (y : K) : Prop :=
  (∃ z ∈ l, f z = y) ∧ ∀ z ∈ l, NotWorse minMode (f z) y

/-- Specification: `x` is among the evaluated points `l`, `y` is its fitness and no evaluated point is better. -/
def IsBest (minMode : Bool) (f : X → K) (l : List X) (x : X) (y : K) : Prop :=
  x ∈ l ∧ y = f x ∧ ∀ z ∈ l, NotWorse minMode (f z) y

/-- Sign change by which the minimising optimisers treat `mode='max'` (`neorl/evolu/gwo.py` lines 55-61:
`self.fit = fit` or `-fit`). -/
def sgn (minMode : Bool) (y : K) : K := if minMode then y else -y

@[simp] theorem sgn_sgn (m : Bool) (y : K) : sgn m (sgn m y) = y := by cases m <;> simp [sgn]

theorem notWorse_sgn {m : Bool} {a b : K} : NotWorse m (sgn m a) (sgn m b) ↔ b ≤ a := by
  cases m <;> simp [sgn, NotWorse]

theorem notWorse_iff {m : Bool} {a b : K} : NotWorse m a b ↔ sgn m b ≤ sgn m a := by
  cases m <;> simp [sgn, NotWorse]

theorem NotWorse.refl {m : Bool} (a : K) : NotWorse m a a := by cases m <;> simp [NotWorse]

theorem NotWorse.trans {m : Bool} {a b c : K} (h1 : NotWorse m a b) (h2 : NotWorse m b c) : NotWorse m a c := by
  rw [notWorse_iff] at *; exact h2.trans h1

theorem MinOn.bestOn {m : Bool} {f : X → K} {l : List X} {y : K} (h : MinOn (fun x => sgn m (f x)) l y) :
    BestOn m f l (sgn m y) := by
  obtain ⟨⟨z, hz, e⟩, h2⟩ := h
  refine ⟨⟨z, hz, by rw [← e, sgn_sgn]⟩, fun w hw => ?_⟩
  rw [notWorse_iff, sgn_sgn]; exact h2 w hw

theorem BestOn.mono {m : Bool} {f : X → K} {l l' : List X} {y y' : K} (h : BestOn m f l y) (h' : BestOn m f l' y')
    (hs : ∀ z ∈ l, z ∈ l') : NotWorse m y y' := by
  obtain ⟨⟨z, hz, rfl⟩, _⟩ := h
  exact h'.2 z (hs z hz)

theorem BestOn.unique {m : Bool} {f : X → K} {l : List X} {y y' : K} (h : BestOn m f l y) (h' : BestOn m f l y') :
    y = y' := by
  have a := h.mono h' (fun _ hz => hz)
  have b := h'.mono h (fun _ hz => hz)
  cases m <;> simp [NotWorse] at a b <;> exact le_antisymm (by assumption) (by assumption)

/-- Running strict minimum with the point that attains it; the initial score is `⊤` (`float("inf")`). -/
def upd (b : WithTop K × X) (v : K) (x : X) : WithTop K × X := if (v : WithTop K) < b.1 then ((v : WithTop K), x) else b

/-- Specification of a running minimum over the points `log`. -/
def RunMin (f : X → K) (log : List X) (b : WithTop K × X) : Prop :=
  (∀ z ∈ log, b.1 ≤ (f z : WithTop K)) ∧ (b.1 = ⊤ ∨ (b.2 ∈ log ∧ b.1 = (f b.2 : WithTop K)))

theorem runMin_nil (f : X → K) (x : X) : RunMin f [] (⊤, x) := ⟨by simp, Or.inl rfl⟩

theorem RunMin.step {f : X → K} {log : List X} {b : WithTop K × X} (h : RunMin f log b) (x : X) :
    RunMin f (log ++ [x]) (upd b (f x) x) := by
  obtain ⟨h1, h2⟩ := h
  unfold upd
  split_ifs with hc
  · refine ⟨?_, Or.inr ⟨by simp, rfl⟩⟩
    intro z hz
    rcases List.mem_append.1 hz with hz | hz
    · exact hc.le.trans (h1 z hz)
    · simp at hz; subst hz; exact le_rfl
  · refine ⟨?_, ?_⟩
    · intro z hz
      rcases List.mem_append.1 hz with hz | hz
      · exact h1 z hz
      · simp at hz; subst hz; exact not_lt.1 hc
    · rcases h2 with h2 | h2
      · exact Or.inl h2
      · exact Or.inr ⟨by simp [h2.1], h2.2⟩

/-- Running minimum over a list of points. -/
def updAll (f : X → K) : WithTop K × X → List X → WithTop K × X
  | b, [] => b
  | b, x :: xs => updAll f (upd b (f x) x) xs

theorem RunMin.updAll {f : X → K} {log : List X} {b : WithTop K × X} (h : RunMin f log b) (xs : List X) :
    RunMin f (log ++ xs) (updAll f b xs) := by
  induction xs generalizing log b with
  | nil => simpa [Neorl.updAll] using h
  | cons x xs ih =>
    have := ih (h.step x)
    simpa [Neorl.updAll] using this

theorem updAll_congr {f g : X → K} {xs : List X} (h : ∀ x ∈ xs, f x = g x) (b : WithTop K × X) :
    updAll f b xs = updAll g b xs := by
  induction xs generalizing b with
  | nil => rfl
  | cons x xs ih =>
    simp only [updAll]
    rw [h x (by simp)]
    exact ih (fun y hy => h y (by simp [hy])) _

theorem RunMin.ne_top {f : X → K} {log : List X} {b : WithTop K × X} (h : RunMin f log b) (hl : log ≠ []) :
    ∃ y : K, b.1 = (y : WithTop K) ∧ b.2 ∈ log ∧ y = f b.2 ∧ ∀ z ∈ log, y ≤ f z := by
  obtain ⟨h1, h2⟩ := h
  rcases h2 with h2 | ⟨h2, h3⟩
  · obtain ⟨z, hz⟩ := List.exists_mem_of_ne_nil _ hl
    have := h1 z hz
    rw [h2] at this
    exact absurd (top_le_iff.1 this) (WithTop.coe_ne_top)
  · refine ⟨f b.2, h3, h2, rfl, fun z hz => ?_⟩
    have := h1 z hz
    rw [h3] at this
    exact_mod_cast this

theorem RunMin.minOn {f : X → K} {log : List X} {b : WithTop K × X} (h : RunMin f log b) (hl : log ≠ []) :
    ∃ y : K, b.1 = (y : WithTop K) ∧ MinOn f log y := by
  obtain ⟨y, h1, h2, h3, h4⟩ := h.ne_top hl
  exact ⟨y, h1, ⟨b.2, h2, h3.symm⟩, h4⟩

/-- The user-level reading of an internal running minimum. -/
theorem RunMin.isBest {m : Bool} {f : X → K} {log : List X} {b : WithTop K × X} {y : K}
    (h : RunMin (fun x => sgn m (f x)) log b) (hy : b.1 = (y : WithTop K)) : IsBest m f log b.2 (sgn m y) := by
  obtain ⟨h1, h2⟩ := h
  rcases h2 with h2 | ⟨h2, h3⟩
  · rw [hy] at h2; exact absurd h2 WithTop.coe_ne_top
  · rw [hy] at h3
    have h3 : y = sgn m (f b.2) := by exact_mod_cast h3
    refine ⟨h2, by rw [h3, sgn_sgn], fun z hz => ?_⟩
    have := h1 z hz
    rw [hy] at this
    rw [notWorse_iff, sgn_sgn]
    exact_mod_cast this

/-- Specification of a recorded history: entry `k` is the best fitness of the first `off + (k+1) * n` evaluated points
(`off` initial evaluations, then `n` per generation). -/
def HistBest (minMode : Bool) (f : X → K) (off n : ℕ) (log : List X) (hist : List K) : Prop :=
  log.length = off + hist.length * n ∧
  ∀ (k : ℕ) (y : K), hist[k]? = some y → BestOn minMode f (log.take (off + (k + 1) * n)) y

/-- Entries of such a history never get worse. -/
theorem HistBest.pairwise {m : Bool} {f : X → K} {off n : ℕ} {log : List X} {hist : List K}
    (h : HistBest m f off n log hist) : hist.Pairwise (NotWorse m) := by
  rw [List.pairwise_iff_getElem]
  intro i j hi hj hij
  refine (h.2 i _ (List.getElem?_eq_getElem hi)).mono (h.2 j _ (List.getElem?_eq_getElem hj)) ?_
  intro z hz
  exact (List.take_sublist_take_left (by gcongr)).subset hz

/-- Internal form of the history specification (minimisation). -/
def HistMin (f : X → K) (off n : ℕ) (log : List X) (hist : List K) : Prop :=
  log.length = off + hist.length * n ∧
  ∀ (k : ℕ) (y : K), hist[k]? = some y → MinOn f (log.take (off + (k + 1) * n)) y

theorem histMin_nil (f : X → K) (n : ℕ) (log : List X) : HistMin f log.length n log [] := ⟨by simp, by simp⟩

theorem HistMin.step {f : X → K} {off n : ℕ} {log : List X} {hist : List K} (h : HistMin f off n log hist)
    {xs : List X} (hx : xs.length = n) {y : K} (hy : MinOn f (log ++ xs) y) :
    HistMin f off n (log ++ xs) (hist ++ [y]) := by
  obtain ⟨h1, h2⟩ := h
  refine ⟨by simp [h1, hx]; ring, ?_⟩
  intro k z hz
  rcases Nat.lt_or_ge k hist.length with hk | hk
  · rw [List.getElem?_append_left hk] at hz
    have : off + (k + 1) * n ≤ log.length := by
      rw [h1]; gcongr; omega
    rw [List.take_append_of_le_length this]
    exact h2 k z hz
  · rw [List.getElem?_append_right hk] at hz
    have hk' : k = hist.length := by
      have := (List.getElem?_eq_some_iff.1 hz).1
      simp at this; omega
    subst hk'
    simp at hz
    subst hz
    rw [List.take_of_length_le (by simp [h1, hx]; ring_nf; omega)]
    exact hy

theorem HistMin.histBest {m : Bool} {f : X → K} {off n : ℕ} {log : List X} {hist : List K}
    (h : HistMin (fun x => sgn m (f x)) off n log hist) : HistBest m f off n log (hist.map (sgn m)) := by
  refine ⟨by simpa using h.1, ?_⟩
  intro k y hy
  rw [List.getElem?_map] at hy
  cases hk : hist[k]? with
  | none => rw [hk] at hy; cases hy
  | some z =>
    rw [hk] at hy; cases hy
    exact (h.2 k z hk).bestOn

/-- `HistMin` for a history recorded as possibly infinite scores. -/
def HistTop (f : X → K) (off n : ℕ) (log : List X) (hist : List (WithTop K)) : Prop :=
  log.length = off + hist.length * n ∧
  ∀ (k : ℕ) (v : WithTop K), hist[k]? = some v → ∃ y : K, v = (y : WithTop K) ∧ MinOn f (log.take (off + (k + 1) * n)) y

theorem histTop_nil (f : X → K) (n : ℕ) (log : List X) : HistTop f log.length n log [] := ⟨by simp, by simp⟩

theorem HistTop.histMin {f : X → K} {off n : ℕ} {log : List X} {hist : List (WithTop K)} (h : HistTop f off n log hist) :
    ∃ hk : List K, hist = hk.map (fun y : K => (y : WithTop K)) ∧ HistMin f off n log hk := by
  have h0 : ∃ hk : List K, hist = hk.map (fun y : K => (y : WithTop K)) := by
    have : ∀ v ∈ hist, ∃ y : K, v = (y : WithTop K) := by
      intro v hv
      obtain ⟨k, hk⟩ := List.mem_iff_getElem?.1 hv
      obtain ⟨y, hy, _⟩ := h.2 k v hk
      exact ⟨y, hy⟩
    clear h
    induction hist with
    | nil => exact ⟨[], rfl⟩
    | cons v l ih =>
      obtain ⟨y, hy⟩ := this v (by simp)
      obtain ⟨hk, e⟩ := ih (fun w hw => this w (by simp [hw]))
      exact ⟨y :: hk, by simp [hy, e]⟩
  obtain ⟨hk, rfl⟩ := h0
  refine ⟨hk, rfl, by simpa using h.1, ?_⟩
  intro k y hy
  obtain ⟨z, hz, hm⟩ := h.2 k (y : WithTop K) (by simp [hy])
  have : y = z := by exact_mod_cast hz
  subst this
  exact hm

theorem HistTop.step {f : X → K} {off n : ℕ} {log : List X} {hist : List (WithTop K)} (h : HistTop f off n log hist)
    {xs : List X} (hx : xs.length = n) {v : WithTop K} (hy : ∃ y : K, v = (y : WithTop K) ∧ MinOn f (log ++ xs) y) :
    HistTop f off n (log ++ xs) (hist ++ [v]) := by
  obtain ⟨h1, h2⟩ := h
  refine ⟨by simp [h1, hx]; ring, ?_⟩
  intro k z hz
  rcases Nat.lt_or_ge k hist.length with hk | hk
  · rw [List.getElem?_append_left hk] at hz
    have : off + (k + 1) * n ≤ log.length := by
      rw [h1]; gcongr; omega
    rw [List.take_append_of_le_length this]
    exact h2 k z hz
  · rw [List.getElem?_append_right hk] at hz
    have hk' : k = hist.length := by
      have := (List.getElem?_eq_some_iff.1 hz).1
      simp at this; omega
    subst hk'
    simp at hz
    subst hz
    rw [List.take_of_length_le (by simp [h1, hx]; ring_nf; omega)]
    exact hy

/-- User-level value of a score: `none` is an infinite score. -/
def outScore (minMode : Bool) (s : WithTop K) : Option K :=
  match s with
  | ⊤ => none
  | (y : K) => some (sgn minMode y)

@[simp] theorem outScore_top (m : Bool) : outScore m (⊤ : WithTop K) = none := rfl
@[simp] theorem outScore_coe (m : Bool) (y : K) : outScore m (y : WithTop K) = some (sgn m y) := rfl

theorem outScore_eq_some {m : Bool} {s : WithTop K} {y : K} (h : outScore m s = some y) :
    ∃ y0 : K, s = (y0 : WithTop K) ∧ y = sgn m y0 := by
  cases s with
  | top => cases h
  | coe b => simp at h; exact ⟨b, rfl, h.symm⟩

/-- `np.maximum.accumulate`. -/
def accMax : List K → List K
  | [] => []
  | a :: l => a :: (accMax l).map (max a)

/-- `np.minimum.accumulate`. -/
def accMin : List K → List K
  | [] => []
  | a :: l => a :: (accMin l).map (min a)

theorem accMin_concat (l : List K) (y : K) : accMin (l ++ [y]) = accMin l ++ [l.foldr min y] := by
  induction l with
  | nil => rfl
  | cons a l ih => simp [accMin, ih]

theorem length_accMin (l : List K) : (accMin l).length = l.length := by
  induction l with
  | nil => rfl
  | cons a l ih => simp [accMin, ih]

theorem accMax_neg (l : List K) : accMax (l.map (fun v => -v)) = (accMin l).map (fun v => -v) := by
  induction l with
  | nil => rfl
  | cons a l ih =>
    simp only [List.map_cons, accMin, accMax, ih, List.map_map]
    congr 1
    apply List.map_congr_left
    intro v _
    simp only [Function.comp]
    rcases le_total a v with h | h
    · rw [max_eq_left (neg_le_neg h), min_eq_left h]
    · rw [max_eq_right (neg_le_neg h), min_eq_right h]

theorem foldr_min_spec (l : List K) (y : K) : (l.foldr min y = y ∨ l.foldr min y ∈ l) ∧ l.foldr min y ≤ y ∧
    ∀ s ∈ l, l.foldr min y ≤ s := by
  induction l with
  | nil => simp
  | cons a l ih =>
    obtain ⟨h1, h2, h3⟩ := ih
    refine ⟨?_, ?_, ?_⟩
    · simp only [List.foldr_cons]
      rcases min_choice a (l.foldr min y) with h | h
      · right; rw [h]; simp
      · rw [h]; rcases h1 with h1 | h1
        · exact Or.inl h1
        · exact Or.inr (by simp [h1])
    · exact (min_le_right _ _).trans h2
    · intro s hs
      rcases List.mem_cons.1 hs with rfl | hs
      · exact min_le_left _ _
      · exact (min_le_right _ _).trans (h3 s hs)

/-- `np.minimum.accumulate` of per-generation minima is the best-so-far history. -/
theorem HistMin.acc {f : X → K} {n : ℕ} {log : List X} {scores : List K}
    (h : HistMin f 0 n log (accMin scores)) (hs : ∀ s ∈ scores, ∃ z ∈ log, f z = s)
    (hl : ∀ z ∈ log, ∃ s ∈ scores, s ≤ f z) {xs : List X} (hx : xs.length = n) {y : K} (hy : MinOn f xs y) :
    HistMin f 0 n (log ++ xs) (accMin (scores ++ [y])) := by
  rw [accMin_concat]
  refine h.step hx ?_
  obtain ⟨h1, h2, h3⟩ := foldr_min_spec scores y
  obtain ⟨⟨z0, hz0, e0⟩, g⟩ := hy
  refine ⟨?_, ?_⟩
  · rcases h1 with h1 | h1
    · rw [h1]; exact ⟨z0, by simp [hz0], e0⟩
    · obtain ⟨z, hz, e⟩ := hs _ h1
      exact ⟨z, by simp [hz], e⟩
  · intro z hz
    rcases List.mem_append.1 hz with hz | hz
    · obtain ⟨s, hs', hle⟩ := hl z hz
      exact (h3 s hs').trans hle
    · exact h2.trans (g z hz)

/-! ### Internal maximisation

Several optimisers maximise internally, with the fitness negated for `mode='min'` (`sgn (!m)`). -/

theorem notWorse_flip {m : Bool} {a b : K} : NotWorse m (sgn (!m) a) (sgn (!m) b) ↔ a ≤ b := by
  cases m <;> simp [NotWorse, sgn]

theorem notWorse_flip' {m : Bool} {a b : K} : NotWorse m a (sgn (!m) b) ↔ sgn (!m) a ≤ b := by
  rw [← notWorse_flip (m := m), sgn_sgn]

theorem BestOn.flip {m : Bool} {f : X → K} {l : List X} {y : K} (h : BestOn false (fun x => sgn (!m) (f x)) l y) :
    BestOn m f l (sgn (!m) y) := by
  obtain ⟨⟨z, hz, e⟩, h2⟩ := h
  refine ⟨⟨z, hz, by rw [← e, sgn_sgn]⟩, fun w hw => ?_⟩
  rw [notWorse_flip']
  simpa [NotWorse] using h2 w hw

theorem IsBest.flip {m : Bool} {f : X → K} {l : List X} {x : X} {y : K} (h : IsBest false (fun x => sgn (!m) (f x)) l x y) :
    IsBest m f l x (sgn (!m) y) := by
  obtain ⟨h1, h2, h3⟩ := h
  refine ⟨h1, by rw [h2, sgn_sgn], fun w hw => ?_⟩
  rw [notWorse_flip']
  simpa [NotWorse] using h3 w hw

theorem HistBest.flip {m : Bool} {f : X → K} {off n : ℕ} {log : List X} {hist : List K}
    (h : HistBest false (fun x => sgn (!m) (f x)) off n log hist) : HistBest m f off n log (hist.map (sgn (!m))) := by
  refine ⟨by simpa using h.1, ?_⟩
  intro k y hy
  rw [List.getElem?_map] at hy
  cases hk : hist[k]? with
  | none => rw [hk] at hy; cases hy
  | some v => rw [hk] at hy; cases hy; exact (h.2 k v hk).flip

theorem BestOn.ofMin {m : Bool} {f : X → K} {l : List X} {y : K} (h : BestOn true (fun x => sgn m (f x)) l y) :
    BestOn m f l (sgn m y) := by
  obtain ⟨⟨z, hz, e⟩, h2⟩ := h
  refine ⟨⟨z, hz, by rw [← e, sgn_sgn]⟩, fun w hw => ?_⟩
  rw [notWorse_iff, sgn_sgn]
  simpa [NotWorse] using h2 w hw

theorem IsBest.ofMin {m : Bool} {f : X → K} {l : List X} {x : X} {y : K} (h : IsBest true (fun x => sgn m (f x)) l x y) :
    IsBest m f l x (sgn m y) := by
  obtain ⟨h1, h2, h3⟩ := h
  refine ⟨h1, by rw [h2, sgn_sgn], fun w hw => ?_⟩
  rw [notWorse_iff, sgn_sgn]
  simpa [NotWorse] using h3 w hw

theorem HistBest.ofMin {m : Bool} {f : X → K} {off n : ℕ} {log : List X} {hist : List K}
    (h : HistBest true (fun x => sgn m (f x)) off n log hist) : HistBest m f off n log (hist.map (sgn m)) := by
  refine ⟨by simpa using h.1, ?_⟩
  intro k y hy
  rw [List.getElem?_map] at hy
  cases hk : hist[k]? with
  | none => rw [hk] at hy; cases hy
  | some v => rw [hk] at hy; cases hy; exact (h.2 k v hk).ofMin

theorem histBest_nil (m : Bool) (f : X → K) (n : ℕ) (log : List X) : HistBest m f log.length n log [] := ⟨by simp, by simp⟩

theorem HistBest.step {m : Bool} {f : X → K} {off n : ℕ} {log : List X} {hist : List K} (h : HistBest m f off n log hist)
    {xs : List X} (hx : xs.length = n) {y : K} (hy : BestOn m f (log ++ xs) y) :
    HistBest m f off n (log ++ xs) (hist ++ [y]) := by
  obtain ⟨h1, h2⟩ := h
  refine ⟨by simp [h1, hx]; ring, ?_⟩
  intro k z hz
  rcases Nat.lt_or_ge k hist.length with hk | hk
  · rw [List.getElem?_append_left hk] at hz
    have : (k + 1) * n ≤ hist.length * n := Nat.mul_le_mul_right n hk
    rw [List.take_append_of_le_length (by omega)]
    exact h2 k z hz
  · rw [List.getElem?_append_right hk] at hz
    have hk' : k = hist.length := by
      have := (List.getElem?_eq_some_iff.1 hz).1
      simp at this; omega
    subst hk'
    simp at hz
    subst hz
    rw [List.take_of_length_le]
    · exact hy
    · simp [h1, hx]; ring_nf; exact le_rfl

/-- Specification of a per-generation history: entry `k` is the best fitness of generation `k`, the `k`-th block of `n` evaluations
after `off` initial ones. -/
def BlockBest (m : Bool) (f : X → K) (off n : ℕ) (log : List X) (locals : List K) : Prop :=
  ∀ (k : ℕ) (y : K), locals[k]? = some y → BestOn m f ((log.drop (off + k * n)).take n) y

theorem blockBest_nil (m : Bool) (f : X → K) (off n : ℕ) (log : List X) : BlockBest m f off n log [] := by
  intro k y h; simp at h

theorem BlockBest.step {m : Bool} {f : X → K} {off n : ℕ} {log : List X} {locals : List K}
    (h : BlockBest m f off n log locals) (hl : log.length = off + locals.length * n)
    {xs : List X} (hx : xs.length = n) {y : K} (hy : BestOn m f xs y) :
    BlockBest m f off n (log ++ xs) (locals ++ [y]) := by
  intro k z hz
  rcases Nat.lt_or_ge k locals.length with hk | hk
  · rw [List.getElem?_append_left hk] at hz
    have h1 : (k + 1) * n ≤ locals.length * n := Nat.mul_le_mul_right n hk
    have h2 : (k + 1) * n = k * n + n := by ring
    rw [List.drop_append_of_le_length (by omega), List.take_append_of_le_length (by rw [List.length_drop]; omega)]
    exact h k z hz
  · rw [List.getElem?_append_right hk] at hz
    have hk' : k = locals.length := by
      have := (List.getElem?_eq_some_iff.1 hz).1
      simp at this; omega
    subst hk'
    simp at hz
    subst hz
    rw [List.drop_append_of_le_length (by omega), List.drop_of_length_le (by omega), List.nil_append,
      List.take_of_length_le (by omega)]
    exact hy

theorem BlockBest.flip {m : Bool} {f : X → K} {off n : ℕ} {log : List X} {l : List K}
    (h : BlockBest false (fun x => sgn (!m) (f x)) off n log l) : BlockBest m f off n log (l.map (sgn (!m))) := by
  intro k y hy
  rw [List.getElem?_map] at hy
  cases hk : l[k]? with
  | none => rw [hk] at hy; cases hy
  | some v => rw [hk] at hy; cases hy; exact (h k v hk).flip

/-- Specification of a per-individual memory: slot `i` of the population was evaluated once per generation, at log positions
`i, n+i, 2n+i, ...`; `(x, y)` is the best of the first `G` of these evaluations. -/
def SlotBest (m : Bool) (f : X → K) (n G : ℕ) (log : List X) (i : ℕ) (x : X) (y : K) : Prop :=
  (∃ k < G, log[k * n + i]? = some x) ∧ y = f x ∧ ∀ k < G, ∀ z, log[k * n + i]? = some z → NotWorse m (f z) y

theorem SlotBest.congr_log {m : Bool} {f : X → K} {n G : ℕ} {log log' : List X} {i : ℕ} {x : X} {y : K}
    (h : SlotBest m f n G log i x y) (he : ∀ k < G, log'[k * n + i]? = log[k * n + i]?) : SlotBest m f n G log' i x y := by
  obtain ⟨⟨k, hk, e⟩, h2, h3⟩ := h
  exact ⟨⟨k, hk, by rw [he k hk, e]⟩, h2, fun k hk z hz => h3 k hk z (by rw [← he k hk, hz])⟩

theorem slotBest_init {m : Bool} {f : X → K} {n : ℕ} {log : List X} {i : ℕ} {x : X} (h : log[i]? = some x) :
    SlotBest m f n 1 log i x (f x) := by
  refine ⟨⟨0, by omega, by simpa using h⟩, rfl, ?_⟩
  intro k hk z hz
  obtain rfl : k = 0 := by omega
  simp [h] at hz
  subst hz
  exact NotWorse.refl _

theorem SlotBest.step {m : Bool} {f : X → K} {n G : ℕ} {log xs : List X} {i : ℕ} {x x' z : X} {y y' : K}
    (h : SlotBest m f n G log i x y) (hl : log.length = G * n) (hx : xs.length = n) (hz : xs[i]? = some z)
    (hy : (x' = z ∧ y' = f z ∧ NotWorse m y y') ∨ (x' = x ∧ y' = y ∧ NotWorse m (f z) y)) :
    SlotBest m f n (G + 1) (log ++ xs) i x' y' := by
  have hi : i < n := by have := (List.getElem?_eq_some_iff.1 hz).1; omega
  have hlt : ∀ k < G, k * n + i < log.length := by
    intro k hk
    have : (k + 1) * n ≤ G * n := Nat.mul_le_mul_right n hk
    have e : (k + 1) * n = k * n + n := by ring
    omega
  have hG : (log ++ xs)[G * n + i]? = some z := by
    rw [List.getElem?_append_right (by omega)]
    rw [show G * n + i - log.length = i by omega]; exact hz
  have hk' : ∀ k < G, (log ++ xs)[k * n + i]? = log[k * n + i]? := fun k hk => List.getElem?_append_left (hlt k hk)
  obtain ⟨⟨k0, hk0, e0⟩, h2, h3⟩ := h
  rcases hy with ⟨rfl, rfl, hw⟩ | ⟨rfl, rfl, hw⟩
  · refine ⟨⟨G, by omega, hG⟩, rfl, ?_⟩
    intro k hk w hw'
    rcases Nat.lt_or_ge k G with h | h
    · rw [hk' k h] at hw'
      exact (h3 k h w hw').trans hw
    · obtain rfl : k = G := by omega
      rw [hG] at hw'; cases hw'; exact NotWorse.refl _
  · refine ⟨⟨k0, by omega, by rw [hk' k0 hk0]; exact e0⟩, h2, ?_⟩
    intro k hk w hw'
    rcases Nat.lt_or_ge k G with h | h
    · rw [hk' k h] at hw'
      exact h3 k h w hw'
    · obtain rfl : k = G := by omega
      rw [hG] at hw'; cases hw'; exact hw

theorem SlotBest.flip {m : Bool} {f : X → K} {n G : ℕ} {log : List X} {i : ℕ} {x : X} {y : K}
    (h : SlotBest false (fun x => sgn (!m) (f x)) n G log i x y) : SlotBest m f n G log i x (sgn (!m) y) := by
  obtain ⟨h1, h2, h3⟩ := h
  refine ⟨h1, by rw [h2, sgn_sgn], fun k hk z hz => ?_⟩
  rw [notWorse_flip']
  simpa [NotWorse] using h3 k hk z hz

/-- `np.minimum.accumulate` in `mode='min'`, `np.maximum.accumulate` in `mode='max'`. -/
def acc (m : Bool) (l : List K) : List K := if m then accMin l else accMax l

theorem accMin_getElem? {l : List K} {k : ℕ} {y : K} (h : (accMin l)[k]? = some y) :
    y ∈ l.take (k + 1) ∧ ∀ v ∈ l.take (k + 1), y ≤ v := by
  induction l generalizing k y with
  | nil => simp [accMin] at h
  | cons a l ih =>
    cases k with
    | zero => simp [accMin] at h; subst h; simp
    | succ k =>
      simp only [accMin, List.getElem?_cons_succ, List.getElem?_map] at h
      cases e : (accMin l)[k]? with
      | none => rw [e] at h; cases h
      | some z =>
        rw [e] at h; cases h
        obtain ⟨h1, h2⟩ := ih e
        refine ⟨?_, ?_⟩
        · rcases min_choice a z with hc | hc
          · rw [hc]; simp
          · rw [hc, List.take_succ_cons]; exact List.mem_cons_of_mem _ h1
        · intro v hv
          rw [List.take_succ_cons] at hv
          rcases List.mem_cons.1 hv with rfl | hv
          · exact min_le_left _ _
          · exact (min_le_right _ _).trans (h2 v hv)

theorem accMax_getElem? {l : List K} {k : ℕ} {y : K} (h : (accMax l)[k]? = some y) :
    y ∈ l.take (k + 1) ∧ ∀ v ∈ l.take (k + 1), v ≤ y := by
  induction l generalizing k y with
  | nil => simp [accMax] at h
  | cons a l ih =>
    cases k with
    | zero => simp [accMax] at h; subst h; simp
    | succ k =>
      simp only [accMax, List.getElem?_cons_succ, List.getElem?_map] at h
      cases e : (accMax l)[k]? with
      | none => rw [e] at h; cases h
      | some z =>
        rw [e] at h; cases h
        obtain ⟨h1, h2⟩ := ih e
        refine ⟨?_, ?_⟩
        · rcases max_choice a z with hc | hc
          · rw [hc]; simp
          · rw [hc, List.take_succ_cons]; exact List.mem_cons_of_mem _ h1
        · intro v hv
          rw [List.take_succ_cons] at hv
          rcases List.mem_cons.1 hv with rfl | hv
          · exact le_max_left _ _
          · exact (h2 v hv).trans (le_max_right _ _)

theorem length_accMax (l : List K) : (accMax l).length = l.length := by
  induction l with
  | nil => rfl
  | cons a l ih => simp [accMax, ih]

theorem length_acc (m : Bool) (l : List K) : (acc m l).length = l.length := by
  cases m <;> simp [acc, length_accMin, length_accMax]

theorem acc_getElem? {m : Bool} {l : List K} {k : ℕ} {y : K} (h : (acc m l)[k]? = some y) :
    y ∈ l.take (k + 1) ∧ ∀ v ∈ l.take (k + 1), NotWorse m v y := by
  cases m
  · simpa [NotWorse, acc] using accMax_getElem? (by simpa [acc] using h)
  · simpa [NotWorse, acc] using accMin_getElem? (by simpa [acc] using h)

/-- Accumulating per-generation bests gives the best-so-far history. -/
theorem BlockBest.histBest {m : Bool} {f : X → K} {n : ℕ} {log : List X} {scores : List K}
    (h : BlockBest m f 0 n log scores) (hl : log.length = scores.length * n) : HistBest m f 0 n log (acc m scores) := by
  refine ⟨by rw [length_acc]; simpa using hl, ?_⟩
  intro k y hy
  have hk : k < scores.length := by
    have := (List.getElem?_eq_some_iff.1 hy).1
    rwa [length_acc] at this
  obtain ⟨h1, h2⟩ := acc_getElem? hy
  refine ⟨?_, ?_⟩
  · obtain ⟨j, hj⟩ := List.mem_iff_getElem?.1 h1
    rw [List.getElem?_take] at hj
    split_ifs at hj with hjk
    obtain ⟨⟨z, hz, e⟩, -⟩ := h j y hj
    refine ⟨z, ?_, e⟩
    obtain ⟨i, hi⟩ := List.mem_iff_getElem?.1 hz
    rw [List.getElem?_take] at hi
    split_ifs at hi with hin
    rw [List.getElem?_drop] at hi
    refine List.mem_iff_getElem?.2 ⟨0 + j * n + i, ?_⟩
    rw [List.getElem?_take, if_pos]
    · exact hi
    · have : (j + 1) * n ≤ (k + 1) * n := Nat.mul_le_mul_right n (by omega)
      have e : (j + 1) * n = j * n + n := by ring
      omega
  · intro z hz
    obtain ⟨i, hi⟩ := List.mem_iff_getElem?.1 hz
    rw [List.getElem?_take] at hi
    split_ifs at hi with hin
    rw [Nat.zero_add] at hin
    have hn : 0 < n := by
      rcases Nat.eq_zero_or_pos n with h0 | h0
      · subst h0; omega
      · exact h0
    have hj : i / n < k + 1 := (Nat.div_lt_iff_lt_mul hn).2 hin
    have hjs : scores[i / n]? = some (scores[i / n]'(by omega)) := List.getElem?_eq_getElem _
    have hmod := Nat.div_add_mod i n
    have hlt := Nat.mod_lt i hn
    have hb := (h (i / n) _ hjs).2 z (by
      refine List.mem_iff_getElem?.2 ⟨i % n, ?_⟩
      rw [List.getElem?_take, if_pos hlt, List.getElem?_drop]
      rw [show 0 + i / n * n + i % n = i by rw [Nat.mul_comm (i / n) n]; omega]
      exact hi)
    refine hb.trans (h2 _ ?_)
    refine List.mem_iff_getElem?.2 ⟨i / n, ?_⟩
    rw [List.getElem?_take, if_pos hj]
    exact hjs

end

/-! ## Row-wise updates -/

/-- A loop that replaces each row of a population by a (possibly raising) function of its index and value. -/
def mapRows {X Y : Type} (f : ℕ → X → Py Y) : ℕ → List X → Py (List Y)
  | _, [] => .ok []
  | i, x :: xs =>
    match f i x with
    | .error e => .error e
    | .ok y =>
      match mapRows f (i + 1) xs with
      | .error e => .error e
      | .ok ys => .ok (y :: ys)

theorem mapRows_ok {X Y : Type} {f : ℕ → X → Py Y} {i : ℕ} {xs : List X} {ys : List Y} (h : mapRows f i xs = .ok ys) :
    ys.length = xs.length ∧ ∀ (k : ℕ) (y : Y), ys[k]? = some y → ∃ x, xs[k]? = some x ∧ f (i + k) x = .ok y := by
  induction xs generalizing i ys with
  | nil => cases h; simp
  | cons x xs ih =>
    simp only [mapRows] at h
    split at h
    · cases h
    · rename_i y hy
      split at h
      · cases h
      · rename_i ys' hys
        cases h
        obtain ⟨h1, h2⟩ := ih hys
        refine ⟨by simp [h1], ?_⟩
        intro k z hz
        cases k with
        | zero => simp at hz; subst hz; exact ⟨x, rfl, hy⟩
        | succ k =>
          simp at hz
          obtain ⟨x', hx', hf⟩ := h2 k z hz
          exact ⟨x', by simpa using hx', by rw [show i + (k + 1) = i + 1 + k by ring]; exact hf⟩

theorem mapRows_forall {X Y : Type} {P : X → Prop} {Q : Y → Prop} {f : ℕ → X → Py Y} {i : ℕ} {xs : List X} {ys : List Y}
    (h : mapRows f i xs = .ok ys) (hP : ∀ x ∈ xs, P x) (hf : ∀ k x y, P x → f k x = .ok y → Q y) : ∀ y ∈ ys, Q y := by
  intro y hy
  obtain ⟨k, hk⟩ := List.mem_iff_getElem?.1 hy
  obtain ⟨x, hx, hfx⟩ := (mapRows_ok h).2 k y hk
  exact hf _ x y (hP x (List.mem_of_getElem? hx)) hfx

theorem mapRows_total {X Y : Type} {P : X → Prop} {f : ℕ → X → Py Y} {i : ℕ} {xs : List X}
    (hP : ∀ x ∈ xs, P x) (hf : ∀ k x, P x → ∃ y, f k x = .ok y) : ∃ ys, mapRows f i xs = .ok ys := by
  induction xs generalizing i with
  | nil => exact ⟨[], rfl⟩
  | cons x xs ih =>
    obtain ⟨y, hy⟩ := hf i x (hP x (by simp))
    obtain ⟨ys, hys⟩ := ih (i := i + 1) (fun z hz => hP z (by simp [hz]))
    exact ⟨y :: ys, by simp [mapRows, hy, hys]⟩

/-- In-place loop over rows `0 .. i-1`: row `k` is replaced by a function of the current population and its value. -/
def sweep {X : Type} (f : ℕ → List X → X → Py X) : ℕ → List X → Py (List X)
  | 0, pop => .ok pop
  | i + 1, pop =>
    match sweep f i pop with
    | .error e => .error e
    | .ok p =>
      match p[i]? with
      | none => .error .indexError
      | some row =>
        match f i p row with
        | .error e => .error e
        | .ok row' => .ok (p.set i row')

theorem sweep_ok {X : Type} {P : X → Prop} {f : ℕ → List X → X → Py X} {n : ℕ}
    (hf : ∀ k (ps : List X) x y, ps.length = n → (∀ p ∈ ps, P p) → ps[k]? = some x → f k ps x = .ok y → P y)
    {i : ℕ} {pop pop' : List X} (hn : pop.length = n) (hp : ∀ p ∈ pop, P p) (h : sweep f i pop = .ok pop') :
    pop'.length = n ∧ ∀ p ∈ pop', P p := by
  induction i generalizing pop' with
  | zero => cases h; exact ⟨hn, hp⟩
  | succ i ih =>
    simp only [sweep] at h
    split at h
    · cases h
    · rename_i q hq
      obtain ⟨h1, h2⟩ := ih hq
      split at h
      · cases h
      · rename_i row hrow
        split at h
        · cases h
        · rename_i row' hr
          cases h
          refine ⟨by simp [h1], ?_⟩
          intro p hp'
          rcases List.mem_or_eq_of_mem_set hp' with hh | hh
          · exact h2 p hh
          · subst hh
            exact hf i q row _ h1 h2 hrow hr

theorem sweep_total {X : Type} {P : X → Prop} {f : ℕ → List X → X → Py X} {n : ℕ}
    (hf : ∀ k (ps : List X) x y, ps.length = n → (∀ p ∈ ps, P p) → ps[k]? = some x → f k ps x = .ok y → P y)
    (ht : ∀ k (ps : List X) x, k < n → ps.length = n → (∀ p ∈ ps, P p) → ps[k]? = some x → ∃ y, f k ps x = .ok y)
    {i : ℕ} {pop : List X} (hi : i ≤ n) (hn : pop.length = n) (hp : ∀ p ∈ pop, P p) :
    ∃ pop', sweep f i pop = .ok pop' := by
  induction i with
  | zero => exact ⟨_, rfl⟩
  | succ i ih =>
    obtain ⟨q, hq⟩ := ih (by omega)
    obtain ⟨h1, h2⟩ := sweep_ok hf hn hp hq
    have hlt : i < q.length := by omega
    obtain ⟨y, hy⟩ := ht i q q[i] (by omega) h1 h2 (List.getElem?_eq_getElem hlt)
    simp only [sweep, hq, List.getElem?_eq_getElem hlt, hy]
    exact ⟨_, rfl⟩

end Neorl

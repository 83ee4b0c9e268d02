import Verif.Py

/-!
# Search-space repair: bounds and discrete variables

Models of `ensure_bounds` (present in every optimiser) and of `neorl/evolu/discrete.py:mutate_discrete`
together with the optimisers' `ensure_discrete`.
-/

set_option linter.unusedSectionVars false
set_option linter.unusedVariables false

namespace Neorl

section
variable {K : Type} [Field K] [LinearOrder K] [IsStrictOrderedRing K]

/-- One round of the loop of `ensure_bounds`, `neorl/evolu/de.py` lines 105-117 (identical in `gwo.py`, `pso.py`,
`es.py`, `hho.py`, `make_env.py` lines 294-303 and the others): three consecutive `if`s, each appending.  The
result is the list of the values appended in this round (so `lb > ub` really yields two entries, as in the code). -/
def boundStep (lb ub x : K) : List K :=
  (if x < lb then [lb] else []) ++ (if x > ub then [ub] else []) ++ (if lb ≤ x ∧ x ≤ ub then [x] else [])

/-- `ensure_bounds`, `neorl/evolu/de.py` lines 101-119.  `bounds` is the list of `(lb, ub)` in dictionary order.
Simplification: if `vec` is shorter than `bounds` the code raises `IndexError`; the model stops (all theorems assume equal
lengths, which the optimisers maintain). -/
def ensureBounds : List (K × K) → List K → List K
  | b :: bs, x :: xs => boundStep b.1 b.2 x ++ ensureBounds bs xs
  | _, _ => []

/-- Specification: nearest point of the interval `[lb, ub]`. -/
def clamp (lb ub x : K) : K := max lb (min x ub)

/-- Specification: `v` has one entry per bound, each inside its closed interval. -/
def InBox (bounds : List (K × K)) (v : List K) : Prop :=
  List.Forall₂ (fun b x => b.1 ≤ x ∧ x ≤ b.2) bounds v

/-- Well-formed bounds: every lower bound is at most its upper bound. -/
def BoundsOK (bounds : List (K × K)) : Prop := ∀ b ∈ bounds, b.1 ≤ b.2

theorem boundStep_eq {lb ub : K} (h : lb ≤ ub) (x : K) : boundStep lb ub x = [clamp lb ub x] := by
  unfold boundStep clamp
  rcases lt_trichotomy x lb with h1 | h1 | h1
  · have h2 : ¬ x > ub := by simp only [gt_iff_lt, not_lt]; exact (h1.le.trans h)
    have h3 : ¬ lb ≤ x := not_le.2 h1
    rw [if_pos h1, if_neg h2, if_neg (fun hh => h3 hh.1)]
    rw [min_eq_left (h1.le.trans h), max_eq_left h1.le]; rfl
  · subst h1
    simp [h]
  · have h3 : ¬ x < lb := not_lt.2 h1.le
    rw [if_neg h3]
    by_cases h2 : x > ub
    · rw [if_pos h2, if_neg (fun hh => (not_le.2 h2) hh.2), min_eq_right h2.le, max_eq_right h]; rfl
    · rw [if_neg h2, if_pos ⟨h1.le, not_lt.1 h2⟩, min_eq_left (not_lt.1 h2), max_eq_right h1.le]; rfl

theorem ensureBounds_eq_zipWith {bs : List (K × K)} (h : BoundsOK bs) (v : List K) :
    ensureBounds bs v = List.zipWith (fun b x => clamp b.1 b.2 x) bs v := by
  induction bs generalizing v with
  | nil => simp [ensureBounds]
  | cons b bs ih =>
    cases v with
    | nil => simp [ensureBounds]
    | cons x xs =>
      simp only [ensureBounds, List.zipWith_cons_cons]
      rw [boundStep_eq (h b (by simp)), ih (fun c hc => h c (by simp [hc]))]; rfl

theorem clamp_mem {lb ub : K} (h : lb ≤ ub) (x : K) : lb ≤ clamp lb ub x ∧ clamp lb ub x ≤ ub := by
  unfold clamp; exact ⟨le_max_left _ _, max_le h (min_le_right _ _)⟩

theorem clamp_of_mem {lb ub x : K} (h1 : lb ≤ x) (h2 : x ≤ ub) : clamp lb ub x = x := by
  unfold clamp; rw [min_eq_left h2, max_eq_right h1]

theorem clamp_nearest {lb ub : K} (x : K) {z : K} (h1 : lb ≤ z) (h2 : z ≤ ub) :
    |clamp lb ub x - x| ≤ |z - x| := by
  have hl : lb ≤ ub := h1.trans h2
  unfold clamp
  rcases le_total x ub with h | h
  · rw [min_eq_left h]
    rcases le_total lb x with h' | h'
    · rw [max_eq_right h']; simp
    · rw [max_eq_left h', abs_of_nonneg (by linarith), abs_of_nonneg (by linarith)]; linarith
  · rw [min_eq_right h, max_eq_right hl, abs_of_nonpos (by linarith), abs_of_nonpos (by linarith)]; linarith

theorem length_ensureBounds {bs : List (K × K)} (h : BoundsOK bs) (v : List K) :
    (ensureBounds bs v).length = min bs.length v.length := by
  rw [ensureBounds_eq_zipWith h]; simp

theorem ensureBounds_inBox {bs : List (K × K)} (h : BoundsOK bs) {v : List K} (hl : v.length = bs.length) :
    InBox bs (ensureBounds bs v) := by
  rw [ensureBounds_eq_zipWith h]
  unfold InBox
  induction bs generalizing v with
  | nil => simp
  | cons b bs ih =>
    cases v with
    | nil => simp at hl
    | cons x xs =>
      simp only [List.zipWith_cons_cons, List.forall₂_cons]
      exact ⟨clamp_mem (h b (by simp)) x, ih (fun c hc => h c (by simp [hc])) (by simpa using hl)⟩

theorem ensureBounds_of_inBox {bs : List (K × K)} {v : List K} (hv : InBox bs v) : ensureBounds bs v = v := by
  unfold InBox at hv
  induction hv with
  | nil => rfl
  | cons hx _ ih =>
    simp only [ensureBounds]
    rw [boundStep_eq (hx.1.trans hx.2), clamp_of_mem hx.1 hx.2, ih]; rfl

theorem InBox.length_eq {bs : List (K × K)} {v : List K} (hv : InBox bs v) : v.length = bs.length :=
  (List.Forall₂.length_eq hv).symm

theorem InBox.boundsOK {bs : List (K × K)} {v : List K} (hv : InBox bs v) : BoundsOK bs := by
  unfold InBox at hv
  induction hv with
  | nil => intro b hb; simp at hb
  | cons hx _ ih =>
    intro b hb
    rcases List.mem_cons.1 hb with rfl | hb
    · exact hx.1.trans hx.2
    · exact ih b hb

end

/-! ## mutate_discrete -/

/-- The `int_transform` methods, `neorl/evolu/de.py` lines 74-76. -/
inductive IntMethod
  | nearestInt | sigmoid | minmax
  deriving DecidableEq, Repr

section
variable {K : Type} [Field K] [LinearOrder K] [IsStrictOrderedRing K] [FloorRing K]

/-- `choices = list(range(lb, ub+1)); choices.remove(int(x)); random.choice(choices)`,
`neorl/evolu/discrete.py` lines 62-64 and 81-83.  `pick` is the index drawn by `random.choice`. -/
def flipChoice (lb ub : ℤ) (cur : ℤ) (pick : ℕ) : Py ℤ :=
  let choices := pyRange lb (ub + 1)
  if cur ∈ choices then
    match (choices.erase cur)[pick]? with
    | some c => .ok c
    | none => .error .indexError
  else .error .valueError

/-- Lines 89-93 of `neorl/evolu/discrete.py`. -/
def clampInt (lb ub r : ℤ) : ℤ :=
  let r := if r < lb then lb else r
  if r > ub then ub else r

/-- `mutate_discrete`, `neorl/evolu/discrete.py` lines 29-95.  `expf` stands for `math.exp`, `rand` for
the `random.random()` draw and `pick` for the index chosen by `random.choice` (any index beyond the list is reported as
`IndexError`; `random.choice` only does so for the empty list). -/
def mutateDiscrete (expf : K → K) (x xmin xmax lbF ubF alpha : K) (m : IntMethod) (rand : K) (pick : ℕ) : Py ℤ := do
  let lb := truncZ lbF
  let ub := truncZ ubF
  let r ← match m with
    | .nearestInt => pure (truncZ x)
    | .sigmoid =>
      let flag := decide (xmax = xmin)
      let sig := if xmax = xmin then 0 else 1 / (1 + expf (2 * (x - xmin) / (xmax - xmin) + 0))
      if (rand < sig ∧ rand < alpha) ∨ flag = true then flipChoice lb ub (truncZ x) pick else pure (truncZ x)
    | .minmax =>
      let flag := decide (|xmin| + xmax = 0)
      let norm := if |xmin| + xmax = 0 then 0 else (x + xmin) / (|xmin| + xmax)
      if (norm ≥ 1/2 ∧ rand < alpha) ∨ flag = true then flipChoice lb ub (truncZ x) pick else pure (truncZ x)
  pure (clampInt lb ub r)

/-- Specification: the draws ask for the discrete value to be changed (the paper's perturbation event). -/
def FlipRequested (expf : K → K) (x xmin xmax alpha : K) (m : IntMethod) (rand : K) : Prop :=
  match m with
  | .nearestInt => False
  | .sigmoid => xmax = xmin ∨ (rand < 1 / (1 + expf (2 * (x - xmin) / (xmax - xmin))) ∧ rand < alpha)
  | .minmax => |xmin| + xmax = 0 ∨ ((x + xmin) / (|xmin| + xmax) ≥ 1/2 ∧ rand < alpha)

theorem clampInt_bounds {lb ub : ℤ} (h : lb ≤ ub) (r : ℤ) : lb ≤ clampInt lb ub r ∧ clampInt lb ub r ≤ ub := by
  unfold clampInt; simp only; split_ifs <;> omega

theorem clampInt_of_mem {lb ub r : ℤ} (h1 : lb ≤ r) (h2 : r ≤ ub) : clampInt lb ub r = r := by
  unfold clampInt; simp only; split_ifs <;> omega

theorem flipChoice_ok {lb ub cur r : ℤ} {pick : ℕ} (h : flipChoice lb ub cur pick = .ok r) :
    lb ≤ cur ∧ cur ≤ ub ∧ lb ≤ r ∧ r ≤ ub ∧ r ≠ cur := by
  unfold flipChoice at h
  simp only at h
  split_ifs at h with hm
  · split at h
    · rename_i c hc
      simp only [Except.ok.injEq] at h
      subst h
      have hmem := List.mem_of_getElem? hc
      have hm' := mem_pyRange.1 hm
      rw [List.Nodup.mem_erase_iff (pyRange_nodup _ _)] at hmem
      have hc' := mem_pyRange.1 hmem.2
      refine ⟨by omega, by omega, by omega, by omega, hmem.1⟩
    · simp at h

theorem flipChoice_total {lb ub cur : ℤ} (h1 : lb ≤ cur) (h2 : cur ≤ ub) {pick : ℕ} (hp : (pick : ℤ) < ub - lb) :
    ∃ r, flipChoice lb ub cur pick = .ok r := by
  unfold flipChoice
  have hm : cur ∈ pyRange lb (ub + 1) := mem_pyRange.2 ⟨h1, by omega⟩
  have hl : pick < ((pyRange lb (ub + 1)).erase cur).length := by
    rw [List.length_erase_of_mem hm, length_pyRange]; omega
  simp only [hm, if_true, List.getElem?_eq_getElem hl]
  exact ⟨_, rfl⟩

theorem flipChoice_surj {lb ub cur c : ℤ} (h1 : lb ≤ cur) (h2 : cur ≤ ub) (h3 : lb ≤ c) (h4 : c ≤ ub) (h5 : c ≠ cur) :
    ∃ pick : ℕ, flipChoice lb ub cur pick = .ok c := by
  have hm : cur ∈ pyRange lb (ub + 1) := mem_pyRange.2 ⟨h1, by omega⟩
  have hc : c ∈ (pyRange lb (ub + 1)).erase cur := by
    rw [List.Nodup.mem_erase_iff (pyRange_nodup _ _)]
    exact ⟨h5, mem_pyRange.2 ⟨h3, by omega⟩⟩
  obtain ⟨i, hi⟩ := List.mem_iff_getElem?.1 hc
  exact ⟨i, by unfold flipChoice; simp [hm, hi]⟩

/-- Shape of every outcome: without a flip request it is the clamped truncation, with one it is the forced change. -/
theorem mutateDiscrete_eq (expf : K → K) (x xmin xmax lb ub alpha : K) (m : IntMethod) (rand : K) (pick : ℕ) :
    (FlipRequested expf x xmin xmax alpha m rand →
      mutateDiscrete expf x xmin xmax lb ub alpha m rand pick =
        (flipChoice (truncZ lb) (truncZ ub) (truncZ x) pick).map (clampInt (truncZ lb) (truncZ ub))) ∧
    (¬ FlipRequested expf x xmin xmax alpha m rand →
      mutateDiscrete expf x xmin xmax lb ub alpha m rand pick = .ok (clampInt (truncZ lb) (truncZ ub) (truncZ x))) := by
  cases m with
  | nearestInt => simp [FlipRequested, mutateDiscrete]; rfl
  | sigmoid =>
    simp only [FlipRequested, mutateDiscrete, decide_eq_true_eq, add_zero]
    constructor
    · intro h
      have h' : ((rand < (if xmax = xmin then 0 else 1 / (1 + expf (2 * (x - xmin) / (xmax - xmin)))) ∧ rand < alpha) ∨
          xmax = xmin) := by
        rcases h with h | h
        · exact Or.inr h
        · by_cases he : xmax = xmin
          · exact Or.inr he
          · left; rw [if_neg he]; exact h
      rw [if_pos h']
      cases flipChoice (truncZ lb) (truncZ ub) (truncZ x) pick <;> rfl
    · intro h
      push Not at h
      have h' : ¬ ((rand < (if xmax = xmin then 0 else 1 / (1 + expf (2 * (x - xmin) / (xmax - xmin)))) ∧ rand < alpha) ∨
          xmax = xmin) := by
        rintro (⟨h1, h2⟩ | h1)
        · rw [if_neg h.1] at h1
          exact absurd h2 (not_lt.2 (h.2 h1))
        · exact h.1 h1
      rw [if_neg h']; rfl
  | minmax =>
    simp only [FlipRequested, mutateDiscrete, decide_eq_true_eq]
    constructor
    · intro h
      have h' : (((if |xmin| + xmax = 0 then 0 else (x + xmin) / (|xmin| + xmax)) ≥ 1/2 ∧ rand < alpha) ∨
          |xmin| + xmax = 0) := by
        rcases h with h | h
        · exact Or.inr h
        · by_cases he : |xmin| + xmax = 0
          · exact Or.inr he
          · left; rw [if_neg he]; exact h
      rw [if_pos h']
      cases flipChoice (truncZ lb) (truncZ ub) (truncZ x) pick <;> rfl
    · intro h
      push Not at h
      have h' : ¬ (((if |xmin| + xmax = 0 then 0 else (x + xmin) / (|xmin| + xmax)) ≥ 1/2 ∧ rand < alpha) ∨
          |xmin| + xmax = 0) := by
        rintro (⟨h1, h2⟩ | h1)
        · rw [if_neg h.1] at h1
          exact absurd h2 (not_lt.2 (h.2 h1))
        · exact h.1 h1
      rw [if_neg h']; rfl

/-- Type tag of a variable after grid encoding (`int` or `float`), `neorl/evolu/de.py` lines 82-95. -/
inductive VType
  | int | float
  deriving DecidableEq, Repr

/-- One round of `ensure_discrete`, `neorl/evolu/de.py` lines 191-200: dimension `d` of `vec` is repaired with
the minimum and maximum of the *current* vector.  `draw d` gives the two draws of the call. -/
def discStep (expf : K → K) (types : List VType) (bounds : List (K × K)) (alpha : K) (m : IntMethod)
    (draw : ℕ → K × ℕ) (d : ℕ) (vec : List K) : Py (List K) :=
  match types[d]? with
  | some .int =>
    match vec[d]?, vec.min?, vec.max?, bounds[d]? with
    | some x, some mn, some mx, some b => do
      let r ← mutateDiscrete expf x mn mx b.1 b.2 alpha m (draw d).1 (draw d).2
      pure (vec.set d (r : K))
    | _, _, _, _ => .error .indexError
  | _ => pure vec

/-- `ensure_discrete`, `neorl/evolu/de.py` lines 180-202 (same code in `es.py`, `gwo.py`, `woa.py`, `ssa.py`, `bat.py`,
`cs.py`, `jaya.py`, `mfo.py`, `hclpso.py`, ...): dimensions `0 .. dim-1` in turn, in place. -/
def ensureDiscrete (expf : K → K) (types : List VType) (bounds : List (K × K)) (alpha : K) (m : IntMethod)
    (draw : ℕ → K × ℕ) : ℕ → List K → Py (List K)
  | 0, vec => pure vec
  | d + 1, vec => do
    let v ← ensureDiscrete expf types bounds alpha m draw d vec
    discStep expf types bounds alpha m draw d v

/-- Specification: entry `d` of `v` is an integer inside its bounds if dimension `d` is an int dimension. -/
def IntOK (types : List VType) (bounds : List (K × K)) (v : List K) (d : ℕ) : Prop :=
  types[d]? = some VType.int → ∀ x b, v[d]? = some x → bounds[d]? = some b →
    ∃ n : ℤ, x = n ∧ truncZ b.1 ≤ n ∧ n ≤ truncZ b.2

theorem discStep_length {expf : K → K} {types : List VType} {bounds : List (K × K)} {alpha : K} {m : IntMethod}
    {draw : ℕ → K × ℕ} {d : ℕ} {vec v' : List K}
    (h : discStep expf types bounds alpha m draw d vec = .ok v') : v'.length = vec.length := by
  unfold discStep at h
  split at h
  · split at h
    · cases hm : mutateDiscrete expf _ _ _ _ _ alpha m (draw d).1 (draw d).2 with
      | error e => rw [hm] at h; cases h
      | ok r => rw [hm] at h; cases h; simp
    · cases h
  · cases h; rfl

theorem discStep_other {expf : K → K} {types : List VType} {bounds : List (K × K)} {alpha : K} {m : IntMethod}
    {draw : ℕ → K × ℕ} {d : ℕ} {vec v' : List K}
    (h : discStep expf types bounds alpha m draw d vec = .ok v') {e : ℕ} (he : e ≠ d) : v'[e]? = vec[e]? := by
  unfold discStep at h
  split at h
  · split at h
    · cases hm : mutateDiscrete expf _ _ _ _ _ alpha m (draw d).1 (draw d).2 with
      | error e => rw [hm] at h; cases h
      | ok r => rw [hm] at h; cases h; rw [List.getElem?_set_ne (Ne.symm he)]
    · cases h
  · cases h; rfl


theorem mutateDiscrete_bounds {expf : K → K} {x xmin xmax lb ub alpha : K} {m : IntMethod} {rand : K} {pick : ℕ} {r : ℤ}
    (hb : truncZ lb ≤ truncZ ub)
    (h : mutateDiscrete expf x xmin xmax lb ub alpha m rand pick = .ok r) : truncZ lb ≤ r ∧ r ≤ truncZ ub := by
  by_cases hf : FlipRequested expf x xmin xmax alpha m rand
  · rw [(mutateDiscrete_eq expf x xmin xmax lb ub alpha m rand pick).1 hf] at h
    cases hc : flipChoice (truncZ lb) (truncZ ub) (truncZ x) pick with
    | error e => rw [hc] at h; cases h
    | ok c => rw [hc] at h; cases h; exact clampInt_bounds hb c
  · rw [(mutateDiscrete_eq expf x xmin xmax lb ub alpha m rand pick).2 hf] at h
    cases h; exact clampInt_bounds hb _

theorem discStep_int {expf : K → K} {types : List VType} {bounds : List (K × K)} {alpha : K} {m : IntMethod}
    {draw : ℕ → K × ℕ} {d : ℕ} {vec v' : List K} (hb : BoundsOK bounds)
    (h : discStep expf types bounds alpha m draw d vec = .ok v') : IntOK types bounds v' d := by
  intro ht x b hx hbd
  unfold discStep at h
  rw [ht] at h
  simp only at h
  split at h
  · rename_i x0 mn mx b0 hx0 hmn hmx hb0
    cases hm : mutateDiscrete expf x0 mn mx b0.1 b0.2 alpha m (draw d).1 (draw d).2 with
    | error e => rw [hm] at h; cases h
    | ok r =>
      rw [hm] at h; cases h
      rw [hbd] at hb0; cases hb0
      have hlt : d < vec.length := (List.getElem?_eq_some_iff.1 hx0).1
      rw [List.getElem?_set_self hlt] at hx
      cases hx
      exact ⟨r, rfl, mutateDiscrete_bounds (truncZ_mono (hb b (List.mem_of_getElem? hbd))) hm⟩
  · cases h

theorem ensureDiscrete_spec {expf : K → K} {types : List VType} {bounds : List (K × K)} {alpha : K} {m : IntMethod}
    {draw : ℕ → K × ℕ} {n : ℕ} {vec v' : List K} (hb : BoundsOK bounds)
    (h : ensureDiscrete expf types bounds alpha m draw n vec = .ok v') :
    v'.length = vec.length ∧ (∀ d < n, IntOK types bounds v' d) ∧
    (∀ d, types[d]? ≠ some VType.int ∨ n ≤ d → v'[d]? = vec[d]?) := by
  induction n generalizing v' with
  | zero => cases h; exact ⟨rfl, by omega, fun _ _ => rfl⟩
  | succ n ih =>
    simp only [ensureDiscrete] at h
    cases hv : ensureDiscrete expf types bounds alpha m draw n vec with
    | error e => rw [hv] at h; cases h
    | ok v =>
      rw [hv] at h
      have h' : discStep expf types bounds alpha m draw n v = .ok v' := h
      obtain ⟨i1, i2, i3⟩ := ih hv
      refine ⟨(discStep_length h').trans i1, ?_, ?_⟩
      · intro d hd
        rcases Nat.lt_succ_iff_lt_or_eq.1 hd with hd | rfl
        · intro ht x b hx hbd
          rw [discStep_other h' (by omega)] at hx
          exact i2 d hd ht x b hx hbd
        · exact discStep_int hb h'
      · intro d hd
        by_cases hdn : d = n
        · subst hdn
          rcases hd with hd | hd
          · have : v' = v := by
              unfold discStep at h'
              cases ht : types[d]? with
              | none => rw [ht] at h'; cases h'; rfl
              | some t =>
                cases t with
                | int => exact absurd ht hd
                | float => rw [ht] at h'; cases h'; rfl
            rw [this]; exact i3 d (Or.inl hd)
          · omega
        · rw [discStep_other h' hdn]
          exact i3 d (by rcases hd with hd | hd; exacts [Or.inl hd, Or.inr (by omega)])

/-- `random.choice` returns an index inside the list it is given, which here has `ub - lb` elements. -/
def PicksOK (types : List VType) (bounds : List (K × K)) (draw : ℕ → K × ℕ) : Prop :=
  ∀ (d : ℕ) (b : K × K), types[d]? = some VType.int → bounds[d]? = some b → ((draw d).2 : ℤ) < truncZ b.2 - truncZ b.1

theorem mutateDiscrete_total {expf : K → K} {x xmin xmax lb ub alpha : K} {m : IntMethod} {rand : K} {pick : ℕ}
    (h1 : lb ≤ x) (h2 : x ≤ ub) (hp : (pick : ℤ) < truncZ ub - truncZ lb) :
    ∃ r, mutateDiscrete expf x xmin xmax lb ub alpha m rand pick = .ok r := by
  by_cases hf : FlipRequested expf x xmin xmax alpha m rand
  · rw [(mutateDiscrete_eq expf x xmin xmax lb ub alpha m rand pick).1 hf]
    obtain ⟨r, hr⟩ := flipChoice_total (truncZ_mono h1) (truncZ_mono h2) hp
    rw [hr]; exact ⟨_, rfl⟩
  · rw [(mutateDiscrete_eq expf x xmin xmax lb ub alpha m rand pick).2 hf]; exact ⟨_, rfl⟩

omit [FloorRing K] in
theorem inBox_getElem? {bs : List (K × K)} {v : List K} (hv : InBox bs v) {d : ℕ} {x : K} {b : K × K}
    (hx : v[d]? = some x) (hb : bs[d]? = some b) : b.1 ≤ x ∧ x ≤ b.2 := by
  unfold InBox at hv
  induction hv generalizing d with
  | nil => simp at hx
  | cons h _ ih =>
    cases d with
    | zero => simp at hx hb; subst hx; subst hb; exact h
    | succ d => simp at hx hb; exact ih hx hb

theorem ensureDiscrete_total {expf : K → K} {types : List VType} {bounds : List (K × K)} {alpha : K} {m : IntMethod}
    {draw : ℕ → K × ℕ} {vec : List K} (hv : InBox bounds vec) (hp : PicksOK types bounds draw)
    {n : ℕ} (hn : n ≤ vec.length) :
    ∃ v', ensureDiscrete expf types bounds alpha m draw n vec = .ok v' := by
  induction n with
  | zero => exact ⟨vec, rfl⟩
  | succ n ih =>
    obtain ⟨v, hvn⟩ := ih (by omega)
    obtain ⟨s1, s2, s3⟩ := ensureDiscrete_spec hv.boundsOK hvn
    simp only [ensureDiscrete]
    rw [hvn]
    show ∃ v', discStep expf types bounds alpha m draw n v = .ok v'
    unfold discStep
    cases ht : types[n]? with
    | none => exact ⟨_, rfl⟩
    | some t =>
      cases t with
      | float => exact ⟨_, rfl⟩
      | int =>
        have hl : n < vec.length := by omega
        have hvl : n < v.length := by omega
        have hbl : n < bounds.length := by rw [← hv.length_eq]; omega
        have hne : v ≠ [] := by intro h0; rw [h0] at hvl; simp at hvl
        obtain ⟨mn, hmn⟩ : ∃ mn, v.min? = some mn := by
          cases hm : v.min? with
          | none => exact absurd (List.min?_eq_none_iff.1 hm) hne
          | some a => exact ⟨a, rfl⟩
        obtain ⟨mx, hmx⟩ : ∃ mn, v.max? = some mn := by
          cases hm : v.max? with
          | none => exact absurd (List.max?_eq_none_iff.1 hm) hne
          | some a => exact ⟨a, rfl⟩
        have hx : v[n]? = some (vec[n]) := by
          rw [s3 n (Or.inr le_rfl), List.getElem?_eq_getElem hl]
        have hbn : bounds[n]? = some (bounds[n]) := List.getElem?_eq_getElem hbl
        have hin := inBox_getElem? hv (List.getElem?_eq_getElem hl) hbn
        obtain ⟨r, hr⟩ := mutateDiscrete_total (expf := expf) (xmin := mn) (xmax := mx) (alpha := alpha) (m := m)
          (rand := (draw n).1) (pick := (draw n).2) hin.1 hin.2 (hp n _ ht hbn)
        simp only [hx, hmn, hmx, hbn, hr]
        exact ⟨_, rfl⟩

end

end Neorl

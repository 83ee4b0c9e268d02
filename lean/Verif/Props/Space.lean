import Verif.Space

/-!
# Property theorems C01-C04: bound repair and discrete repair
-/

set_option linter.unusedSectionVars false
set_option linter.unusedVariables false

namespace Neorl

section
variable {K : Type} [Field K] [LinearOrder K] [IsStrictOrderedRing K]

/-- **C01.** Bound repair returns a vector of the same length, inside the box, entry-wise the nearest point of the
interval; it leaves entries already inside alone and is idempotent. -/
theorem C01_bound_repair {bounds : List (K × K)} (hb : BoundsOK bounds) {v : List K} (hl : v.length = bounds.length) :
    (ensureBounds bounds v).length = v.length ∧
    InBox bounds (ensureBounds bounds v) ∧
    (∀ (i : ℕ) (b : K × K) (x y : K), bounds[i]? = some b → v[i]? = some x → (ensureBounds bounds v)[i]? = some y →
      (b.1 ≤ x ∧ x ≤ b.2 → y = x) ∧ ∀ z, b.1 ≤ z → z ≤ b.2 → |y - x| ≤ |z - x|) ∧
    ensureBounds bounds (ensureBounds bounds v) = ensureBounds bounds v := by
  refine ⟨by rw [length_ensureBounds hb, hl, min_self], ensureBounds_inBox hb hl, ?_,
    ensureBounds_of_inBox (ensureBounds_inBox hb hl)⟩
  intro i b x y hbi hx hy
  rw [ensureBounds_eq_zipWith hb, List.getElem?_zipWith, hbi, hx] at hy
  cases hy
  exact ⟨fun h => clamp_of_mem h.1 h.2, fun z h1 h2 => clamp_nearest x h1 h2⟩

/-- The two boundary cases a repair must get right: a value exactly on a bound stays there. -/
theorem C01_bounds_closed {lb ub : K} (h : lb ≤ ub) :
    ensureBounds [(lb, ub)] [lb] = [lb] ∧ ensureBounds [(lb, ub)] [ub] = [ub] :=
  ⟨ensureBounds_of_inBox (by simp [InBox, h]), ensureBounds_of_inBox (by simp [InBox, h])⟩

/-- Without `lb ≤ ub` the code does not even keep the length: the hypothesis of C01 is needed. -/
theorem C01_needs_order {lb ub x : K} (h1 : x < lb) (h2 : ub < x) : ensureBounds [(lb, ub)] [x] = [lb, ub] := by
  have h3 : ¬ (lb ≤ x) := not_le.2 h1
  simp [ensureBounds, boundStep, h1, h2, h3]

end

example : BoundsOK [((0 : ℚ), 1), (-5, 5)] := by intro b hb; simp at hb; rcases hb with rfl | rfl <;> norm_num
example : ensureBounds [((0 : ℚ), 1), (-5, 5)] [3, -7] = [1, -5] := by norm_num [ensureBounds, boundStep]

section
variable {K : Type} [Field K] [LinearOrder K] [IsStrictOrderedRing K] [FloorRing K]

/-- **C02.** Whatever the method and the draws, a returned discrete value is an integer inside the (integer) bounds. -/
theorem C02_discrete_in_bounds (expf : K → K) (x xmin xmax alpha rand : K) (m : IntMethod) (pick : ℕ) {lb ub : ℤ}
    (hb : lb ≤ ub) {r : ℤ} (h : mutateDiscrete expf x xmin xmax (lb : K) (ub : K) alpha m rand pick = .ok r) :
    lb ≤ r ∧ r ≤ ub := by
  have := mutateDiscrete_bounds (by rwa [truncZ_intCast, truncZ_intCast]) h
  rwa [truncZ_intCast, truncZ_intCast] at this

/-- **C02, perturbation.** When the draws request a perturbation and the call returns, the value really changes;
and every other value of the range can be drawn. -/
theorem C02_flip_changes (expf : K → K) (x xmin xmax alpha rand : K) (m : IntMethod) {lb ub : ℤ}
    (hf : FlipRequested expf x xmin xmax alpha m rand) :
    (∀ (pick : ℕ) (r : ℤ), mutateDiscrete expf x xmin xmax (lb : K) (ub : K) alpha m rand pick = .ok r → r ≠ truncZ x) ∧
    (∀ c : ℤ, (lb : K) ≤ x → x ≤ ub → lb ≤ c → c ≤ ub → c ≠ truncZ x →
      ∃ pick : ℕ, mutateDiscrete expf x xmin xmax (lb : K) (ub : K) alpha m rand pick = .ok c) := by
  constructor
  · intro pick r h
    rw [(mutateDiscrete_eq ..).1 hf] at h
    simp only [truncZ_intCast] at h
    cases hc : flipChoice lb ub (truncZ x) pick with
    | error e => rw [hc] at h; cases h
    | ok c =>
      rw [hc] at h
      have h5 := flipChoice_ok hc
      have : clampInt lb ub c = r := by simpa [Except.map] using h
      rw [clampInt_of_mem h5.2.2.1 h5.2.2.2.1] at this
      rw [← this]; exact h5.2.2.2.2
  · intro c h1 h2 h3 h4 h5
    have hb := truncZ_bounds h1 h2
    obtain ⟨pick, hp⟩ := flipChoice_surj hb.1 hb.2 h3 h4 h5
    refine ⟨pick, ?_⟩
    rw [(mutateDiscrete_eq ..).1 hf]
    simp only [truncZ_intCast, hp]
    simp [Except.map, clampInt_of_mem h3 h4]

/-- **C02, whole vector.** The vector repair keeps the length, leaves float dimensions alone and puts an integer inside the
bounds into every int dimension. -/
theorem C02_vector {expf : K → K} {types : List VType} {bounds : List (K × K)} {alpha : K} {m : IntMethod}
    {draw : ℕ → K × ℕ} {vec v' : List K} (hb : BoundsOK bounds)
    (h : ensureDiscrete expf types bounds alpha m draw vec.length vec = .ok v') :
    v'.length = vec.length ∧
    (∀ (d : ℕ) (x : K) (b : K × K), types[d]? = some VType.int → v'[d]? = some x → bounds[d]? = some b →
      ∃ n : ℤ, x = n ∧ truncZ b.1 ≤ n ∧ n ≤ truncZ b.2) ∧
    (∀ d : ℕ, types[d]? = some VType.float → v'[d]? = vec[d]?) := by
  obtain ⟨h1, h2, h3⟩ := ensureDiscrete_spec hb h
  refine ⟨h1, ?_, fun d hd => h3 d (Or.inl (by rw [hd]; simp))⟩
  intro d x b ht hx hbd
  have hd : d < vec.length := by
    have := (List.getElem?_eq_some_iff.1 hx).1; omega
  exact h2 d hd ht x b hx hbd

/-- **C03.** With valid draws (`random.choice` returns an element of a non-empty list), the discrete repair raises
exactly when a perturbation is requested and either the truncated input is outside the range or the range has a
single value; the exception is `ValueError` in the first case and `IndexError` in the second. -/
theorem C03_raises_iff (expf : K → K) (x xmin xmax alpha rand : K) (m : IntMethod) (pick : ℕ) {lb ub : ℤ}
    (hb : lb ≤ ub) (hp : lb < ub → (pick : ℤ) < ub - lb) :
    ((∃ e, mutateDiscrete expf x xmin xmax (lb : K) (ub : K) alpha m rand pick = .error e) ↔
      FlipRequested expf x xmin xmax alpha m rand ∧ (truncZ x < lb ∨ ub < truncZ x ∨ lb = ub)) ∧
    (FlipRequested expf x xmin xmax alpha m rand → (truncZ x < lb ∨ ub < truncZ x) →
      mutateDiscrete expf x xmin xmax (lb : K) (ub : K) alpha m rand pick = .error .valueError) ∧
    (FlipRequested expf x xmin xmax alpha m rand → lb = ub → truncZ x = lb →
      mutateDiscrete expf x xmin xmax (lb : K) (ub : K) alpha m rand pick = .error .indexError) := by
  have hval : (truncZ x < lb ∨ ub < truncZ x) → flipChoice lb ub (truncZ x) pick = .error .valueError := by
    intro h
    unfold flipChoice
    have : ¬ truncZ x ∈ pyRange lb (ub + 1) := by rw [mem_pyRange]; omega
    simp [this]
  have hidx : lb = ub → truncZ x = lb → flipChoice lb ub (truncZ x) pick = .error .indexError := by
    intro h1 h2
    unfold flipChoice
    have hm : truncZ x ∈ pyRange lb (ub + 1) := by rw [mem_pyRange]; omega
    have hl : ((pyRange lb (ub + 1)).erase (truncZ x)).length ≤ pick := by
      rw [List.length_erase_of_mem hm, length_pyRange]; omega
    simp [hm, List.getElem?_eq_none hl]
  refine ⟨⟨?_, ?_⟩, ?_, ?_⟩
  · rintro ⟨e, he⟩
    by_cases hf : FlipRequested expf x xmin xmax alpha m rand
    · refine ⟨hf, ?_⟩
      by_contra hcon
      push Not at hcon
      obtain ⟨r, hr⟩ := flipChoice_total hcon.1 hcon.2.1 (hp (lt_of_le_of_ne hb hcon.2.2))
      rw [(mutateDiscrete_eq ..).1 hf] at he
      simp only [truncZ_intCast, hr] at he
      cases he
    · rw [(mutateDiscrete_eq ..).2 hf] at he; cases he
  · rintro ⟨hf, h⟩
    rw [(mutateDiscrete_eq ..).1 hf]
    simp only [truncZ_intCast]
    by_cases h' : truncZ x < lb ∨ ub < truncZ x
    · rw [hval h']; exact ⟨_, rfl⟩
    · push Not at h'
      rw [hidx (by omega) (by omega)]; exact ⟨_, rfl⟩
  · intro hf h
    rw [(mutateDiscrete_eq ..).1 hf]
    simp only [truncZ_intCast, hval h]; rfl
  · intro hf h1 h2
    rw [(mutateDiscrete_eq ..).1 hf]
    simp only [truncZ_intCast, hidx h1 h2]; rfl

/-- **C03, nearest_int.** This method never raises, for any input. -/
theorem C03_nearest_int_total (expf : K → K) (x xmin xmax lb ub alpha rand : K) (pick : ℕ) :
    mutateDiscrete expf x xmin xmax lb ub alpha .nearestInt rand pick
      = .ok (clampInt (truncZ lb) (truncZ ub) (truncZ x)) :=
  (mutateDiscrete_eq ..).2 (by simp [FlipRequested])

/-- **C03, whole vector.** A vector inside the box is repaired without exception, provided each int range has at least two
values (so that the drawn index is valid). -/
theorem C03_vector_total {expf : K → K} {types : List VType} {bounds : List (K × K)} {alpha : K} {m : IntMethod}
    {draw : ℕ → K × ℕ} {vec : List K} (hv : InBox bounds vec) (hp : PicksOK types bounds draw) :
    ∃ v', ensureDiscrete expf types bounds alpha m draw vec.length vec = .ok v' :=
  ensureDiscrete_total hv hp le_rfl

/-- **C04.** For an input inside integer bounds, `nearest_int` returns the integer part: no further from zero than `x`,
less than one away, and it reaches the upper bound `ub > 0` only from `x = ub`. -/
theorem C04_truncation (expf : K → K) (x xmin xmax alpha rand : K) (pick : ℕ) {lb ub : ℤ}
    (h1 : (lb : K) ≤ x) (h2 : x ≤ ub) :
    ∃ r : ℤ, mutateDiscrete expf x xmin xmax (lb : K) (ub : K) alpha .nearestInt rand pick = .ok r ∧
      |(r : K) - x| < 1 ∧ |(r : K)| ≤ |x| ∧ (0 ≤ x → (r : K) ≤ x) ∧ (x ≤ 0 → x ≤ (r : K)) ∧
      (0 < ub → r = ub → x = ub) := by
  refine ⟨truncZ x, ?_, abs_truncZ_sub_lt x, abs_truncZ_le x, ?_, ?_, ?_⟩
  · rw [C03_nearest_int_total, truncZ_intCast, truncZ_intCast]
    have := truncZ_bounds h1 h2
    rw [clampInt_of_mem this.1 this.2]
  · intro h; rw [truncZ_of_nonneg h]; exact Int.floor_le x
  · intro h
    rcases eq_or_lt_of_le h with h | h
    · subst h; simp [truncZ]
    · rw [truncZ_of_neg h]; exact Int.le_ceil x
  · intro hu hr
    have hx : 0 ≤ x := by
      by_contra hx
      rw [truncZ_of_neg (not_le.1 hx)] at hr
      have : ⌈x⌉ ≤ 0 := Int.ceil_le.2 (by push_cast; exact (not_le.1 hx).le)
      omega
    rw [truncZ_of_nonneg hx] at hr
    have := Int.floor_le x
    rw [hr] at this
    exact le_antisymm h2 this

/-- **C04.** The result is a nearest integer exactly when the fractional distance is at most one half. -/
theorem C04_nearest_iff (x : K) :
    (∀ n : ℤ, |(truncZ x : K) - x| ≤ |(n : K) - x|) ↔ |(truncZ x : K) - x| ≤ 1/2 := by
  constructor
  · intro h
    by_contra hc
    push Not at hc
    have hlt := abs_truncZ_sub_lt x
    rcases le_total ((truncZ x : K) - x) 0 with hs | hs
    · rw [abs_of_nonpos hs] at hc hlt
      have h1 := h (truncZ x + 1)
      push_cast at h1
      rw [abs_of_nonpos hs, abs_of_nonneg (by linarith)] at h1
      linarith
    · rw [abs_of_nonneg hs] at hc hlt
      have h1 := h (truncZ x - 1)
      push_cast at h1
      rw [abs_of_nonneg hs, abs_of_nonpos (by linarith)] at h1
      linarith
  · intro h n
    by_cases hn : n = truncZ x
    · rw [hn]
    · have h1 : (1 : K) ≤ |(n : K) - truncZ x| := by
        have : (1 : ℤ) ≤ |n - truncZ x| := Int.one_le_abs (sub_ne_zero.2 hn)
        calc (1 : K) = ((1 : ℤ) : K) := by simp
          _ ≤ ((|n - truncZ x| : ℤ) : K) := by exact_mod_cast this
          _ = |(n : K) - truncZ x| := by push_cast; rfl
      have h2 : |(n : K) - truncZ x| ≤ |(n : K) - x| + |(truncZ x : K) - x| := by
        have := abs_sub_le (n : K) x (truncZ x)
        rwa [abs_sub_comm x] at this
      linarith

/-- **C04, negation.** `nearest_int` is not rounding to nearest: every `x` strictly between `n + 1/2` and `n + 1`
with `n ≥ 0` is sent to `n` although `n + 1` is nearer. -/
theorem C04_not_nearest {n : ℕ} {x : K} (h1 : (n : K) + 1/2 < x) (h2 : x < n + 1) :
    truncZ x = n ∧ |((n : K) + 1) - x| < |(truncZ x : K) - x| := by
  have h0 : (0 : K) ≤ x := by have : (0 : K) ≤ n := Nat.cast_nonneg n; linarith
  have hf : truncZ x = n := by
    rw [truncZ_of_nonneg h0, Int.floor_eq_iff]; push_cast; constructor <;> linarith
  refine ⟨hf, ?_⟩
  rw [hf, abs_of_nonneg (by linarith), abs_of_nonpos (by push_cast; linarith)]
  push_cast; linarith

end

-- Concrete, non-trivial cases of the hypotheses.
example : mutateDiscrete (fun _ => 1) (27/10 : ℚ) 0 3 0 5 1 .nearestInt 0 0 = .ok 2 := by
  rw [C03_nearest_int_total]; decide +kernel
example : FlipRequested (fun _ => 1) (2 : ℚ) 0 3 1 .sigmoid (1/4) := by right; norm_num
example : mutateDiscrete (fun _ => 1) (2 : ℚ) 0 3 ((0:ℤ):ℚ) ((5:ℤ):ℚ) 1 .sigmoid (1/4) 3 = .ok 4 := by decide +kernel
example : mutateDiscrete (fun _ => 1) (2 : ℚ) 2 2 ((2:ℤ):ℚ) ((2:ℤ):ℚ) 1 .sigmoid (1/4) 0 = .error .indexError := by
  decide +kernel
example : PicksOK [VType.float, VType.int] [((0 : ℚ), 1), (0, 3)] (fun _ => (0, 2)) := by
  intro d b ht hb
  match d with
  | 0 => simp at ht
  | 1 => simp at hb; subst hb; norm_num [truncZ]
  | n + 2 => simp at ht
example : InBox [((0 : ℚ), 1), (0, 3)] [1/2, 5/2] := by norm_num [InBox]

end Neorl

import Verif.Space

/-!
# Encoded search spaces and feasibility

The data an optimiser keeps about its (grid-encoded) search space, and the specification of a feasible point.
-/

set_option linter.unusedSectionVars false
set_option linter.unusedVariables false

namespace Neorl

section
variable {K : Type} [Field K] [LinearOrder K] [IsStrictOrderedRing K] [FloorRing K]

/-- What every optimiser stores about the search space after grid encoding, e.g. `neorl/evolu/de.py` lines 74-99:
bounds, variable types, the `int_transform` method (and `math.exp`, used by `mutate_discrete`). -/
structure Space (K : Type) where
  bounds : List (K × K)
  types : List VType
  method : IntMethod
  expf : K → K

/-- A well-formed space: ordered bounds, one type per bound, integer bounds for int variables. -/
structure Space.OK (S : Space K) : Prop where
  ordered : BoundsOK S.bounds
  ntypes : S.types.length = S.bounds.length
  intBounds : ∀ (d : ℕ) (b : K × K), S.types[d]? = some VType.int → S.bounds[d]? = some b →
    ∃ l u : ℤ, b.1 = l ∧ b.2 = u

/-- `self.ensure_bounds(vec)` on the space. -/
def Space.clip (S : Space K) (v : List K) : List K := ensureBounds S.bounds v

/-- `self.ensure_discrete(vec)` on the space, e.g. `neorl/evolu/de.py` lines 180-202; `alpha` is the annealing factor
`self.b`. -/
def Space.disc (S : Space K) (alpha : K) (draw : ℕ → K × ℕ) (v : List K) : Py (List K) :=
  ensureDiscrete S.expf S.types S.bounds alpha S.method draw S.bounds.length v

/-- Specification: every int dimension holds an integer. -/
def Space.Integral (S : Space K) (v : List K) : Prop :=
  ∀ (d : ℕ) (x : K), S.types[d]? = some VType.int → v[d]? = some x → ∃ n : ℤ, x = n

/-- Specification: a point of the (encoded) search space. -/
def Space.Feasible (S : Space K) (v : List K) : Prop := InBox S.bounds v ∧ S.Integral v

theorem inBox_of_getElem? {bs : List (K × K)} {v : List K} (hl : v.length = bs.length)
    (h : ∀ (d : ℕ) (x : K) (b : K × K), v[d]? = some x → bs[d]? = some b → b.1 ≤ x ∧ x ≤ b.2) : InBox bs v := by
  unfold InBox
  induction bs generalizing v with
  | nil => cases v with
    | nil => exact .nil
    | cons a l => simp at hl
  | cons b bs ih =>
    cases v with
    | nil => simp at hl
    | cons x xs =>
      refine .cons (h 0 x b rfl rfl) (ih (by simpa using hl) ?_)
      intro d y c hy hc
      exact h (d + 1) y c (by simpa using hy) (by simpa using hc)

theorem Space.clip_inBox {S : Space K} (hS : S.OK) {v : List K} (hl : v.length = S.bounds.length) :
    InBox S.bounds (S.clip v) := ensureBounds_inBox hS.ordered hl

theorem Space.length_clip {S : Space K} (hS : S.OK) {v : List K} (hl : v.length = S.bounds.length) :
    (S.clip v).length = S.bounds.length := (S.clip_inBox hS hl).length_eq

theorem Space.clip_of_inBox {S : Space K} {v : List K} (h : InBox S.bounds v) : S.clip v = v := ensureBounds_of_inBox h

theorem Space.clip_integral {S : Space K} (hS : S.OK) {v : List K}
    (h : S.Integral v) : S.Integral (S.clip v) := by
  intro d x ht hx
  unfold Space.clip at hx
  rw [ensureBounds_eq_zipWith hS.ordered, List.getElem?_zipWith] at hx
  cases hb : S.bounds[d]? with
  | none => rw [hb] at hx; cases hx
  | some b =>
    cases hv : v[d]? with
    | none => rw [hb, hv] at hx; cases hx
    | some y =>
      rw [hb, hv] at hx
      cases hx
      obtain ⟨l, u, h1, h2⟩ := hS.intBounds d b ht hb
      obtain ⟨n, hn⟩ := h d y ht hv
      refine ⟨max l (min n u), ?_⟩
      rw [h1, h2, hn]; unfold clamp; push_cast; rfl

/-- Clamping a vector with integral int dimensions gives a feasible point. -/
theorem Space.clip_feasible {S : Space K} (hS : S.OK) {v : List K} (hl : v.length = S.bounds.length)
    (h : S.Integral v) : S.Feasible (S.clip v) := ⟨S.clip_inBox hS hl, S.clip_integral hS h⟩

/-- The discrete repair always produces integral int dimensions, keeps the length. -/
theorem Space.disc_integral {S : Space K} (hS : S.OK) {alpha : K} {draw : ℕ → K × ℕ} {v v' : List K}
    (hl : v.length = S.bounds.length) (h : S.disc alpha draw v = .ok v') :
    v'.length = v.length ∧ S.Integral v' := by
  obtain ⟨h1, h2, _⟩ := ensureDiscrete_spec hS.ordered h
  refine ⟨h1, ?_⟩
  intro d x ht hx
  have hd : d < S.bounds.length := by
    have := (List.getElem?_eq_some_iff.1 hx).1; omega
  obtain ⟨n, hn, _⟩ := h2 d hd ht x _ hx (List.getElem?_eq_getElem hd)
  exact ⟨n, hn⟩

/-- The discrete repair of a vector inside the box gives a feasible point. -/
theorem Space.disc_feasible {S : Space K} (hS : S.OK) {alpha : K} {draw : ℕ → K × ℕ} {v v' : List K}
    (hv : InBox S.bounds v) (h : S.disc alpha draw v = .ok v') : S.Feasible v' := by
  have hl := hv.length_eq
  obtain ⟨h0, hi⟩ := S.disc_integral hS hl h
  obtain ⟨h1, h2, h3⟩ := ensureDiscrete_spec hS.ordered h
  refine ⟨?_, hi⟩
  apply inBox_of_getElem? (by rw [h1, hl])
  intro d x b hx hb
  have hd : d < S.bounds.length := (List.getElem?_eq_some_iff.1 hb).1
  cases ht : S.types[d]? with
  | none =>
    have := List.getElem?_eq_none_iff.1 ht
    rw [hS.ntypes] at this; omega
  | some t =>
    cases t with
    | int =>
      obtain ⟨n, hn, hn1, hn2⟩ := h2 d hd ht x b hx hb
      obtain ⟨l, u, e1, e2⟩ := hS.intBounds d b ht hb
      rw [e1, truncZ_intCast] at hn1
      rw [e2, truncZ_intCast] at hn2
      rw [hn, e1, e2]
      exact ⟨by exact_mod_cast hn1, by exact_mod_cast hn2⟩
    | float =>
      rw [h3 d (Or.inl (by rw [ht]; simp))] at hx
      exact inBox_getElem? hv hx hb

theorem discStep_nearest_id {expf : K → K} {types : List VType} {bounds : List (K × K)} {alpha : K}
    {draw : ℕ → K × ℕ} {d : ℕ} {vec : List K} (hv : InBox bounds vec) (hd : d < bounds.length)
    (hb : ∀ (b : K × K), types[d]? = some VType.int → bounds[d]? = some b → ∃ l u : ℤ, b.1 = l ∧ b.2 = u)
    (hi : types[d]? = some VType.int → ∀ x, vec[d]? = some x → ∃ n : ℤ, x = n) :
    discStep expf types bounds alpha .nearestInt draw d vec = .ok vec := by
  unfold discStep
  cases ht : types[d]? with
  | none => rfl
  | some t =>
    cases t with
    | float => rfl
    | int =>
      have hl := hv.length_eq
      have hdv : d < vec.length := by omega
      have hne : vec ≠ [] := by rintro rfl; simp at hdv
      obtain ⟨mn, hmn⟩ : ∃ mn, vec.min? = some mn := by
        cases hm : vec.min? with
        | none => exact absurd (List.min?_eq_none_iff.1 hm) hne
        | some a => exact ⟨a, rfl⟩
      obtain ⟨mx, hmx⟩ : ∃ mn, vec.max? = some mn := by
        cases hm : vec.max? with
        | none => exact absurd (List.max?_eq_none_iff.1 hm) hne
        | some a => exact ⟨a, rfl⟩
      have hx : vec[d]? = some (vec[d]) := List.getElem?_eq_getElem hdv
      have hbd : bounds[d]? = some (bounds[d]) := List.getElem?_eq_getElem hd
      obtain ⟨l, u, e1, e2⟩ := hb _ ht hbd
      obtain ⟨n, hn⟩ := hi ht _ hx
      have hbox := inBox_getElem? hv hx hbd
      have hr : mutateDiscrete expf vec[d] mn mx bounds[d].1 bounds[d].2 alpha .nearestInt (draw d).1 (draw d).2
          = .ok n := by
        rw [(mutateDiscrete_eq ..).2 (by simp [FlipRequested])]
        rw [e1, e2, truncZ_intCast, truncZ_intCast, hn, truncZ_intCast]
        rw [hn, e1, e2] at hbox
        rw [clampInt_of_mem (by exact_mod_cast hbox.1) (by exact_mod_cast hbox.2)]
      simp only [hx, hmn, hmx, hbd, hr]
      show Except.ok (vec.set d (n : K)) = _
      rw [← hn, List.set_getElem_self]

/-- With `nearest_int` a feasible point is left exactly as it is. -/
theorem Space.disc_nearest_id {S : Space K} (hS : S.OK) (hm : S.method = .nearestInt) {alpha : K} {draw : ℕ → K × ℕ}
    {v : List K} (hv : S.Feasible v) : S.disc alpha draw v = .ok v := by
  unfold Space.disc
  rw [hm]
  have : ∀ n, n ≤ S.bounds.length → ensureDiscrete S.expf S.types S.bounds alpha .nearestInt draw n v = .ok v := by
    intro n
    induction n with
    | zero => intro _; rfl
    | succ n ih =>
      intro hn
      simp only [ensureDiscrete]
      rw [ih (by omega)]
      exact discStep_nearest_id hv.1 (by omega) (fun b => hS.intBounds n b) (fun ht x hx => hv.2 n x ht hx)
  exact this _ le_rfl

theorem discStep_nearest_total {expf : K → K} {types : List VType} {bounds : List (K × K)} {alpha : K}
    {draw : ℕ → K × ℕ} {d : ℕ} {vec : List K} (h : d < vec.length) (hb : d < bounds.length) :
    ∃ v', discStep expf types bounds alpha .nearestInt draw d vec = .ok v' := by
  unfold discStep
  cases ht : types[d]? with
  | none => exact ⟨_, rfl⟩
  | some t =>
    cases t with
    | float => exact ⟨_, rfl⟩
    | int =>
      have hne : vec ≠ [] := by rintro rfl; simp at h
      obtain ⟨mn, hmn⟩ : ∃ mn, vec.min? = some mn := by
        cases hm : vec.min? with
        | none => exact absurd (List.min?_eq_none_iff.1 hm) hne
        | some a => exact ⟨a, rfl⟩
      obtain ⟨mx, hmx⟩ : ∃ mn, vec.max? = some mn := by
        cases hm : vec.max? with
        | none => exact absurd (List.max?_eq_none_iff.1 hm) hne
        | some a => exact ⟨a, rfl⟩
      simp only [List.getElem?_eq_getElem h, hmn, hmx, List.getElem?_eq_getElem hb]
      rw [(mutateDiscrete_eq ..).2 (by simp [FlipRequested])]
      exact ⟨_, rfl⟩

/-- With `nearest_int` the discrete repair never raises on a vector of the right length. -/
theorem Space.disc_nearest_total {S : Space K} (hS : S.OK) (hm : S.method = .nearestInt) (alpha : K) (draw : ℕ → K × ℕ)
    {v : List K} (hl : v.length = S.bounds.length) : ∃ v', S.disc alpha draw v = .ok v' := by
  unfold Space.disc
  rw [hm]
  have : ∀ n, n ≤ S.bounds.length → ∃ v', ensureDiscrete S.expf S.types S.bounds alpha .nearestInt draw n v = .ok v' := by
    intro n
    induction n with
    | zero => intro _; exact ⟨v, rfl⟩
    | succ n ih =>
      intro hn
      obtain ⟨w, hw⟩ := ih (by omega)
      simp only [ensureDiscrete]
      rw [hw]
      have := (ensureDiscrete_spec hS.ordered hw).1
      exact discStep_nearest_total (by omega) (by omega)
  exact this _ le_rfl

/-- Clamping does nothing to feasible populations. -/
theorem Space.map_clip {S : Space K} {ps : List (List K)} (h : ∀ p ∈ ps, S.Feasible p) : ps.map S.clip = ps := by
  conv_rhs => rw [← List.map_id ps]
  exact List.map_congr_left (fun p hp => S.clip_of_inBox (h p hp).1)

/-! ### Executable checks, used for the concrete examples -/

/-- Boolean check of `Space.OK`. -/
def Space.okB (S : Space K) : Bool :=
  S.bounds.all (fun b => decide (b.1 ≤ b.2)) && decide (S.types.length = S.bounds.length) &&
  (List.zip S.types S.bounds).all (fun p => decide (p.1 = VType.int → p.2.1 = ((truncZ p.2.1 : ℤ) : K) ∧
    p.2.2 = ((truncZ p.2.2 : ℤ) : K)))

theorem Space.ok_of_okB {S : Space K} (h : S.okB = true) : S.OK := by
  simp only [Space.okB, Bool.and_eq_true, List.all_eq_true, decide_eq_true_eq] at h
  obtain ⟨⟨h1, h2⟩, h3⟩ := h
  refine ⟨h1, h2, ?_⟩
  intro d b ht hb
  have : (VType.int, b) ∈ List.zip S.types S.bounds := by
    rw [List.mem_iff_getElem?]
    exact ⟨d, by rw [List.getElem?_zip_eq_some]; exact ⟨ht, hb⟩⟩
  have := h3 _ this rfl
  exact ⟨_, _, this.1, this.2⟩

/-- Boolean check of `Space.Feasible`. -/
def Space.feasB (S : Space K) (v : List K) : Bool :=
  decide (v.length = S.bounds.length) && (List.zip S.bounds v).all (fun p => decide (p.1.1 ≤ p.2 ∧ p.2 ≤ p.1.2)) &&
  (List.zip S.types v).all (fun p => decide (p.1 = VType.int → p.2 = ((truncZ p.2 : ℤ) : K)))

theorem Space.feasible_of_feasB {S : Space K} {v : List K} (h : S.feasB v = true) : S.Feasible v := by
  simp only [Space.feasB, Bool.and_eq_true, List.all_eq_true, decide_eq_true_eq] at h
  obtain ⟨⟨h1, h2⟩, h3⟩ := h
  refine ⟨inBox_of_getElem? h1 ?_, ?_⟩
  · intro d x b hx hb
    refine h2 (b, x) ?_
    rw [List.mem_iff_getElem?]
    exact ⟨d, by rw [List.getElem?_zip_eq_some]; exact ⟨hb, hx⟩⟩
  · intro d x ht hx
    have := h3 (VType.int, x) (by
      rw [List.mem_iff_getElem?]
      exact ⟨d, by rw [List.getElem?_zip_eq_some]; exact ⟨ht, hx⟩⟩) rfl
    exact ⟨_, this⟩

theorem Space.feasible_all {S : Space K} {ps : List (List K)} (h : ps.all S.feasB = true) : ∀ p ∈ ps, S.Feasible p :=
  fun p hp => Space.feasible_of_feasB (List.all_eq_true.1 h p hp)

end
end Neorl

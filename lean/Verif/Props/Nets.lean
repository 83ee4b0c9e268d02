import Verif.Nets
import Mathlib.Tactic.Ring
import Mathlib.Tactic.FieldSimp
import Mathlib.Tactic.Linarith
import Mathlib.Tactic.Positivity
import Mathlib.LinearAlgebra.Matrix.NonsingularInverse
import Mathlib.Algebra.Order.BigOperators.Group.Finset

/-!
# C127: the networks of the policies
-/

set_option linter.unusedSectionVars false
set_option linter.unusedVariables false

namespace Neorl.Nets

open Neorl.InputFile (Str)

variable {K : Type} [Field K] [LinearOrder K] [IsStrictOrderedRing K]

/-! ### The observation -/

theorem oneHot_get {n : ℕ} {i : ℤ} (j : ℕ) (h : j < (oneHot (K := K) n i).length) : (oneHot (K := K) n i)[j] = if (j : ℤ) = i then some 1 else some 0 := by
  simp [oneHot]

/-- **C127.** A discrete observation is given as a vector with a single one, at its place; a number out of range is not refused but gives zeros. -/
theorem C127_onehot (n : ℕ) (i : ℤ) : (oneHot (K := K) n i).length = n ∧ (∀ j (h : j < (oneHot (K := K) n i).length), ((oneHot (K := K) n i)[j] = some 1 ↔ (j : ℤ) = i) ∧ ((oneHot (K := K) n i)[j] = some 0 ↔ (j : ℤ) ≠ i)) ∧
    ((i < 0 ∨ (n : ℤ) ≤ i) → ∀ y ∈ oneHot (K := K) n i, y = some 0) := by
  refine ⟨by simp [oneHot], fun j h => ?_, fun h y hy => ?_⟩
  · rw [oneHot_get j h]
    by_cases e : (j : ℤ) = i <;> simp [e]
  · obtain ⟨j, hj, rfl⟩ := List.mem_map.1 hy
    have := List.mem_range.1 hj
    rw [if_neg (by omega)]

/-- An observation of the space. -/
def Valid : ObSpace K → Obs K → Prop
  | .discrete n, .idx i => 0 ≤ i ∧ i < n
  | .box low high, .vec x => x.length = low.length ∧ x.length = high.length ∧ ∀ j (h : j < x.length) (hl : j < low.length) (hh : j < high.length), (∀ a, low[j] = .fin a → a ≤ x[j]) ∧ ∀ b, high[j] = .fin b → x[j] ≤ b
  | .multiBinary n, .ints l => l.length = n ∧ ∀ i ∈ l, i = 0 ∨ i = 1
  | .multiDiscrete nvec, .ints l => List.Forall₂ (fun (n : ℕ) (i : ℤ) => 0 ≤ i ∧ i < n) nvec l
  | _, _ => False

/-- The rescaling is applied exactly if it is asked for, all bounds are finite and not all pairs of bounds are equal. -/
theorem C127_scaled (scale : Bool) {low high : List (Bound K)} (hl : low.length = high.length) : scaled scale low high = true ↔
    scale = true ∧ (∀ b ∈ low ++ high, b ≠ .inf) ∧ ∃ j, ∃ (h : j < low.length) (h' : j < high.length), ∃ a b, low[j] = .fin a ∧ high[j] = .fin b ∧ a ≠ b := by
  have hi : ∀ l : List (Bound K), l.any Bound.isInf = false ↔ ∀ b ∈ l, b ≠ .inf := by
    intro l
    rw [List.any_eq_false]
    refine forall₂_congr fun b hb => ?_
    cases b <;> simp [Bound.isInf]
  unfold scaled
  simp only [Bool.and_eq_true, Bool.not_eq_true', hi, List.any_eq_true, decide_eq_true_eq]
  constructor
  · rintro ⟨⟨⟨h1, h2⟩, h3⟩, d, hd, hd0⟩
    refine ⟨h1, fun b hb => (List.mem_append.1 hb).elim (h2 b) (h3 b), ?_⟩
    obtain ⟨j, hj, rfl⟩ := List.getElem_of_mem hd
    rw [List.length_zipWith] at hj
    refine ⟨j, by omega, by omega, ?_⟩
    rw [List.getElem_zipWith] at hd0
    cases ha : low[j]'(by omega) with
    | inf => exact absurd ha (h2 _ (List.getElem_mem _))
    | fin a =>
      cases hb : high[j]'(by omega) with
      | inf => exact absurd hb (h3 _ (List.getElem_mem _))
      | fin b =>
        rw [ha, hb] at hd0
        exact ⟨a, b, rfl, rfl, fun e => hd0 (by simp [width, e])⟩
  · rintro ⟨h1, h2, j, hj, hj', a, b, ha, hb, hab⟩
    refine ⟨⟨⟨h1, fun b hb => h2 b (by simp [hb])⟩, fun b hb => h2 b (by simp [hb])⟩, width low[j] high[j], ?_, ?_⟩
    · have : j < (List.zipWith width low high).length := by rw [List.length_zipWith]; omega
      have e := List.getElem_mem this
      rwa [List.getElem_zipWith] at e
    · rw [ha, hb]
      exact sub_ne_zero.2 (Ne.symm hab)

theorem rescaleAll_get : ∀ (x : List K) (low high : List (Bound K)), x.length = low.length → x.length = high.length → (rescaleAll x low high).length = x.length ∧
    ∀ j (h : j < (rescaleAll x low high).length) (hx : j < x.length) (hl : j < low.length) (hh : j < high.length), (rescaleAll x low high)[j] = rescale x[j] low[j] high[j]
  | [], [], [], _, _ => ⟨rfl, fun j h => absurd h (by simp [rescaleAll])⟩
  | x :: xs, a :: as, b :: bs, h1, h2 => by
    obtain ⟨e1, e2⟩ := rescaleAll_get xs as bs (by simpa using h1) (by simpa using h2)
    refine ⟨by simp [rescaleAll, e1], fun j h hx hl hh => ?_⟩
    cases j with
    | zero => rfl
    | succ j => exact e2 j (by simpa [rescaleAll] using h) (by simpa using hx) (by simpa using hl) (by simpa using hh)

/-- **C127.** A box observation.  Where the rescaling applies, a component with different bounds goes to the unit interval, the bounds to 0 and 1, in the same order; where it does not, the observation is unchanged.
**Defect**: where it applies, a component with equal bounds is divided by zero. -/
theorem C127_box {low high : List (Bound K)} (hl : low.length = high.length) (scale : Bool) {x : List K} (hx : x.length = low.length) :
    (scaled scale low high = false → observationInput (.box low high) scale (.vec x) = .ok (x.map some)) ∧
    (scaled scale low high = true → ∃ y, observationInput (.box low high) scale (.vec x) = .ok y ∧ y.length = x.length ∧
      ∀ j (h : j < y.length) (h1 : j < x.length) (h2 : j < low.length) (h3 : j < high.length) a b, low[j] = .fin a → high[j] = .fin b →
        (a = b → y[j] = none) ∧ (a < b → ∃ z, y[j] = some z ∧ x[j] = a + z * (b - a) ∧ (a ≤ x[j] → 0 ≤ z) ∧ (x[j] ≤ b → z ≤ 1))) := by
  unfold observationInput
  constructor
  · intro h
    simp only [hx, if_true, h]
    rfl
  · intro h
    simp only [if_pos hx, if_pos h]
    obtain ⟨e1, e2⟩ := rescaleAll_get x low high hx (hx.trans hl)
    refine ⟨_, rfl, e1, fun j h h1 h2 h3 a b ha hb => ?_⟩
    rw [e2 j h h1 h2 h3, ha, hb]
    refine ⟨fun e => by simp [rescale, e], fun e => ?_⟩
    have hp : 0 < b - a := sub_pos.2 e
    refine ⟨(x[j] - a) / (b - a), by rw [rescale, if_neg hp.ne'], ?_, fun h => div_nonneg (sub_nonneg.2 h) hp.le, fun h => (div_le_one hp).2 (by linarith)⟩
    rw [div_mul_cancel₀ _ hp.ne']
    ring

theorem oneHot_inj {n : ℕ} {i j : ℤ} (hi : 0 ≤ i ∧ i < n) (h : oneHot (K := K) n i = oneHot n j) : i = j := by
  obtain ⟨k, rfl⟩ := Int.eq_ofNat_of_zero_le hi.1
  have hk : k < n := by simpa using hi.2
  have h1 : k < (oneHot (K := K) n (k : ℤ)).length := by simpa [oneHot] using hk
  have e := oneHot_get (K := K) (n := n) (i := (k : ℤ)) k h1
  rw [if_pos rfl] at e
  have h2 : k < (oneHot (K := K) n j).length := by simpa [oneHot] using hk
  have e2 := oneHot_get (K := K) (n := n) (i := j) k h2
  have e3 : (oneHot (K := K) n (k : ℤ))[k] = (oneHot (K := K) n j)[k] := by simp only [h]
  rw [e, e2] at e3
  by_contra hne
  rw [if_neg hne] at e3
  simp at e3

theorem multi_inj : ∀ (nvec : List ℕ) (l l' : List ℤ), List.Forall₂ (fun (n : ℕ) (i : ℤ) => 0 ≤ i ∧ i < n) nvec l → List.Forall₂ (fun (n : ℕ) (i : ℤ) => 0 ≤ i ∧ i < n) nvec l' →
    (List.zipWith (oneHot (K := K)) nvec l).flatten = (List.zipWith oneHot nvec l').flatten → l = l'
  | _, _, _, .nil, .nil, _ => rfl
  | n :: nvec, i :: l, j :: l', .cons h1 h2, .cons h3 h4, h => by
    simp only [List.zipWith_cons_cons, List.flatten_cons] at h
    obtain ⟨e1, e2⟩ := List.append_inj h (by simp [oneHot])
    rw [oneHot_inj h1 e1, multi_inj nvec l l' h2 h4 e2]

/-- **C127.** No information is lost: different observations of a space reach the network as different vectors (for a box that is rescaled: if all lower bounds are below the upper ones). -/
theorem C127_inject {sp : ObSpace K} {scale : Bool} {o o' : Obs K} (h : Valid sp o) (h' : Valid sp o')
    (hb : ∀ low high, sp = .box low high → scaled scale low high = true → ∀ j (h1 : j < low.length) (h2 : j < high.length), ∃ a b, low[j] = .fin a ∧ high[j] = .fin b ∧ a < b)
    {y : List (Option K)} (e : observationInput sp scale o = .ok y) (e' : observationInput sp scale o' = .ok y) : o = o' := by
  cases sp with
  | discrete n =>
    cases o <;> cases o' <;> first | exact h.elim | exact h'.elim | skip
    cases e
    simp only [observationInput, Except.ok.injEq] at e'
    rw [oneHot_inj h e'.symm]
  | box low high =>
    cases o <;> cases o' <;> first | exact h.elim | exact h'.elim | skip
    rename_i x x'
    obtain ⟨h1, h2, h3⟩ := h
    obtain ⟨h1', h2', h3'⟩ := h'
    have hl : low.length = high.length := h1.symm.trans h2
    cases hs : scaled scale low high with
    | false =>
      rw [(C127_box hl scale h1).1 hs] at e
      rw [(C127_box hl scale h1').1 hs] at e'
      have := e.trans e'.symm
      simp only [Except.ok.injEq] at this
      rw [List.map_injective_iff.2 (Option.some_injective K) this]
    | true =>
      obtain ⟨y1, f1, f2, f3⟩ := (C127_box hl scale h1).2 hs
      obtain ⟨y2, g1, g2, g3⟩ := (C127_box hl scale h1').2 hs
      rw [f1] at e
      rw [g1] at e'
      cases e
      cases e'
      congr 1
      refine List.ext_getElem (h1.trans h1'.symm) fun j ha hb' => ?_
      obtain ⟨a, b, hlo, hhi, hab⟩ := hb low high rfl hs j (by omega) (by omega)
      obtain ⟨z, z1, z2, -⟩ := (f3 j (by omega) ha (by omega) (by omega) a b hlo hhi).2 hab
      obtain ⟨z', z1', z2', -⟩ := (g3 j (by omega) hb' (by omega) (by omega) a b hlo hhi).2 hab
      rw [z1] at z1'
      cases z1'
      rw [z2, z2']
  | multiBinary n =>
    cases o <;> cases o' <;> first | exact h.elim | exact h'.elim | skip
    simp only [observationInput, h.1, h'.1, if_true] at e e'
    have := e.trans e'.symm
    simp only [Except.ok.injEq] at this
    rw [List.map_injective_iff.2 (fun a b hab => by simpa using hab) this]
  | multiDiscrete nvec =>
    cases o <;> cases o' <;> first | exact h.elim | exact h'.elim | skip
    have l1 := List.Forall₂.length_eq h
    have l2 := List.Forall₂.length_eq h'
    simp only [observationInput, l1.symm, l2.symm, if_true] at e e'
    have := e.trans e'.symm
    simp only [Except.ok.injEq] at this
    rw [multi_inj nvec _ _ h h' this]
  | other => exact h.elim

theorem flat_length {nvec : List ℕ} {l : List ℤ} (h : List.Forall₂ (fun (n : ℕ) (i : ℤ) => 0 ≤ i ∧ i < n) nvec l) : (List.zipWith (oneHot (K := K)) nvec l).flatten.length = nvec.sum := by
  induction h with
  | nil => rfl
  | cons _ _ ih =>
    rw [List.zipWith_cons_cons, List.flatten_cons, List.length_append, ih, List.sum_cons]
    simp [oneHot]

/-- The length of the vector given to the network. -/
def inSize : ObSpace K → ℕ
  | .discrete n => n
  | .box low _ => low.length
  | .multiBinary n => n
  | .multiDiscrete nvec => nvec.sum
  | .other => 0

/-- **C127.** Every observation of a space is accepted, and gives a vector of the length fixed by the space; other spaces are refused. -/
theorem C127_encode {sp : ObSpace K} {scale : Bool} {o : Obs K} : (Valid sp o → ∃ y, observationInput sp scale o = .ok y ∧ y.length = inSize sp) ∧ observationInput (.other : ObSpace K) scale o = .error .runtimeError := by
  refine ⟨fun h => ?_, by cases o <;> rfl⟩
  cases sp with
  | discrete n => cases o <;> first | exact h.elim | exact ⟨_, rfl, by simp [oneHot, inSize]⟩
  | box low high =>
    cases o <;> first | exact h.elim | skip
    rename_i x
    obtain ⟨h1, h2, -⟩ := h
    cases hs : scaled scale low high with
    | false => exact ⟨_, (C127_box (h1.symm.trans h2) scale h1).1 hs, by simp [inSize, h1]⟩
    | true =>
      obtain ⟨y, e1, e2, -⟩ := (C127_box (h1.symm.trans h2) scale h1).2 hs
      exact ⟨y, e1, e2.trans h1⟩
  | multiBinary n =>
    cases o <;> first | exact h.elim | skip
    simp only [observationInput, h.1, if_true]
    exact ⟨_, rfl, by simp [inSize, h.1]⟩
  | multiDiscrete nvec =>
    cases o <;> first | exact h.elim | skip
    rename_i l
    simp only [observationInput, (List.Forall₂.length_eq h).symm, if_true]
    refine ⟨_, rfl, ?_⟩
    have h : List.Forall₂ (fun (n : ℕ) (i : ℤ) => 0 ≤ i ∧ i < n) nvec l := h
    exact flat_length h
  | other => exact h.elim

example : observationInput (K := ℚ) (.multiDiscrete [2, 3]) true (.ints [1, 0]) = .ok [some 0, some 1, some 1, some 0, some 0] := by decide +kernel

example : observationInput (K := ℚ) (.box [.fin 0, .fin 5] [.fin 255, .fin 5]) true (.vec [51, 5]) = .ok [some (1 / 5), none] := by decide +kernel

/-! ### Layers -/

/-- **C127.** A layer: weighted sums of all inputs plus the bias. -/
theorem C127_linear (θ : Vars K) (s : Scope) (n : ℕ) (x : List K) : (linear θ s n x).length = n ∧ ∀ j (h : j < (linear θ s n x).length), (linear θ s n x)[j] = ∑ i : Fin x.length, x[i] * θ.w s i j + θ.b s j := by
  refine ⟨by simp [linear], fun j h => ?_⟩
  have e : (linear θ s n x)[j] = (x.zipIdx.map fun p => p.1 * θ.w s p.2 j).sum + θ.b s j := by simp [linear]
  rw [e]
  congr 1
  rw [← List.sum_ofFn]
  congr 1
  refine List.ext_getElem (by simp) fun i h1 h2 => ?_
  simp

/-- The function of a chain of layers. -/
def run (θ : Vars K) (act : K → K) (net : List (Scope × ℕ)) (x : List K) : List K := net.foldl (fun x l => layer θ act l.1 l.2 x) x

/-- The layers of the given sizes, numbered from `i`. -/
def chain (sc : ℕ → Scope) (i : ℕ) (ns : List ℕ) : List (Scope × ℕ) := (ns.zipIdx i).map fun p => (sc p.2, p.1)

theorem branch_iff (θ : Vars K) (act : K → K) (sc : ℕ → Scope) : ∀ (l : List Size) (i : ℕ) (x y : List K), branch θ act sc i l x = .ok y ↔ ∃ ns : List ℕ, l = ns.map .int ∧ y = run θ act (chain sc i ns) x
  | [], i, x, y => by
    constructor
    · intro h; cases h; exact ⟨[], rfl, rfl⟩
    · rintro ⟨ns, h, rfl⟩
      rw [eq_comm, List.map_eq_nil_iff] at h
      subst h
      rfl
  | .int n :: t, i, x, y => by
    rw [branch, branch_iff θ act sc t]
    constructor
    · rintro ⟨ns, rfl, rfl⟩
      exact ⟨n :: ns, rfl, rfl⟩
    · rintro ⟨ns, h, rfl⟩
      cases ns with
      | nil => cases h
      | cons m ns =>
        simp only [List.map_cons, List.cons.injEq, Size.int.injEq] at h
        obtain ⟨rfl, rfl⟩ := h
        exact ⟨ns, rfl, rfl⟩
  | .lstm :: t, i, x, y => by
    refine ⟨fun h => (by cases h), fun ⟨ns, h, _⟩ => ?_⟩
    cases ns <;> simp at h
  | .other :: t, i, x, y => by
    refine ⟨fun h => (by cases h), fun ⟨ns, h, _⟩ => ?_⟩
    cases ns <;> simp at h

/-- The dict holds this list under a key, or nothing and the list is empty. -/
def Holds (f : Field_) (l : List Size) : Prop := f = .absent ∧ l = [] ∨ f = .list l

theorem get_iff (f : Field_) (l : List Size) : f.get = .ok l ↔ Holds f l := by
  cases f <;> simp [Field_.get, Holds, eq_comm]

/-- The end of `net_arch`: nothing, or a dict and whatever follows it. -/
def Tail (t : List Item) (p v : List Size) : Prop := t = [] ∧ p = [] ∧ v = [] ∨ ∃ pf vf rest, t = .dict pf vf :: rest ∧ Holds pf p ∧ Holds vf v

theorem shared_iff (θ : Vars K) (act : K → K) : ∀ (arch : List Item) (i : ℕ) (x y : List K) (p v : List Size), sharedLoop θ act i arch x = .ok (y, p, v) ↔
    ∃ (ns : List ℕ) (t : List Item), arch = ns.map (fun n => .size (.int n)) ++ t ∧ Tail t p v ∧ y = run θ act (chain .shared i ns) x
  | [], i, x, y, p, v => by
    constructor
    · intro h; cases h; exact ⟨[], [], rfl, Or.inl ⟨rfl, rfl, rfl⟩, rfl⟩
    · rintro ⟨ns, t, h, ht, rfl⟩
      obtain ⟨h1, rfl⟩ := List.append_eq_nil_iff.1 h.symm
      rw [List.map_eq_nil_iff] at h1
      subst h1
      rcases ht with ⟨-, rfl, rfl⟩ | ⟨_, _, _, h, -⟩
      · rfl
      · cases h
  | .size (.int n) :: t, i, x, y, p, v => by
    rw [sharedLoop, shared_iff θ act t]
    constructor
    · rintro ⟨ns, t', rfl, ht, rfl⟩
      exact ⟨n :: ns, t', rfl, ht, rfl⟩
    · rintro ⟨ns, t', h, ht, rfl⟩
      cases ns with
      | nil =>
        simp only [List.map_nil, List.nil_append] at h
        subst h
        rcases ht with ⟨h, -⟩ | ⟨_, _, _, h, -⟩ <;> cases h
      | cons m ns =>
        simp only [List.map_cons, List.cons_append, List.cons.injEq, Item.size.injEq, Size.int.injEq] at h
        obtain ⟨rfl, rfl⟩ := h
        exact ⟨ns, t', rfl, ht, rfl⟩
  | .size .lstm :: t, i, x, y, p, v => by
    refine ⟨fun h => (by cases h), fun ⟨ns, t', h, ht, _⟩ => ?_⟩
    cases ns with
    | nil =>
      simp only [List.map_nil, List.nil_append] at h
      subst h
      rcases ht with ⟨h, -⟩ | ⟨_, _, _, h, -⟩ <;> cases h
    | cons m ns => simp at h
  | .size .other :: t, i, x, y, p, v => by
    refine ⟨fun h => (by cases h), fun ⟨ns, t', h, ht, _⟩ => ?_⟩
    cases ns with
    | nil =>
      simp only [List.map_nil, List.nil_append] at h
      subst h
      rcases ht with ⟨h, -⟩ | ⟨_, _, _, h, -⟩ <;> cases h
    | cons m ns => simp at h
  | .dict pf vf :: t, i, x, y, p, v => by
    rw [sharedLoop]
    constructor
    · intro h
      cases hp : pf.get with
      | error e => rw [hp] at h; cases h
      | ok p' =>
        cases hv : vf.get with
        | error e => rw [hp, hv] at h; cases h
        | ok v' =>
          rw [hp, hv] at h
          cases h
          exact ⟨[], _, rfl, Or.inr ⟨pf, vf, t, rfl, (get_iff _ _).1 hp, (get_iff _ _).1 hv⟩, rfl⟩
    · rintro ⟨ns, t', h, ht, rfl⟩
      cases ns with
      | nil =>
        simp only [List.map_nil, List.nil_append] at h
        subst h
        rcases ht with ⟨h, -⟩ | ⟨_, _, _, h, h1, h2⟩
        · cases h
        · cases h
          rw [(get_iff _ _).2 h1, (get_iff _ _).2 h2]
          rfl
      | cons m ns => simp at h

/-- An architecture: shared layers, then a dict with the layers of the two networks, or nothing; what follows a dict is not looked at. -/
def Arch (arch : List Item) (sh p v : List ℕ) : Prop := ∃ t, arch = sh.map (fun n => .size (.int n)) ++ t ∧ Tail t (p.map .int) (v.map .int)

/-- **C127.** `mlp_extractor` accepts exactly the architectures, and gives the two chains of layers: the shared ones, and then those of the policy or of the value. -/
theorem C127_mlp (θ : Vars K) (act : K → K) (arch : List Item) (x a b : List K) : mlpExtractor θ act arch x = .ok (a, b) ↔
    ∃ sh p v, Arch arch sh p v ∧ a = run θ act (chain .shared 0 sh ++ chain .pi 0 p) x ∧ b = run θ act (chain .shared 0 sh ++ chain .vf 0 v) x := by
  have hrun : ∀ n1 n2, run θ act (n1 ++ n2) x = run θ act n2 (run θ act n1 x) := fun n1 n2 => List.foldl_append
  unfold mlpExtractor
  constructor
  · intro h
    cases hs : sharedLoop θ act 0 arch x with
    | error e => rw [hs] at h; cases h
    | ok r =>
      obtain ⟨y, p, v⟩ := r
      rw [hs] at h
      simp only [bind, Except.bind] at h
      cases hp : branch θ act .pi 0 p y with
      | error e => rw [hp] at h; cases h
      | ok a' =>
        cases hv : branch θ act .vf 0 v y with
        | error e => rw [hp, hv] at h; cases h
        | ok b' =>
          rw [hp, hv] at h
          cases h
          obtain ⟨sh, t, e1, e2, rfl⟩ := (shared_iff θ act arch 0 x y p v).1 hs
          obtain ⟨ps, rfl, rfl⟩ := (branch_iff θ act .pi p 0 _ a).1 hp
          obtain ⟨vs, rfl, rfl⟩ := (branch_iff θ act .vf v 0 _ b).1 hv
          exact ⟨sh, ps, vs, ⟨t, e1, e2⟩, (hrun _ _).symm, (hrun _ _).symm⟩
  · rintro ⟨sh, p, v, ⟨t, e1, e2⟩, rfl, rfl⟩
    rw [(shared_iff θ act arch 0 x _ _ _).2 ⟨sh, t, e1, e2, rfl⟩]
    simp only [bind, Except.bind]
    rw [(branch_iff θ act .pi _ 0 _ _).2 ⟨p, rfl, rfl⟩]
    simp only
    rw [(branch_iff θ act .vf _ 0 _ _).2 ⟨v, rfl, rfl⟩]
    simp only
    rw [hrun, hrun]

theorem run_length (θ : Vars K) (act : K → K) : ∀ (net : List (Scope × ℕ)) (x : List K), (run θ act net x).length = ((net.map Prod.snd).getLast?).getD x.length
  | [], x => rfl
  | [l], x => by simp [run, layer, linear]
  | l :: l' :: net, x => by
    have := run_length θ act (l' :: net) (layer θ act l.1 l.2 x)
    rw [show run θ act (l :: l' :: net) x = run θ act (l' :: net) (layer θ act l.1 l.2 x) from rfl, this]
    simp [List.getLast?_cons]

/-- **C127.** The latent vectors have the size of the last layer, or of the observation without layers. -/
theorem C127_sizes {θ : Vars K} {act : K → K} {arch : List Item} {x a b : List K} (h : mlpExtractor θ act arch x = .ok (a, b)) {sh p v : List ℕ} (hA : Arch arch sh p v) :
    a.length = ((sh ++ p).getLast?).getD x.length ∧ b.length = ((sh ++ v).getLast?).getD x.length := by
  have he := (C127_mlp θ act arch x _ _).2 ⟨sh, p, v, hA, rfl, rfl⟩
  rw [h] at he
  simp only [Except.ok.injEq, Prod.mk.injEq] at he
  have hc : ∀ (sc : ℕ → Scope) (i : ℕ) (ns : List ℕ), (chain sc i ns).map Prod.snd = ns := fun sc i ns => by
    simp [chain, Function.comp_def, List.zipIdx_map_fst]
  rw [he.1, he.2, run_length, run_length, List.map_append, List.map_append, hc, hc, hc]
  exact ⟨rfl, rfl⟩

/-- **C127 (defect).** What follows the dict in `net_arch` is silently ignored. -/
theorem C127_ignored (θ : Vars K) (act : K → K) (l : List Item) (pf vf : Field_) (rest rest' : List Item) (x : List K) : mlpExtractor θ act (l ++ .dict pf vf :: rest) x = mlpExtractor θ act (l ++ .dict pf vf :: rest') x := by
  have h : ∀ (l : List Item) (i : ℕ) (x : List K), sharedLoop θ act i (l ++ .dict pf vf :: rest) x = sharedLoop θ act i (l ++ .dict pf vf :: rest') x := by
    intro l
    induction l with
    | nil => intro i x; rfl
    | cons a l ih =>
      intro i x
      cases a with
      | dict p v => rfl
      | size s =>
        cases s with
        | int n => exact ih (i + 1) _
        | lstm => rfl
        | other => rfl
  unfold mlpExtractor
  rw [h]

theorem run_congr {θ θ' : Vars K} (act : K → K) : ∀ (net : List (Scope × ℕ)) (x : List K), (∀ l ∈ net, θ.w l.1 = θ'.w l.1 ∧ θ.b l.1 = θ'.b l.1) → run θ act net x = run θ' act net x
  | [], x, _ => rfl
  | l :: net, x, h => by
    obtain ⟨h1, h2⟩ := h l (by simp)
    have e : layer θ act l.1 l.2 x = layer θ' act l.1 l.2 x := by
      unfold layer linear
      rw [h1, h2]
    rw [show run θ act (l :: net) x = run θ act net (layer θ act l.1 l.2 x) from rfl, show run θ' act (l :: net) x = run θ' act net (layer θ' act l.1 l.2 x) from rfl, e]
    exact run_congr act net _ fun a ha => h a (by simp [ha])

theorem mem_chain {sc : ℕ → Scope} {i : ℕ} {ns : List ℕ} {l : Scope × ℕ} (h : l ∈ chain sc i ns) : ∃ k, l.1 = sc k := by
  obtain ⟨p, -, rfl⟩ := List.mem_map.1 h
  exact ⟨p.2, rfl⟩

/-- **C127.** The two networks share only the shared layers: the latent policy does not depend on the variables of the value layers, nor the latent value on those of the policy layers; without separate layers they are the same. -/
theorem C127_separate {θ θ' : Vars K} {act : K → K} {arch : List Item} {x a b a' b' : List K} (h : mlpExtractor θ act arch x = .ok (a, b)) (h' : mlpExtractor θ' act arch x = .ok (a', b'))
    (hs : ∀ i, θ.w (.shared i) = θ'.w (.shared i) ∧ θ.b (.shared i) = θ'.b (.shared i)) :
    ((∀ i, θ.w (.pi i) = θ'.w (.pi i) ∧ θ.b (.pi i) = θ'.b (.pi i)) → a = a') ∧ ((∀ i, θ.w (.vf i) = θ'.w (.vf i) ∧ θ.b (.vf i) = θ'.b (.vf i)) → b = b') ∧ (∀ sh, Arch arch sh [] [] → a = b) := by
  obtain ⟨sh, p, v, hA, e1, e2⟩ := (C127_mlp θ act arch x a b).1 h
  have h2 := (C127_mlp θ' act arch x _ _).2 ⟨sh, p, v, hA, rfl, rfl⟩
  rw [h'] at h2
  simp only [Except.ok.injEq, Prod.mk.injEq] at h2
  refine ⟨fun hp => ?_, fun hv => ?_, fun sh' hA' => ?_⟩
  · rw [e1, h2.1]
    refine run_congr act _ _ fun l hl => ?_
    rcases List.mem_append.1 hl with hl | hl
    · obtain ⟨k, hk⟩ := mem_chain hl; rw [hk]; exact hs k
    · obtain ⟨k, hk⟩ := mem_chain hl; rw [hk]; exact hp k
  · rw [e2, h2.2]
    refine run_congr act _ _ fun l hl => ?_
    rcases List.mem_append.1 hl with hl | hl
    · obtain ⟨k, hk⟩ := mem_chain hl; rw [hk]; exact hs k
    · obtain ⟨k, hk⟩ := mem_chain hl; rw [hk]; exact hv k
  · have h3 := (C127_mlp θ act arch x _ _).2 ⟨sh', [], [], hA', rfl, rfl⟩
    rw [h] at h3
    simp only [Except.ok.injEq, Prod.mk.injEq] at h3
    rw [h3.1, h3.2]
    rfl

theorem digits_inj {m n : ℕ} (h : Nat.toDigits 10 m = Nat.toDigits 10 n) : m = n := by
  have := congrArg (Nat.ofDigitChars 10 · 0) h
  simpa [Nat.ofDigitChars_ten_toDigits] using this

/-- The names, letter by letter. -/
def spelled : Scope → Str
  | .shared i => ['s', 'h', 'a', 'r', 'e', 'd', '_', 'f', 'c'] ++ Nat.toDigits 10 i
  | .pi i => ['p', 'i', '_', 'f', 'c'] ++ Nat.toDigits 10 i
  | .vf i => ['v', 'f', '_', 'f', 'c'] ++ Nat.toDigits 10 i
  | .piHead => ['p', 'i']
  | .qHead => ['q']
  | .vfHead => ['v', 'f']

theorem name_spelled (s : Scope) : s.name = spelled s := by
  cases s with
  | shared i => exact congrArg (· ++ Nat.toDigits 10 i) (by decide : "shared_fc".toList = ['s', 'h', 'a', 'r', 'e', 'd', '_', 'f', 'c'])
  | pi i => exact congrArg (· ++ Nat.toDigits 10 i) (by decide : "pi_fc".toList = ['p', 'i', '_', 'f', 'c'])
  | vf i => exact congrArg (· ++ Nat.toDigits 10 i) (by decide : "vf_fc".toList = ['v', 'f', '_', 'f', 'c'])
  | piHead => exact (by decide : "pi".toList = ['p', 'i'])
  | qHead => exact (by decide : "q".toList = ['q'])
  | vfHead => exact (by decide : "vf".toList = ['v', 'f'])

/-- **C127.** No two layers have the same name, so none takes the variables of another. -/
theorem C127_names : Function.Injective Scope.name := by
  intro a b h
  rw [name_spelled, name_spelled] at h
  cases a <;> cases b <;> simp only [spelled, List.cons_append, List.nil_append, List.cons.injEq, reduceCtorEq, false_and, and_false, true_and, Char.reduceEq] at h <;> first | rw [digits_inj h] | rfl

/-! ### The policies -/

/-- **C127.** The heads: as many policy outputs and q-values as the action space asks for, one value; the parameters of a Gaussian are the means and then the variables `logstd`. -/
theorem C127_heads (θ : Vars K) (k : ActKind) (pi vf : List K) : let o := heads θ k pi vf
    o.policy = linear θ .piHead k.size pi ∧ o.value = linear θ .vfHead 1 vf ∧ o.q = linear θ .qHead k.size vf ∧ o.value.length = 1 ∧ o.policy.length = k.size ∧ o.q.length = k.size ∧
    (∀ n, k = .box n → o.pdparam = o.policy ++ (List.range n).map θ.logstd) ∧ ((∀ n, k ≠ .box n) → o.pdparam = o.policy) := by
  refine ⟨rfl, rfl, rfl, by simp [heads, linear], by simp [heads, linear], by simp [heads, linear], ?_, ?_⟩
  · rintro n rfl
    simp only [heads]
    congr 1
    refine List.ext_getElem (by simp [linear, ActKind.size]) fun i h1 h2 => ?_
    simp
  · intro h
    cases k with
    | box n => exact absurd rfl (h n)
    | _ => rfl

/-- **C127.** A feed-forward policy.  Without `net_arch` the networks of policy and value are separate, of the sizes in `layers` or 64 and 64; with it they are those of `mlp_extractor`.
**Defect**: a CNN policy ignores `layers` and `net_arch`, even wrong ones. -/
theorem C127_feedforward (θ : Vars K) (act : K → K) (fe : Fe) (extra : Bool) (layers : Option (List Size)) (arch : Option (List Item)) (k : ActKind) (cnn : List K → List K) (x : List K) :
    (fe = .mlp → extra = true → feedForward θ act fe extra layers arch k cnn x = .error .valueError) ∧
    (fe = .cnn → feedForward θ act fe extra layers arch k cnn x = .ok (heads θ k (cnn x) (cnn x))) ∧
    (fe = .mlp → extra = false → ∀ o, feedForward θ act fe extra layers arch k cnn x = .ok o ↔ ∃ sh p v,
      (match arch, layers with
        | some a, _ => Arch a sh p v
        | none, some l => sh = [] ∧ l = p.map .int ∧ v = p
        | none, none => sh = [] ∧ p = [64, 64] ∧ v = [64, 64]) ∧
      o = heads θ k (run θ act (chain .shared 0 sh ++ chain .pi 0 p) x) (run θ act (chain .shared 0 sh ++ chain .vf 0 v) x)) := by
  refine ⟨fun h1 h2 => by simp [feedForward, h1, h2], fun h => by simp [feedForward, h], fun h1 h2 o => ?_⟩
  subst h1 h2
  have key : ∀ a : List Item, ((do let r ← mlpExtractor θ act a x; .ok (heads θ k r.1 r.2)) : Py (Outputs K)) = .ok o ↔
      ∃ sh p v, Arch a sh p v ∧ o = heads θ k (run θ act (chain .shared 0 sh ++ chain .pi 0 p) x) (run θ act (chain .shared 0 sh ++ chain .vf 0 v) x) := by
    intro a
    constructor
    · intro h
      cases hm : mlpExtractor θ act a x with
      | error e => rw [hm] at h; cases h
      | ok r =>
        rw [hm] at h
        cases h
        obtain ⟨sh, p, v, h1, h2, h3⟩ := (C127_mlp θ act a x r.1 r.2).1 hm
        exact ⟨sh, p, v, h1, by rw [← h2, ← h3]⟩
    · rintro ⟨sh, p, v, h1, rfl⟩
      rw [(C127_mlp θ act a x _ _).2 ⟨sh, p, v, h1, rfl, rfl⟩]
      rfl
  have one : ∀ (l : List Size) (sh p v : List ℕ), Arch [.dict (.list l) (.list l)] sh p v ↔ sh = [] ∧ l = p.map .int ∧ v = p := by
    intro l sh p v
    constructor
    · rintro ⟨t, h1, h2⟩
      cases sh with
      | cons m sh => simp at h1
      | nil =>
        simp only [List.map_nil, List.nil_append] at h1
        subst h1
        rcases h2 with ⟨h, -⟩ | ⟨pf, vf, rest, h, h3, h4⟩
        · cases h
        · cases h
          rcases h3 with ⟨h3, -⟩ | h3 <;> rcases h4 with ⟨h4, -⟩ | h4 <;> first | cases h3 <;> done | cases h4 <;> done | skip
          simp only [Field_.list.injEq] at h3 h4
          refine ⟨rfl, h3, ?_⟩
          exact List.map_injective_iff.2 (fun a b hab => by simpa using hab) (h4.symm.trans h3)
    · rintro ⟨rfl, rfl, rfl⟩
      exact ⟨_, rfl, Or.inr ⟨_, _, [], rfl, Or.inr rfl, Or.inr rfl⟩⟩
  unfold feedForward
  rw [if_neg (by simp)]
  simp only
  rw [if_neg (by simp), key]
  cases arch with
  | some a => rfl
  | none =>
    cases layers with
    | some l => simp only [Option.getD_none, Option.getD_some, one]
    | none =>
      simp only [Option.getD_none, one]
      constructor
      · rintro ⟨sh, p, v, ⟨rfl, h, hv⟩, rfl⟩
        subst hv
        have e : ([64, 64] : List ℕ).map Size.int = v.map .int := h
        have := List.map_injective_iff.2 (fun a b hab => by simpa using hab) e
        subst this
        exact ⟨[], [64, 64], [64, 64], ⟨rfl, rfl, rfl⟩, rfl⟩
      · rintro ⟨sh, p, v, ⟨rfl, rfl, rfl⟩, rfl⟩
        exact ⟨[], _, _, ⟨rfl, rfl, rfl⟩, rfl⟩

theorem lstmBranch_iff (θ : Vars K) (act : K → K) (sc : ℕ → Scope) : ∀ (l : List Size) (i : ℕ) (x y : List (List K)), lstmBranch θ act sc i l x = .ok y ↔ ∃ ns : List ℕ, l = ns.map .int ∧ y = x.map (run θ act (chain sc i ns))
  | [], i, x, y => by
    have hid : run θ act (chain sc i []) = id := rfl
    constructor
    · intro h; cases h; exact ⟨[], rfl, by rw [hid, List.map_id]⟩
    · rintro ⟨ns, h, rfl⟩
      rw [eq_comm, List.map_eq_nil_iff] at h
      subst h
      rw [hid, List.map_id]
      rfl
  | .int n :: t, i, x, y => by
    rw [lstmBranch, lstmBranch_iff θ act sc t]
    constructor
    · rintro ⟨ns, rfl, rfl⟩
      exact ⟨n :: ns, rfl, by rw [List.map_map]; rfl⟩
    · rintro ⟨ns, h, rfl⟩
      cases ns with
      | nil => cases h
      | cons m ns =>
        simp only [List.map_cons, List.cons.injEq, Size.int.injEq] at h
        obtain ⟨rfl, rfl⟩ := h
        exact ⟨ns, rfl, by rw [List.map_map]; rfl⟩
  | .lstm :: t, i, x, y => by
    refine ⟨fun h => (by cases h), fun ⟨ns, h, _⟩ => ?_⟩
    cases ns <;> simp at h
  | .other :: t, i, x, y => by
    refine ⟨fun h => (by cases h), fun ⟨ns, h, _⟩ => ?_⟩
    cases ns <;> simp at h

/-- The loop over `net_arch` of a recurrent policy: sizes, then the end or the recurrent layer. -/
theorem lstmLoop_iff (θ : Vars K) (act : K → K) (rnn : List (List K) → List (List K)) : ∀ (arch : List Item) (i : ℕ) (x : List (List K)) (c : Bool) (y : List (List K)) (c' : Bool) (p v : List Size), lstmLoop θ act rnn i arch x c = .ok (y, c', p, v) ↔
    ∃ (ns : List ℕ) (t : List Item), arch = ns.map (fun n => .size (.int n)) ++ t ∧
      ((Tail t p v ∧ c' = c ∧ y = x.map (run θ act (chain .shared i ns))) ∨
        (c = false ∧ ∃ t', t = .size .lstm :: t' ∧ lstmLoop θ act rnn (i + ns.length + 1) t' (rnn (x.map (run θ act (chain .shared i ns)))) true = .ok (y, c', p, v)))
  | [], i, x, c, y, c', p, v => by
    have hid : run θ act (chain .shared i []) = id := rfl
    constructor
    · intro h; cases h; exact ⟨[], [], rfl, Or.inl ⟨Or.inl ⟨rfl, rfl, rfl⟩, rfl, by rw [hid, List.map_id]⟩⟩
    · rintro ⟨ns, t, h, ht⟩
      obtain ⟨h1, rfl⟩ := List.append_eq_nil_iff.1 h.symm
      rw [List.map_eq_nil_iff] at h1
      subst h1
      rcases ht with ⟨⟨-, rfl, rfl⟩ | ⟨_, _, _, h, -⟩, rfl, rfl⟩ | ⟨_, _, h, _⟩
      · rw [hid, List.map_id]; rfl
      · cases h
      · cases h
  | .size (.int n) :: t, i, x, c, y, c', p, v => by
    have hm : ∀ ns : List ℕ, (x.map (layer θ act (.shared i) n)).map (run θ act (chain .shared (i + 1) ns)) = x.map (run θ act (chain .shared i (n :: ns))) := fun ns => by
      rw [List.map_map]; rfl
    have hi : ∀ k : ℕ, i + 1 + k + 1 = i + (k + 1) + 1 := fun k => by omega
    rw [lstmLoop, lstmLoop_iff θ act rnn t]
    constructor
    · rintro ⟨ns, t', rfl, ht⟩
      refine ⟨n :: ns, t', rfl, ?_⟩
      rw [List.length_cons, ← hm, ← hi]
      exact ht
    · rintro ⟨ns, t', h, ht⟩
      cases ns with
      | nil =>
        simp only [List.map_nil, List.nil_append] at h
        subst h
        rcases ht with ⟨⟨h, -⟩ | ⟨_, _, _, h, -⟩, -⟩ | ⟨_, _, h, _⟩ <;> cases h
      | cons m ns =>
        simp only [List.map_cons, List.cons_append, List.cons.injEq, Item.size.injEq, Size.int.injEq] at h
        obtain ⟨rfl, rfl⟩ := h
        refine ⟨ns, t', rfl, ?_⟩
        rw [List.length_cons, ← hm, ← hi] at ht
        exact ht
  | .size .lstm :: t, i, x, c, y, c', p, v => by
    have hid : run θ act (chain .shared i []) = id := rfl
    rw [lstmLoop]
    constructor
    · intro h
      cases c with
      | true => cases h
      | false =>
        refine ⟨[], _, rfl, Or.inr ⟨rfl, t, rfl, ?_⟩⟩
        rw [hid, List.map_id]
        exact h
    · rintro ⟨ns, t', h, ht⟩
      cases ns with
      | nil =>
        simp only [List.map_nil, List.nil_append] at h
        subst h
        rcases ht with ⟨⟨h, -⟩ | ⟨_, _, _, h, -⟩, -⟩ | ⟨rfl, _, h, h2⟩
        · cases h
        · cases h
        · cases h
          rw [hid, List.map_id] at h2
          exact h2
      | cons m ns => simp at h
  | .size .other :: t, i, x, c, y, c', p, v => by
    refine ⟨fun h => (by cases h), fun ⟨ns, t', h, ht⟩ => ?_⟩
    cases ns with
    | nil =>
      simp only [List.map_nil, List.nil_append] at h
      subst h
      rcases ht with ⟨⟨h, -⟩ | ⟨_, _, _, h, -⟩, -⟩ | ⟨_, _, h, _⟩ <;> cases h
    | cons m ns => simp at h
  | .dict pf vf :: t, i, x, c, y, c', p, v => by
    have hid : run θ act (chain .shared i []) = id := rfl
    rw [lstmLoop]
    constructor
    · intro h
      cases hp : pf.get with
      | error e => rw [hp] at h; cases h
      | ok p' =>
        cases hv : vf.get with
        | error e => rw [hp, hv] at h; cases h
        | ok v' =>
          rw [hp, hv] at h
          cases h
          exact ⟨[], _, rfl, Or.inl ⟨Or.inr ⟨pf, vf, t, rfl, (get_iff _ _).1 hp, (get_iff _ _).1 hv⟩, rfl, by rw [hid, List.map_id]⟩⟩
    · rintro ⟨ns, t', h, ht⟩
      cases ns with
      | nil =>
        simp only [List.map_nil, List.nil_append] at h
        subst h
        rcases ht with ⟨⟨h, -⟩ | ⟨_, _, _, h, h1, h2⟩, rfl, rfl⟩ | ⟨_, _, h, _⟩
        · cases h
        · cases h
          rw [(get_iff _ _).2 h1, (get_iff _ _).2 h2, hid, List.map_id]
          rfl
        · cases h
      | cons m ns => simp at h

/-- An architecture of a recurrent policy: sizes, the recurrent layer, sizes, and a dict or nothing. -/
def RecArch (arch : List Item) (pre post p v : List ℕ) : Prop := ∃ t, arch = pre.map (fun n => .size (.int n)) ++ .size .lstm :: (post.map (fun n => .size (.int n)) ++ t) ∧ Tail t (p.map .int) (v.map .int)

/-- **C127.** A recurrent policy with `net_arch`: accepted are exactly the architectures with one recurrent layer, before the dict, and no CNN; the outputs are the layers before it, the recurrent layer on the whole batch, the shared layers after it (which are numbered on) and those of policy and value. -/
theorem C127_lstm (θ : Vars K) (act : K → K) (fe : Fe) (arch : List Item) (k : ActKind) (rnn : List (List K) → List (List K)) (x : List (List K)) (o : List (Outputs K)) : lstmPolicy θ act fe arch k rnn x = .ok o ↔
    fe ≠ .cnn ∧ ∃ pre post p v, RecArch arch pre post p v ∧
      o = (rnn (x.map (run θ act (chain .shared 0 pre)))).map fun l =>
        let m := run θ act (chain .shared (pre.length + 1) post) l
        heads θ k (run θ act (chain .pi 0 p) m) (run θ act (chain .vf 0 v) m) := by
  have hz : ∀ (l : List (List K)) (f g : List K → List K), List.zipWith (heads θ k) (l.map f) (l.map g) = l.map fun a => heads θ k (f a) (g a) := fun l f g => by
    rw [List.zipWith_map, List.zipWith_self]
  unfold lstmPolicy
  constructor
  · intro h
    by_cases hf : fe = .cnn
    · rw [if_pos hf] at h; cases h
    rw [if_neg hf] at h
    refine ⟨hf, ?_⟩
    cases hs : lstmLoop θ act rnn 0 arch x false with
    | error e => rw [hs] at h; cases h
    | ok r =>
      obtain ⟨y, c, p, v⟩ := r
      rw [hs] at h
      simp only [bind, Except.bind] at h
      cases hp : lstmBranch θ act .pi 0 p y with
      | error e => rw [hp] at h; cases h
      | ok a' =>
        cases hv : lstmBranch θ act .vf 0 v y with
        | error e => rw [hp, hv] at h; cases h
        | ok b' =>
          rw [hp, hv] at h
          simp only at h
          cases c with
          | false => cases h
          | true =>
            cases h
            obtain ⟨pre, t, rfl, ⟨_, h, _⟩ | ⟨-, t', rfl, h2⟩⟩ := (lstmLoop_iff θ act rnn arch 0 x false y true p v).1 hs
            · cases h
            obtain ⟨post, t, rfl, ⟨h3, -, rfl⟩ | ⟨h, -⟩⟩ := (lstmLoop_iff θ act rnn t' _ _ true y true p v).1 h2
            · obtain ⟨ps, rfl, rfl⟩ := (lstmBranch_iff θ act .pi p 0 _ a').1 hp
              obtain ⟨vs, rfl, rfl⟩ := (lstmBranch_iff θ act .vf v 0 _ b').1 hv
              refine ⟨pre, post, ps, vs, ⟨t, rfl, h3⟩, ?_⟩
              rw [hz, List.map_map, Nat.zero_add]
              rfl
            · cases h
  · rintro ⟨hf, pre, post, p, v, ⟨t, e1, e2⟩, rfl⟩
    rw [if_neg hf, (lstmLoop_iff θ act rnn arch 0 x false _ true (p.map .int) (v.map .int)).2 ⟨pre, _, e1, Or.inr ⟨rfl, _, rfl, (lstmLoop_iff θ act rnn _ _ _ true _ true _ _).2 ⟨post, t, rfl, Or.inl ⟨e2, rfl, rfl⟩⟩⟩⟩]
    simp only [bind, Except.bind]
    rw [(lstmBranch_iff θ act .pi _ 0 _ _).2 ⟨p, rfl, rfl⟩]
    simp only
    rw [(lstmBranch_iff θ act .vf _ 0 _ _).2 ⟨v, rfl, rfl⟩]
    simp only [if_true]
    rw [hz, List.map_map, Nat.zero_add]
    rfl

/-- **C127.** Without `net_arch` (the older parameter `layers`): the layers, of sizes 64 and 64 by default, come before the recurrent layer, and both heads take its output. -/
theorem C127_lstm_legacy (θ : Vars K) (act : K → K) (fe : Fe) (layers : Option (List ℕ)) (k : ActKind) (cnn : List K → List K) (rnn : List (List K) → List (List K)) (x : List (List K)) :
    ∃ f : List K → List K, lstmLegacy θ act fe layers k cnn rnn x = (rnn (x.map f)).map (fun l => heads θ k l l) ∧ (fe = .cnn → f = cnn) ∧
      (fe ≠ .cnn → f = run θ act (chain .pi 0 (layers.getD [64, 64]))) := by
  unfold lstmLegacy
  by_cases h : fe = .cnn
  · exact ⟨cnn, by simp [h], fun _ => rfl, fun h' => absurd h h'⟩
  · refine ⟨run θ act (chain .pi 0 (layers.getD [64, 64])), ?_, fun h' => absurd h' h, fun _ => rfl⟩
    simp only [if_neg h]
    congr 2
    refine List.map_congr_left fun o _ => ?_
    simp only [run, chain, List.foldl_map]

/-- A network with weights 1 and biases 0. -/
def exV : Vars ℚ := { w := fun _ _ _ => 1, b := fun _ _ => 0, logstd := fun i => i }

example : mlpExtractor exV id [.size (.int 2), .dict (.list [.int 3]) .absent, .size .other] [1, 2] = .ok ([6, 6, 6], [3, 3]) := by decide +kernel

example : Arch [.size (.int 2), .dict (.list [.int 3]) .absent, .size .other] [2] [3] [] := ⟨_, rfl, Or.inr ⟨_, _, _, rfl, Or.inr rfl, Or.inl ⟨rfl, rfl⟩⟩⟩

example : lstmPolicy exV id .mlp [.size (.int 1), .size .lstm, .size (.int 1)] (.box 2) List.reverse [[1, 2], [4]] = .ok [⟨[4, 4, 0, 1], [4, 4], [4], [4, 4]⟩, ⟨[3, 3, 0, 1], [3, 3], [3], [3, 3]⟩] := by decide +kernel

example : lstmPolicy exV id .mlp [.size (.int 1)] (.box 2) List.reverse [[1, 2], [4]] = .error .valueError := by decide +kernel

/-- **C127 (defect).** `step` with a deterministic action returns the probability of another action, the one that was sampled in the same run. -/
theorem C127_step {A : Type} (sample mode : A) (neglogp : A → K) (value : K) : (step sample mode neglogp value true).1 = mode ∧ (step sample mode neglogp value false).1 = sample ∧
    (step sample mode neglogp value false).2.2 = neglogp (step sample mode neglogp value false).1 ∧
    ((step sample mode neglogp value true).2.2 = neglogp (step sample mode neglogp value true).1 ↔ neglogp sample = neglogp mode) := ⟨rfl, rfl, rfl, Iff.rfl⟩

example : (step (0 : ℚ) 1 (fun a => a) 7 true) = (1, 7, 0) := by decide +kernel

/-! ### Shapes and initial weights -/

/-- **C127.** The convolutions of `nature_cnn` need images of at least 36 by 36; the vector given to the last layer then has `64·((h-28)/8)·((w-28)/8)` components. -/
theorem C127_nature (h w : ℕ) : natureFlat h w = if 36 ≤ h ∧ 36 ≤ w then some (64 * ((h - 28) / 8) * ((w - 28) / 8)) else none := by
  have key : ∀ n, natureSide n = if 36 ≤ n then some ((n - 28) / 8) else none := by
    intro n
    unfold natureSide convSide
    by_cases h1 : 8 ≤ n
    · rw [if_pos h1, Option.bind_some]
      by_cases h2 : 4 ≤ (n - 8) / 4 + 1
      · rw [if_pos h2, Option.bind_some]
        by_cases h3 : 3 ≤ ((n - 8) / 4 + 1 - 4) / 2 + 1
        · rw [if_pos h3, if_pos (by omega)]
          congr 1
          omega
        · rw [if_neg h3, if_neg (by omega)]
      · rw [if_neg h2, if_neg (by omega)]
        rfl
    · rw [if_neg h1, if_neg (by omega)]
      rfl
  unfold natureFlat
  rw [key, key]
  by_cases h1 : 36 ≤ h <;> by_cases h2 : 36 ≤ w <;> simp only [h1, h2, if_true, if_false, and_self, and_true, and_false, Option.some.injEq]
  ring

example : natureFlat 84 84 = some 3136 ∧ natureFlat 35 84 = none := by decide

theorem ortho_pos {m n : ℕ} (scale : K) (u : Matrix (Fin m) (Fin (min m n)) K) (v : Matrix (Fin (min m n)) (Fin n) K) (h : min m n = n) (i : Fin m) (j : Fin n) : orthoInit scale u v i j = scale * u i (Fin.cast h.symm j) := by
  rw [orthoInit, Matrix.of_apply, dif_pos h]

theorem ortho_neg {m n : ℕ} (scale : K) (u : Matrix (Fin m) (Fin (min m n)) K) (v : Matrix (Fin (min m n)) (Fin n) K) (h : min m n ≠ n) (h' : m = min m n) (i : Fin m) (j : Fin n) : orthoInit scale u v i j = scale * v (Fin.cast h' i) j := by
  rw [orthoInit, Matrix.of_apply, dif_neg h]

open Matrix in
/-- **C127.** `ortho_init`: from a singular value decomposition (orthonormal columns of `u`, orthonormal rows of `v`) the initial weights have orthogonal columns of length `scale`, or orthogonal rows if there are more columns than rows (both for a square matrix). -/
theorem C127_ortho {m n : ℕ} (scale : K) (u : Matrix (Fin m) (Fin (min m n)) K) (v : Matrix (Fin (min m n)) (Fin n) K) (hu : uᵀ * u = 1) (hv : v * vᵀ = 1) :
    (n ≤ m → (orthoInit scale u v)ᵀ * orthoInit scale u v = scale ^ 2 • (1 : Matrix (Fin n) (Fin n) K)) ∧
    (m ≤ n → orthoInit scale u v * (orthoInit scale u v)ᵀ = scale ^ 2 • (1 : Matrix (Fin m) (Fin m) K)) := by
  have first : n ≤ m → (orthoInit scale u v)ᵀ * orthoInit scale u v = scale ^ 2 • (1 : Matrix (Fin n) (Fin n) K) := by
    intro h
    have hm : min m n = n := min_eq_right h
    ext i j
    have := congrFun (congrFun hu (Fin.cast hm.symm i)) (Fin.cast hm.symm j)
    simp only [Matrix.mul_apply, Matrix.transpose_apply, Matrix.one_apply, Fin.cast_inj] at this
    simp only [ortho_pos scale u v hm, Matrix.mul_apply, Matrix.transpose_apply, Matrix.smul_apply, Matrix.one_apply, smul_eq_mul]
    rw [← this, Finset.mul_sum]
    exact Finset.sum_congr rfl fun a _ => by ring
  refine ⟨first, fun h => ?_⟩
  rcases h.lt_or_eq with h | rfl
  · have hm : min m n = m := min_eq_left h.le
    have hn : min m n ≠ n := by omega
    ext i j
    have := congrFun (congrFun hv (Fin.cast hm.symm i)) (Fin.cast hm.symm j)
    simp only [Matrix.mul_apply, Matrix.transpose_apply, Matrix.one_apply, Fin.cast_inj] at this
    simp only [ortho_neg scale u v hn hm.symm, Matrix.mul_apply, Matrix.transpose_apply, Matrix.smul_apply, Matrix.one_apply, smul_eq_mul]
    rw [← this, Finset.mul_sum]
    exact Finset.sum_congr rfl fun a _ => by ring
  · have hm : min m m = m := min_self m
    have e : orthoInit scale u v = scale • (u.submatrix id (Fin.cast hm.symm)) := by
      ext i j
      simp [orthoInit]
    have h1 : (u.submatrix id (Fin.cast hm.symm))ᵀ * u.submatrix id (Fin.cast hm.symm) = 1 := by
      ext i j
      have := congrFun (congrFun hu (Fin.cast hm.symm i)) (Fin.cast hm.symm j)
      simp only [Matrix.mul_apply, Matrix.transpose_apply, Matrix.one_apply, Fin.cast_inj] at this
      simpa [Matrix.mul_apply, Matrix.one_apply] using this
    have h2 := mul_eq_one_comm.1 h1
    rw [e, Matrix.transpose_smul, Matrix.smul_mul, Matrix.mul_smul, h2, smul_smul, sq]

open Matrix in
/-- **C127.** So the first pass through such a layer never lengthens a vector by more than `scale`, and keeps its length times `scale` exactly if the layer has at least as many outputs as inputs. -/
theorem C127_gain {m n : ℕ} (scale : K) (u : Matrix (Fin m) (Fin (min m n)) K) (v : Matrix (Fin (min m n)) (Fin n) K) (hu : uᵀ * u = 1) (hv : v * vᵀ = 1) (x : Fin m → K) :
    (m ≤ n → (x ᵥ* orthoInit scale u v) ⬝ᵥ (x ᵥ* orthoInit scale u v) = scale ^ 2 * (x ⬝ᵥ x)) ∧ (x ᵥ* orthoInit scale u v) ⬝ᵥ (x ᵥ* orthoInit scale u v) ≤ scale ^ 2 * (x ⬝ᵥ x) := by
  obtain ⟨h1, h2⟩ := C127_ortho scale u v hu hv
  obtain ⟨W, hW⟩ : ∃ W, W = orthoInit scale u v := ⟨_, rfl⟩
  rw [← hW] at h1 h2 ⊢
  have iso : m ≤ n → (x ᵥ* W) ⬝ᵥ (x ᵥ* W) = scale ^ 2 * (x ⬝ᵥ x) := by
    intro h
    have : (x ᵥ* W) ⬝ᵥ (x ᵥ* W) = x ⬝ᵥ ((x ᵥ* W) ᵥ* Wᵀ) := by
      rw [Matrix.vecMul_transpose, dotProduct_mulVec]
    rw [this, Matrix.vecMul_vecMul, h2 h, Matrix.vecMul_smul, Matrix.vecMul_one, dotProduct_smul, smul_eq_mul]
  refine ⟨iso, ?_⟩
  rcases le_total m n with h | h
  · exact (iso h).le
  have h1 := h1 h
  obtain ⟨z, hz⟩ : ∃ z, z = x ᵥ* W := ⟨_, rfl⟩
  rw [← hz]
  by_cases hs : scale = 0
  · have : ∀ j, z j = 0 := fun j => by
      rw [hz, hW]
      show ∑ i, x i * orthoInit scale u v i j = 0
      refine Finset.sum_eq_zero fun i _ => ?_
      rw [ortho_pos scale u v (min_eq_right h), hs, zero_mul, mul_zero]
    have : z = 0 := funext this
    rw [this, hs]
    simp
  have hp : 0 < scale ^ 2 := by positivity
  -- 0 ≤ ‖s² x - W z‖² = s⁴ x·x - s² z·z
  have e1 : x ⬝ᵥ (W *ᵥ z) = z ⬝ᵥ z := by rw [dotProduct_mulVec, ← hz]
  have e2 : (W *ᵥ z) ⬝ᵥ (W *ᵥ z) = scale ^ 2 * (z ⬝ᵥ z) := by
    have : (W *ᵥ z) ⬝ᵥ (W *ᵥ z) = z ⬝ᵥ ((Wᵀ * W) *ᵥ z) := by
      rw [← Matrix.mulVec_mulVec, dotProduct_mulVec z, Matrix.vecMul_transpose]
    rw [this, h1, Matrix.smul_mulVec, Matrix.one_mulVec, dotProduct_smul, smul_eq_mul]
  have nn : 0 ≤ (scale ^ 2 • x - W *ᵥ z) ⬝ᵥ (scale ^ 2 • x - W *ᵥ z) := Finset.sum_nonneg fun i _ => mul_self_nonneg _
  have e3 : (scale ^ 2 • x - W *ᵥ z) ⬝ᵥ (scale ^ 2 • x - W *ᵥ z) = scale ^ 2 * (scale ^ 2 * (x ⬝ᵥ x) - z ⬝ᵥ z) := by
    simp only [sub_dotProduct, dotProduct_sub, smul_dotProduct, dotProduct_smul, smul_eq_mul]
    rw [dotProduct_comm (W *ᵥ z) x, e1, e2]
    ring
  rw [e3] at nn
  have := (mul_nonneg_iff_of_pos_left hp).1 nn
  linarith

open Matrix in
example : let u : Matrix (Fin 2) (Fin (min 2 1)) ℚ := .of fun i _ => if i = 0 then 3 / 5 else 4 / 5
    let v : Matrix (Fin (min 2 1)) (Fin 1) ℚ := .of fun _ _ => 1
    uᵀ * u = 1 ∧ v * vᵀ = (1 : Matrix (Fin (min 2 1)) (Fin (min 2 1)) ℚ) ∧ orthoInit 2 u v 0 0 = 6 / 5 := by decide +kernel

/-! ### The registry -/

theorem lookup_setKey {A B : Type} [DecidableEq A] [BEq A] [LawfulBEq A] (k a : A) (v : B) : ∀ l : List (A × B), (setKey k v l).lookup a = if a = k then some v else l.lookup a
  | [] => by
    by_cases h : a = k <;> simp [setKey, List.lookup, h]
    have : (a == k) = false := by simpa using h
    rw [this]
  | (x, y) :: t => by
    unfold setKey
    by_cases hx : x = k
    · rw [if_pos hx]
      subst hx
      by_cases h : a = x
      · simp [List.lookup, h]
      · have : (a == x) = false := by simpa using h
        simp [List.lookup, h, this]
    · rw [if_neg hx]
      by_cases h : a = x
      · subst h
        simp [List.lookup, hx]
      · have : (a == x) = false := by simpa using h
        simp only [List.lookup, this]
        exact lookup_setKey k a v t

/-- **C127.** Registering a policy makes its name stand for it, for the first base class it is below, and changes no other name of any class. -/
theorem C127_register {C P : Type} [DecidableEq C] {subs : List C} {sub : P → C → Bool} {r r' : Registry C P} {name : Str} {p : P} (h : registerPolicy subs sub r name p = .ok r') :
    ∃ c, subs.find? (sub p) = some c ∧ getPolicy r c name = .error .valueError ∧ getPolicy r' c name = .ok p ∧ ∀ c' name', (c', name') ≠ (c, name) → getPolicy r' c' name' = getPolicy r c' name' := by
  unfold registerPolicy at h
  cases hf : subs.find? (sub p) with
  | none => rw [hf] at h; cases h
  | some c =>
    rw [hf] at h
    simp only at h
    by_cases hd : (((r.lookup c).getD []).lookup name).isSome
    · rw [if_pos hd] at h; cases h
    · rw [if_neg hd] at h
      cases h
      rw [Bool.not_eq_true, Option.isSome_eq_false_iff, Option.isNone_iff_eq_none] at hd
      refine ⟨c, rfl, ?_, ?_, ?_⟩
      · unfold getPolicy
        cases hr : r.lookup c with
        | none => rfl
        | some d => rw [hr, Option.getD_some] at hd; simp only [hd]
      · unfold getPolicy
        rw [lookup_setKey, if_pos rfl]
        simp only
        rw [lookup_setKey, if_pos rfl]
      · intro c' name' hne
        unfold getPolicy
        rw [lookup_setKey]
        by_cases hc : c' = c
        · subst hc
          have hn : name' ≠ name := fun e => hne (by rw [e])
          simp only [if_true, lookup_setKey, if_neg hn]
          cases hr : r.lookup c' with
          | none => rfl
          | some d => rfl
        · rw [if_neg hc]

/-- **C127.** It is refused exactly if the policy is below no base class or its name is taken. -/
theorem C127_refused {C P : Type} [DecidableEq C] (subs : List C) (sub : P → C → Bool) (r : Registry C P) (name : Str) (p : P) :
    registerPolicy subs sub r name p = .error .valueError ↔ (∀ c ∈ subs, sub p c = false) ∨ ∃ c q, subs.find? (sub p) = some c ∧ getPolicy r c name = .ok q := by
  unfold registerPolicy
  cases hf : subs.find? (sub p) with
  | none =>
    refine ⟨fun _ => Or.inl fun c hc => ?_, fun _ => rfl⟩
    have := List.find?_eq_none.1 hf c hc
    simpa using this
  | some c =>
    simp only
    have h1 : ¬ ∀ c ∈ subs, sub p c = false := fun h => by
      have a := List.find?_some hf
      rw [h c (List.mem_of_find?_eq_some hf)] at a
      cases a
    unfold getPolicy
    cases hr : r.lookup c with
    | none =>
      simp only [Option.getD_none, List.lookup_nil, Option.isSome_none]
      refine ⟨fun h => by simp at h, fun h => ?_⟩
      rcases h with h | ⟨c', q, hc, h⟩
      · exact absurd h h1
      · cases hc; rw [hr] at h; cases h
    | some d =>
      rw [Option.getD_some]
      cases hd : d.lookup name with
      | none =>
        refine ⟨fun h => by simp at h, fun h => ?_⟩
        rcases h with h | ⟨c', q, hc, h⟩
        · exact absurd h h1
        · cases hc; rw [hr] at h; simp only [hd] at h; cases h
      | some q => exact ⟨fun _ => Or.inr ⟨c, q, rfl, by rw [hr]; simp only [hd]⟩, fun _ => rfl⟩

example : (registerPolicy ["A".toList, "B".toList] (fun p c => c == "B".toList) [] "x".toList 5).bind (fun r => getPolicy r "B".toList "x".toList) = .ok 5 := by decide

end Neorl.Nets

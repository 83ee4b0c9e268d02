import Verif.CG
import Mathlib.LinearAlgebra.Dimension.Constructions
import Mathlib.LinearAlgebra.Dimension.Finite
import Mathlib.LinearAlgebra.Matrix.ToLin
import Mathlib.LinearAlgebra.FiniteDimensional.Basic
import Mathlib.Tactic.Linarith
import Mathlib.Tactic.Ring
import Mathlib.Tactic.FieldSimp

/-!
# C90: conjugate gradients
-/

set_option linter.unusedSectionVars false
set_option linter.unusedVariables false

namespace Neorl.CG

open Matrix

section
variable {K : Type} [Field K] [LinearOrder K] [IsStrictOrderedRing K] {n : ℕ}

/-- Specification: a symmetric positive definite matrix. -/
structure SPD (A : Matrix (Fin n) (Fin n) K) : Prop where
  symm : Aᵀ = A
  pos : ∀ v : Fin n → K, v ≠ 0 → 0 < v ⬝ᵥ A *ᵥ v

/-- Specification: the quadratic function whose only minimum is the solution of `A y = b`. -/
def energy (A : Matrix (Fin n) (Fin n) K) (b y : Fin n → K) : K := y ⬝ᵥ A *ᵥ y - 2 * (b ⬝ᵥ y)

/-- Specification: the squared length of `b - A x`. -/
def resid (A : Matrix (Fin n) (Fin n) K) (b x : Fin n → K) : K := (b - A *ᵥ x) ⬝ᵥ (b - A *ᵥ x)

theorem SPD.swap {A : Matrix (Fin n) (Fin n) K} (h : SPD A) (u v : Fin n → K) : u ⬝ᵥ A *ᵥ v = v ⬝ᵥ A *ᵥ u := by
  rw [dotProduct_mulVec, dotProduct_comm, ← mulVec_transpose, h.symm]

theorem dot_self_nonneg (v : Fin n → K) : 0 ≤ v ⬝ᵥ v := Finset.sum_nonneg fun i _ => mul_self_nonneg _

theorem dot_self_eq_zero {v : Fin n → K} : v ⬝ᵥ v = 0 ↔ v = 0 := by
  constructor
  · intro h
    funext i
    have := (Finset.sum_eq_zero_iff_of_nonneg (fun i _ => mul_self_nonneg (v i))).1 h i (Finset.mem_univ i)
    exact mul_self_eq_zero.1 this
  · rintro rfl; simp

theorem dot_self_pos {v : Fin n → K} (h : v ≠ 0) : 0 < v ⬝ᵥ v :=
  lt_of_le_of_ne (dot_self_nonneg v) fun h' => h (dot_self_eq_zero.1 h'.symm)

/-- The span of a list of vectors. -/
def sp (l : List (Fin n → K)) : Submodule K (Fin n → K) := Submodule.span K {q | q ∈ l}

theorem mem_sp {l : List (Fin n → K)} {q : Fin n → K} (h : q ∈ l) : q ∈ sp l := Submodule.subset_span h

theorem sp_mono {l l' : List (Fin n → K)} (h : ∀ q ∈ l, q ∈ l') : sp l ≤ sp l' := Submodule.span_mono h

theorem orth_sp {l : List (Fin n → K)} {r : Fin n → K} (h : ∀ q ∈ l, q ⬝ᵥ r = 0) {y : Fin n → K} (hy : y ∈ sp l) : y ⬝ᵥ r = 0 := by
  induction hy using Submodule.span_induction with
  | mem x hx => exact h x hx
  | zero => simp
  | add x y _ _ hx hy => rw [add_dotProduct, hx, hy, add_zero]
  | smul a x _ hx => rw [smul_dotProduct, hx, smul_zero]

theorem mulVec_sp {A : Matrix (Fin n) (Fin n) K} {l l' : List (Fin n → K)} (h : ∀ q ∈ l, A *ᵥ q ∈ sp l') {y : Fin n → K} (hy : y ∈ sp l) : A *ᵥ y ∈ sp l' := by
  induction hy using Submodule.span_induction with
  | mem x hx => exact h x hx
  | zero => simp
  | add x y _ _ hx hy => rw [mulVec_add]; exact Submodule.add_mem _ hx hy
  | smul a x _ hx => rw [mulVec_smul]; exact Submodule.smul_mem _ _ hx

/-- Invariant of the loop; `ps` and `rs` are the earlier search directions and residuals (ghost). -/
structure Inv (A : Matrix (Fin n) (Fin n) K) (b : Fin n → K) (ps rs : List (Fin n → K)) (s : State K n) : Prop where
  rr : s.rr = s.r ⬝ᵥ s.r
  res : s.r = b - A *ᵥ s.x
  conj : ∀ q ∈ ps, q ⬝ᵥ A *ᵥ s.p = 0
  orthP : ∀ q ∈ ps, q ⬝ᵥ s.r = 0
  orthR : ∀ q ∈ rs, q ⬝ᵥ s.r = 0
  pair : rs.Pairwise fun q q' => q ⬝ᵥ q' = 0
  nonzero : ∀ q ∈ rs, q ≠ 0
  rp : s.r ⬝ᵥ s.p = s.rr
  rsSp : ∀ q ∈ rs, q ∈ sp ps
  rSp : s.r ∈ sp (s.p :: ps)
  aSp : ∀ q ∈ ps, A *ᵥ q ∈ sp (s.p :: ps)
  xSp : s.x ∈ sp ps
  kry : ∀ j < ps.length, (A *ᵥ ·)^[j] b ∈ sp ps
  kryP : (A *ᵥ ·)^[ps.length] b ∈ sp (s.p :: ps)
  len : rs.length = ps.length

theorem inv_init (A : Matrix (Fin n) (Fin n) K) (b : Fin n → K) : Inv A b [] [] (init b) where
  rr := rfl
  res := by simp [init]
  conj := by simp
  orthP := by simp
  orthR := by simp
  pair := List.Pairwise.nil
  nonzero := by simp
  rp := rfl
  rsSp := by simp
  rSp := mem_sp (by simp [init])
  aSp := by simp
  xSp := by simp [init]
  kry := by simp
  kryP := mem_sp (by simp [init])
  len := rfl

/-- One pass of the loop on a nonzero residual. -/
theorem Inv.step {A : Matrix (Fin n) (Fin n) K} (hA : SPD A) {b : Fin n → K} {ps rs : List (Fin n → K)} {s : State K n} (h : Inv A b ps rs s) (hr : s.r ≠ 0) :
    ∃ s', iter (A *ᵥ ·) s = some s' ∧ Inv A b (s.p :: ps) (s.r :: rs) s' ∧ energy A b s'.x < energy A b s.x := by
  have hrr : 0 < s.rr := by rw [h.rr]; exact dot_self_pos hr
  have hp : s.p ≠ 0 := by
    intro hp
    have := h.rp
    rw [hp, dotProduct_zero] at this
    exact hrr.ne this
  have hd := hA.pos s.p hp
  have hd0 : s.p ⬝ᵥ A *ᵥ s.p ≠ 0 := hd.ne'
  unfold iter
  simp only [hd0, if_false]
  generalize hv : s.rr / s.p ⬝ᵥ A *ᵥ s.p = v
  have hvd : v * (s.p ⬝ᵥ A *ᵥ s.p) = s.rr := by rw [← hv]; field_simp
  have hvpos : 0 < v := by rw [← hv]; exact div_pos hrr hd
  generalize hr' : s.r - v • A *ᵥ s.p = r'
  generalize hmu : r' ⬝ᵥ r' / s.rr = mu
  have hmur : mu * s.rr = r' ⬝ᵥ r' := by rw [← hmu]; field_simp
  have hAp : v • A *ᵥ s.p = s.r - r' := by rw [← hr']; abel
  have horth : ∀ q ∈ s.p :: ps, q ⬝ᵥ r' = 0 := by
    intro q hq
    rw [← hr', dotProduct_sub, dotProduct_smul, smul_eq_mul]
    rcases List.mem_cons.1 hq with rfl | hq
    · rw [dotProduct_comm, h.rp, hvd, sub_self]
    · rw [h.orthP q hq, h.conj q hq, mul_zero, sub_zero]
  have hrs : ∀ q ∈ s.r :: rs, q ∈ sp (s.p :: ps) := by
    intro q hq
    rcases List.mem_cons.1 hq with rfl | hq
    · exact h.rSp
    · exact sp_mono (fun q hq => List.mem_cons_of_mem _ hq) (h.rsSp q hq)
  have hps : sp (s.p :: ps) ≤ sp ((r' + mu • s.p) :: s.p :: ps) := sp_mono fun q hq => List.mem_cons_of_mem _ hq
  have hr'sp : r' ∈ sp ((r' + mu • s.p) :: s.p :: ps) := by
    have h1 : r' + mu • s.p ∈ sp ((r' + mu • s.p) :: s.p :: ps) := mem_sp (by simp)
    have h2 : s.p ∈ sp ((r' + mu • s.p) :: s.p :: ps) := mem_sp (by simp)
    have := Submodule.sub_mem _ h1 (Submodule.smul_mem _ mu h2)
    rwa [add_sub_cancel_right] at this
  have haSp : ∀ q ∈ s.p :: ps, A *ᵥ q ∈ sp ((r' + mu • s.p) :: s.p :: ps) := by
    intro q hq
    rcases List.mem_cons.1 hq with rfl | hq
    · have : v⁻¹ • (s.r - r') = A *ᵥ s.p := by rw [← hAp, smul_smul, inv_mul_cancel₀ hvpos.ne', one_smul]
      rw [← this]
      exact Submodule.smul_mem _ _ (Submodule.sub_mem _ (hps h.rSp) hr'sp)
    · exact hps (h.aSp q hq)
  refine ⟨_, rfl, ?_, ?_⟩
  · constructor
    · rfl
    · show r' = b - A *ᵥ (s.x + v • s.p)
      rw [mulVec_add, mulVec_smul, ← hr', h.res]
      abel
    · intro q hq
      show q ⬝ᵥ A *ᵥ (r' + mu • s.p) = 0
      rw [hA.swap, add_dotProduct, smul_dotProduct, smul_eq_mul]
      rcases List.mem_cons.1 hq with rfl | hq
      · have h1 : v * (r' ⬝ᵥ A *ᵥ s.p) = - (r' ⬝ᵥ r') := by
          have : r' ⬝ᵥ (v • A *ᵥ s.p) = r' ⬝ᵥ (s.r - r') := by rw [hAp]
          rw [dotProduct_smul, smul_eq_mul, dotProduct_sub, dotProduct_comm r' s.r, orth_sp horth h.rSp, zero_sub] at this
          exact this
        have h2 : v * (r' ⬝ᵥ A *ᵥ s.p + mu * s.p ⬝ᵥ A *ᵥ s.p) = 0 := by
          rw [mul_add, h1, mul_left_comm, hvd, hmur]; ring
        exact (mul_eq_zero.1 h2).resolve_left hvpos.ne'
      · rw [dotProduct_comm, orth_sp horth (h.aSp q hq), ← hA.swap, h.conj q hq]
        simp
    · exact horth
    · intro q hq
      exact orth_sp horth (hrs q hq)
    · refine List.pairwise_cons.2 ⟨?_, h.pair⟩
      intro q hq
      rw [dotProduct_comm]
      exact h.orthR q hq
    · exact List.forall_mem_cons.2 ⟨hr, h.nonzero⟩
    · show r' ⬝ᵥ (r' + mu • s.p) = r' ⬝ᵥ r'
      rw [dotProduct_add, dotProduct_smul, dotProduct_comm r' s.p, horth s.p List.mem_cons_self, smul_zero, add_zero]
    · exact hrs
    · exact hr'sp
    · exact haSp
    · show s.x + v • s.p ∈ sp (s.p :: ps)
      exact Submodule.add_mem _ (sp_mono (fun q hq => List.mem_cons_of_mem _ hq) h.xSp) (Submodule.smul_mem _ _ (mem_sp List.mem_cons_self))
    · intro j hj
      rw [List.length_cons, Nat.lt_succ_iff] at hj
      rcases hj.lt_or_eq with hj | rfl
      · exact sp_mono (fun q hq => List.mem_cons_of_mem _ hq) (h.kry j hj)
      · exact h.kryP
    · rw [List.length_cons, Function.iterate_succ_apply']
      exact mulVec_sp haSp h.kryP
    · simp [h.len]
  · show energy A b (s.x + v • s.p) < energy A b s.x
    unfold energy
    rw [mulVec_add, mulVec_smul, add_dotProduct, dotProduct_add, dotProduct_add, dotProduct_add, smul_dotProduct, smul_dotProduct, dotProduct_smul, dotProduct_smul, dotProduct_smul,
      hA.swap s.x s.p]
    simp only [smul_eq_mul]
    have hb : s.p ⬝ᵥ A *ᵥ s.x = b ⬝ᵥ s.p - s.rr := by
      have := h.rp
      rw [h.res, sub_dotProduct, dotProduct_comm (A *ᵥ s.x)] at this
      linarith
    rw [hb, hvd]
    nlinarith [mul_pos hvpos hrr]

/-- The invariant makes the point the best of the span of the directions used. -/
theorem Inv.minimal {A : Matrix (Fin n) (Fin n) K} (hA : SPD A) {b : Fin n → K} {ps rs : List (Fin n → K)} {s : State K n} (h : Inv A b ps rs s) {y : Fin n → K} (hy : y ∈ sp ps) :
    energy A b s.x ≤ energy A b y := by
  have hz : y - s.x ∈ sp ps := Submodule.sub_mem _ hy h.xSp
  have h1 : (y - s.x) ⬝ᵥ s.r = 0 := orth_sp h.orthP hz
  have h2 : 0 ≤ (y - s.x) ⬝ᵥ A *ᵥ (y - s.x) := by
    by_cases h0 : y - s.x = 0
    · rw [h0]; simp
    · exact (hA.pos _ h0).le
  rw [h.res, dotProduct_sub, sub_dotProduct, sub_dotProduct, dotProduct_comm y b, dotProduct_comm s.x b] at h1
  rw [mulVec_sub, sub_dotProduct, dotProduct_sub, dotProduct_sub, hA.swap s.x y] at h2
  unfold energy
  linarith

theorem orth_card {l : List (Fin n → K)} (h : l.Pairwise fun q q' => q ⬝ᵥ q' = 0) (h0 : ∀ q ∈ l, q ≠ 0) : l.length ≤ n := by
  have hli : LinearIndependent K (fun i : Fin l.length => l[i]) := by
    rw [Fintype.linearIndependent_iff]
    intro g hg i
    have h1 : (∑ j, g j • l[j]) ⬝ᵥ l[i] = g i * (l[i] ⬝ᵥ l[i]) := by
      rw [sum_dotProduct, Finset.sum_eq_single i]
      · rw [smul_dotProduct, smul_eq_mul]
      · intro j _ hj
        rw [smul_dotProduct, smul_eq_mul]
        have : l[j] ⬝ᵥ l[i] = 0 := by
          rcases lt_trichotomy j i with hlt | heq | hgt
          · exact List.pairwise_iff_getElem.1 h j i j.2 i.2 hlt
          · exact absurd heq hj
          · rw [dotProduct_comm]
            exact List.pairwise_iff_getElem.1 h i j i.2 j.2 hgt
        rw [this, mul_zero]
      · simp
    rw [hg, zero_dotProduct] at h1
    exact (mul_eq_zero.1 h1.symm).resolve_right fun h' => h0 _ (List.getElem_mem i.2) (dot_self_eq_zero.1 h')
  have := hli.fintype_card_le_finrank
  simpa using this

theorem loop_spec {A : Matrix (Fin n) (Fin n) K} (hA : SPD A) {b : Fin n → K} {tol : K} (ht : 0 < tol) : ∀ (m : ℕ) {ps rs : List (Fin n → K)} {s : State K n}, Inv A b ps rs s → s.r ≠ 0 →
    ∃ s' ps' rs', loop (A *ᵥ ·) tol m s = some s' ∧ Inv A b ps' rs' s' ∧ ps.length + min m 1 ≤ ps'.length ∧ ps'.length ≤ ps.length + m ∧ (s'.rr < tol ∨ (s'.r ≠ 0 ∧ ps'.length = ps.length + m)) ∧
      energy A b s'.x ≤ energy A b s.x ∧ (1 ≤ m → energy A b s'.x < energy A b s.x) := by
  intro m
  induction m with
  | zero => intro ps rs s h hr; exact ⟨s, ps, rs, rfl, h, by simp, by simp, Or.inr ⟨hr, rfl⟩, le_rfl, fun h => by omega⟩
  | succ m ih =>
    intro ps rs s h hr
    obtain ⟨s1, h1, h2, h3⟩ := h.step hA hr
    rw [loop, h1]
    simp only
    split_ifs with hlt
    · exact ⟨s1, _, _, rfl, h2, by simp, by simp, Or.inl hlt, h3.le, fun _ => h3⟩
    · have hr1 : s1.r ≠ 0 := by
        intro h0
        rw [h2.rr, h0, dotProduct_zero] at hlt
        exact hlt ht
      obtain ⟨s2, ps2, rs2, i1, i2, i3, i4, i5, i6, i7⟩ := ih h2 hr1
      rw [List.length_cons] at i3 i4 i5
      refine ⟨s2, ps2, rs2, i1, i2, by omega, by omega, ?_, i6.trans h3.le, fun _ => i6.trans_lt h3⟩
      rcases i5 with i5 | ⟨i5, i8⟩
      · exact Or.inl i5
      · exact Or.inr ⟨i5, by omega⟩

/-- **C90.** On a symmetric positive definite system with a nonzero right side the routine never divides by zero, and with at least as many iterations as unknowns the
returned vector solves the system up to the tolerance: the squared length of `b - A x` is below `residual_tol`. -/
theorem C90_solves {A : Matrix (Fin n) (Fin n) K} (hA : SPD A) {b : Fin n → K} (hb : b ≠ 0) {tol : K} (ht : 0 < tol) {iters : ℕ} (hn : n ≤ iters) :
    ∃ x, cg (A *ᵥ ·) b iters tol = some x ∧ resid A b x < tol := by
  obtain ⟨s, ps, rs, h1, h2, _, _, h5, _⟩ := loop_spec hA ht iters (inv_init A b) (by simpa [init] using hb)
  refine ⟨s.x, by unfold cg; rw [h1]; rfl, ?_⟩
  unfold resid
  rw [← h2.res, ← h2.rr]
  rcases h5 with h5 | ⟨h5, h6⟩
  · exact h5
  · exfalso
    have h7 := orth_card (l := s.r :: rs) (List.pairwise_cons.2 ⟨fun q hq => by rw [dotProduct_comm]; exact h2.orthR q hq, h2.pair⟩) (List.forall_mem_cons.2 ⟨h5, h2.nonzero⟩)
    rw [List.length_cons, h2.len, h6, List.length_nil] at h7
    omega

/-- **C90.** With any number of iterations the result is the best vector of a Krylov space: after `k` passes (`k` is the number of iterations asked for unless
the residual got below the tolerance) it minimises the energy over the span of `b, A b, ..., A^(k-1) b`, and is itself in the span of `k` vectors. -/
theorem C90_optimal {A : Matrix (Fin n) (Fin n) K} (hA : SPD A) {b : Fin n → K} (hb : b ≠ 0) {tol : K} (ht : 0 < tol) (iters : ℕ) :
    ∃ x k, cg (A *ᵥ ·) b iters tol = some x ∧ k ≤ iters ∧ (1 ≤ iters → 1 ≤ k) ∧ (resid A b x < tol ∨ k = iters) ∧
      ∀ y ∈ Submodule.span K {v | ∃ j < k, v = (A *ᵥ ·)^[j] b}, energy A b x ≤ energy A b y := by
  obtain ⟨s, ps, rs, h1, h2, h3, h4, h5, _⟩ := loop_spec hA ht iters (inv_init A b) (by simpa [init] using hb)
  rw [List.length_nil, Nat.zero_add] at h3 h4 h5
  refine ⟨s.x, ps.length, by unfold cg; rw [h1]; rfl, h4, by omega, ?_, ?_⟩
  · rcases h5 with h5 | ⟨_, h5⟩
    · left; unfold resid; rw [← h2.res, ← h2.rr]; exact h5
    · exact Or.inr h5
  · intro y hy
    refine h2.minimal hA (Submodule.span_le.2 ?_ hy)
    rintro v ⟨j, hj, rfl⟩
    exact h2.kry j hj

/-- **C90.** However few the iterations (at least one), the result is a direction of ascent for `b`: its product with `b` is positive.  (TRPO steps along it.) -/
theorem C90_ascent {A : Matrix (Fin n) (Fin n) K} (hA : SPD A) {b : Fin n → K} (hb : b ≠ 0) {tol : K} (ht : 0 < tol) {iters : ℕ} (hi : 1 ≤ iters) :
    ∃ x, cg (A *ᵥ ·) b iters tol = some x ∧ 0 < b ⬝ᵥ x ∧ 0 < x ⬝ᵥ A *ᵥ x := by
  obtain ⟨s, ps, rs, h1, h2, _, _, _, _, h7⟩ := loop_spec hA ht iters (inv_init A b) (by simpa [init] using hb)
  have he := h7 hi
  have h0 : energy A b (init b).x = 0 := by simp [energy, init]
  rw [h0] at he
  have hx : s.x ≠ 0 := by
    intro h
    rw [h] at he
    simp [energy] at he
  have hq := hA.pos _ hx
  refine ⟨s.x, by unfold cg; rw [h1]; rfl, ?_, hq⟩
  unfold energy at he
  linarith

/-- **C90.** The only solution of the system is the only vector of zero residual, so that the tolerance of `C90_solves` bounds a real distance. -/
theorem C90_unique {A : Matrix (Fin n) (Fin n) K} (hA : SPD A) {b x y : Fin n → K} (hx : resid A b x = 0) (hy : resid A b y = 0) : x = y := by
  have h1 := dot_self_eq_zero.1 hx
  have h2 := dot_self_eq_zero.1 hy
  by_contra hne
  have := hA.pos (x - y) (sub_ne_zero.2 hne)
  rw [mulVec_sub, ← sub_eq_zero.1 h1, ← sub_eq_zero.1 h2, sub_self, dotProduct_zero] at this
  exact lt_irrefl _ this

/-- **C90, defect.** For the right side 0, whose solution is 0, the routine divides 0 by 0 and returns a vector of nan. -/
theorem C90_zero (A : Matrix (Fin n) (Fin n) K) (tol : K) {iters : ℕ} (hi : 1 ≤ iters) : cg (A *ᵥ ·) (0 : Fin n → K) iters tol = none := by
  obtain ⟨m, rfl⟩ : ∃ m, iters = m + 1 := ⟨iters - 1, by omega⟩
  unfold cg
  rw [loop]
  simp [iter, init]

/-- Once the residual is exactly zero the search direction is zero as well, so the guard on the first division covers the second. -/
theorem guard (f : (Fin n → K) → Fin n → K) {s s' : State K n} (h : iter f s = some s') (h0 : s'.rr = 0) : s'.p = 0 := by
  unfold iter at h
  simp only at h
  split_ifs at h
  cases h
  simp only at h0 ⊢
  have := dot_self_eq_zero.1 h0
  rw [this]
  simp

/-- **C90, defect.** With a tolerance of 0 a run that reaches the exact solution divides by zero in the next pass and loses it: here a system of one equation and two
iterations. -/
theorem C90_exact_lost : ∃ (A : Matrix (Fin 1) (Fin 1) ℚ) (b : Fin 1 → ℚ), SPD A ∧ cg (A *ᵥ ·) b 1 0 = some ![3] ∧ resid A b ![3] = 0 ∧ cg (A *ᵥ ·) b 2 0 = none := by
  refine ⟨!![2], ![6], ⟨by decide +kernel, ?_⟩, by decide +kernel, by decide +kernel, by decide +kernel⟩
  intro v hv
  have h0 : v 0 ≠ 0 := fun h => hv (by funext i; rw [Fin.fin_one_eq_zero i]; exact h)
  have : v ⬝ᵥ (!![2] : Matrix (Fin 1) (Fin 1) ℚ) *ᵥ v = 2 * (v 0 * v 0) := by
    simp [dotProduct, mulVec]
    ring
  rw [this]
  have := mul_self_pos.2 h0
  linarith

end

/-! ### Concrete cases -/

/-- A symmetric positive definite system of two equations. -/
theorem exSPD : SPD (!![2, 1; 1, 3] : Matrix (Fin 2) (Fin 2) ℚ) := by
  refine ⟨by decide +kernel, ?_⟩
  intro v hv
  have : v ⬝ᵥ (!![2, 1; 1, 3] : Matrix (Fin 2) (Fin 2) ℚ) *ᵥ v = v 0 * v 0 + 2 * (v 1 * v 1) + (v 0 + v 1) * (v 0 + v 1) := by
    simp [dotProduct, mulVec, Fin.sum_univ_two]
    ring
  rw [this]
  have h3 := mul_self_nonneg (v 0 + v 1)
  by_cases h0 : v 0 = 0
  · have h1 : v 1 ≠ 0 := by
      intro h1
      apply hv
      funext i
      fin_cases i
      · exact h0
      · exact h1
    have := mul_self_pos.2 h1
    have := mul_self_nonneg (v 0)
    linarith
  · have := mul_self_pos.2 h0
    have := mul_self_nonneg (v 1)
    linarith

/-- Two iterations solve it exactly, one does not. -/
example : cg ((!![2, 1; 1, 3] : Matrix (Fin 2) (Fin 2) ℚ) *ᵥ ·) ![4, 7] 10 (1 / 10 ^ 10) = some ![1, 2] ∧
    (cg ((!![2, 1; 1, 3] : Matrix (Fin 2) (Fin 2) ℚ) *ᵥ ·) ![4, 7] 1 (1 / 10 ^ 10)).isSome = true ∧
    cg ((!![2, 1; 1, 3] : Matrix (Fin 2) (Fin 2) ℚ) *ᵥ ·) ![4, 7] 1 (1 / 10 ^ 10) ≠ some ![1, 2] := by decide +kernel

example : (![4, 7] : Fin 2 → ℚ) ≠ 0 ∧ (0 : ℚ) < 1 / 10 ^ 10 ∧ 2 ≤ 10 := ⟨fun h => by have := congrFun h 0; norm_num at this, by norm_num, by norm_num⟩

end Neorl.CG

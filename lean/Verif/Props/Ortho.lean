import Verif.Ortho
import Mathlib.Algebra.BigOperators.Intervals
import Mathlib.Algebra.BigOperators.Ring.Finset
import Mathlib.Algebra.Order.BigOperators.Group.Finset
import Mathlib.LinearAlgebra.Matrix.NonsingularInverse
import Mathlib.Data.Rat.Defs
import Mathlib.Algebra.Order.Ring.Rat
import Mathlib.Tactic.Ring
import Mathlib.Tactic.Linarith
import Mathlib.Tactic.FieldSimp

/-!
# Property theorems C155: orthogonal initialisation
-/

set_option linter.unusedSectionVars false
set_option linter.unusedVariables false

namespace Neorl.Ortho

open Finset

section
variable {K : Type} [Field K] [LinearOrder K] [IsStrictOrderedRing K]

/-- The columns `0, …, n-1` of a matrix with `m` rows are orthonormal. -/
def Orthonormal (m n : ℕ) (f : ℕ → ℕ → K) : Prop := ∀ a < n, ∀ b < n, ∑ i ∈ range m, f i a * f i b = if a = b then 1 else 0

/-- What numpy's reduced singular value decomposition promises about shapes and factors: `u` has orthonormal columns, `v` orthonormal rows. -/
structure IsSvd (g u v : Mat K) : Prop where
  urows : u.rows = g.rows
  ucols : u.cols = min g.rows g.cols
  vrows : v.rows = min g.rows g.cols
  vcols : v.cols = g.cols
  u : Orthonormal u.rows u.cols u.at_
  v : Orthonormal v.cols v.rows (fun i j => v.at_ j i)

theorem sum_mul_range (a b : ℕ) (f : ℕ → K) : ∑ r ∈ range (a * b), f r = ∑ i ∈ range a, ∑ j ∈ range b, f (i * b + j) := by
  induction a with
  | zero => simp
  | succ a ih => rw [Nat.succ_mul, sum_range_add, ih, sum_range_succ]

theorem square {n : ℕ} {f : ℕ → ℕ → K} (h : Orthonormal n n f) : Orthonormal n n (fun i j => f j i) := by
  let M : Matrix (Fin n) (Fin n) K := Matrix.of fun i j => f i j
  have h1 : M.transpose * M = 1 := by
    ext i j
    rw [Matrix.mul_apply, Matrix.one_apply]
    have := h i i.2 j j.2
    rw [Finset.sum_range] at this
    simpa [M, Fin.ext_iff] using this
  have h2 : M * M.transpose = 1 := mul_eq_one_comm.1 h1
  intro a ha b hb
  have := congrFun (congrFun h2 ⟨a, ha⟩) ⟨b, hb⟩
  rw [Matrix.mul_apply, Matrix.one_apply] at this
  rw [Finset.sum_range]
  simpa [M, Fin.ext_iff] using this

/-- The matrix picked in line 38. -/
theorem picked {g u v : Mat K} (hs : IsSvd g u v) {m n : ℕ} (hm : g.rows = m) (hn : g.cols = n) :
    (n ≤ m → Orthonormal m n (if (u.rows, u.cols) = (m, n) then u else v).at_) ∧
    (m ≤ n → Orthonormal n m (fun i j => (if (u.rows, u.cols) = (m, n) then u else v).at_ j i)) := by
  have hu := hs.u
  have hv := hs.v
  rw [hs.urows, hs.ucols, hm, hn] at hu
  rw [hs.vcols, hs.vrows, hm, hn] at hv
  rw [hs.urows, hs.ucols, hm, hn]
  constructor
  · intro h
    rw [min_eq_right h] at hu ⊢
    rwa [if_pos rfl]
  · intro h
    rw [min_eq_left h] at hu hv ⊢
    by_cases e : m = n
    · subst e
      rw [if_pos rfl]
      exact square hu
    · rw [if_neg (by simp [e])]
      exact hv

theorem scaled {m n : ℕ} {f : ℕ → ℕ → K} (h : Orthonormal m n f) (s : K) : ∀ a < n, ∀ b < n,
    ∑ i ∈ range m, s * f i a * (s * f i b) = if a = b then s ^ 2 else 0 := by
  intro a ha b hb
  have e : ∀ i, s * f i a * (s * f i b) = s ^ 2 * (f i a * f i b) := fun i => by ring
  simp only [e, ← mul_sum, h a ha b hb]
  split_ifs <;> simp

/-- **C155, dense layers.** The initial weights of a layer from `m` to `n` units are orthogonal up to the scale: if `n ≤ m` the columns, and if `m ≤ n` the rows,
are perpendicular and of squared length `scale²`. -/
theorem C155_dense {svd : Mat K → Mat K × Mat K} {noise : ℕ × ℕ → Mat K} {m n : ℕ} (hg : (noise (m, n)).rows = m ∧ (noise (m, n)).cols = n)
    (hs : IsSvd (noise (m, n)) (svd (noise (m, n))).1 (svd (noise (m, n))).2) (scale : K) :
    ∃ t, init svd noise scale [m, n] = .ok t ∧ t.shape = [m, n] ∧
      (n ≤ m → ∀ a < n, ∀ b < n, ∑ i ∈ range m, t.at_ [i, a] * t.at_ [i, b] = if a = b then scale ^ 2 else 0) ∧
      (m ≤ n → ∀ a < m, ∀ b < m, ∑ j ∈ range n, t.at_ [a, j] * t.at_ [b, j] = if a = b then scale ^ 2 else 0) := by
  obtain ⟨p1, p2⟩ := picked hs hg.1 hg.2
  exact ⟨_, rfl, rfl, fun h => scaled (p1 h) scale, fun h => scaled (p2 h) scale⟩

/-- **C155, convolutions.** The same for a filter of shape `(a, b, c, n)`, with the `a * b * c` inputs of a unit in the role of `m`. -/
theorem C155_conv {svd : Mat K → Mat K × Mat K} {noise : ℕ × ℕ → Mat K} {a b c n : ℕ}
    (hg : (noise (a * b * c, n)).rows = a * b * c ∧ (noise (a * b * c, n)).cols = n)
    (hs : IsSvd (noise (a * b * c, n)) (svd (noise (a * b * c, n))).1 (svd (noise (a * b * c, n))).2) (scale : K) :
    ∃ t, init svd noise scale [a, b, c, n] = .ok t ∧ t.shape = [a, b, c, n] ∧
      (n ≤ a * b * c → ∀ p < n, ∀ q < n,
        ∑ i ∈ range a, ∑ j ∈ range b, ∑ k ∈ range c, t.at_ [i, j, k, p] * t.at_ [i, j, k, q] = if p = q then scale ^ 2 else 0) ∧
      (a * b * c ≤ n → ∀ i < a, ∀ j < b, ∀ k < c, ∀ i' < a, ∀ j' < b, ∀ k' < c,
        ∑ l ∈ range n, t.at_ [i, j, k, l] * t.at_ [i', j', k', l] = if i = i' ∧ j = j' ∧ k = k' then scale ^ 2 else 0) := by
  obtain ⟨p1, p2⟩ := picked hs hg.1 hg.2
  refine ⟨_, rfl, rfl, fun h p hp q hq => ?_, fun h i hi j hj k hk i' hi' j' hj' k' hk' => ?_⟩
  · have := scaled (p1 h) scale p hp q hq
    rw [sum_mul_range, sum_mul_range] at this
    exact this
  · have lt : ∀ i j k, i < a → j < b → k < c → (i * b + j) * c + k < a * b * c := fun i j k hi hj hk => by
      have h1 : i * b + j + 1 ≤ a * b := by nlinarith
      nlinarith
    have := scaled (p2 h) scale _ (lt i j k hi hj hk) _ (lt i' j' k' hi' hj' hk')
    refine this.trans ?_
    have e : (i * b + j) * c + k = (i' * b + j') * c + k' ↔ i = i' ∧ j = j' ∧ k = k' := by
      constructor
      · intro h
        have inj : ∀ {x y d r r' : ℕ}, r < d → r' < d → x * d + r = y * d + r' → x = y ∧ r = r' := fun {x y d r r'} hr hr' h => by
          have e1 := congrArg (· / d) h
          have e2 := congrArg (· % d) h
          simp only [Nat.mul_comm _ d, Nat.mul_add_div (show 0 < d by omega), Nat.div_eq_of_lt hr, Nat.div_eq_of_lt hr', Nat.mul_add_mod,
            Nat.mod_eq_of_lt hr, Nat.mod_eq_of_lt hr'] at e1 e2
          exact ⟨by omega, e2⟩
        obtain ⟨h1, h2⟩ := inj hk hk' h
        obtain ⟨h3, h4⟩ := inj hj hj' h1
        exact ⟨h3, h4, h2⟩
      · rintro ⟨rfl, rfl, rfl⟩; rfl
    simp only [e]

theorem length_eq {m n : ℕ} {f : ℕ → ℕ → K} (h : Orthonormal m n f) (y : ℕ → K) :
    ∑ i ∈ range m, (∑ j ∈ range n, f i j * y j) ^ 2 = ∑ j ∈ range n, y j ^ 2 := by
  have e1 : ∀ i, (∑ j ∈ range n, f i j * y j) ^ 2 = ∑ j ∈ range n, ∑ l ∈ range n, y j * y l * (f i j * f i l) := fun i => by
    rw [sq, sum_mul_sum]
    exact sum_congr rfl fun j _ => sum_congr rfl fun l _ => by ring
  simp only [e1]
  rw [sum_comm]
  refine sum_congr rfl fun j hj => ?_
  rw [sum_comm]
  have e2 : ∀ l ∈ range n, ∑ i ∈ range m, y j * y l * (f i j * f i l) = if j = l then y j ^ 2 else 0 := fun l hl => by
    rw [← mul_sum, h j (mem_range.1 hj) l (mem_range.1 hl)]
    split_ifs with hjl
    · subst hjl; ring
    · ring
  rw [sum_congr rfl e2, sum_ite_eq, if_pos hj]

theorem bessel {m n : ℕ} {f : ℕ → ℕ → K} (h : Orthonormal m n f) (x : ℕ → K) :
    ∑ j ∈ range n, (∑ i ∈ range m, x i * f i j) ^ 2 ≤ ∑ i ∈ range m, x i ^ 2 := by
  set y : ℕ → K := fun j => ∑ i ∈ range m, x i * f i j with hy
  have h0 : 0 ≤ ∑ i ∈ range m, (x i - ∑ j ∈ range n, f i j * y j) ^ 2 := sum_nonneg fun i _ => sq_nonneg _
  have e1 : ∀ i, (x i - ∑ j ∈ range n, f i j * y j) ^ 2 = x i ^ 2 - 2 * (x i * ∑ j ∈ range n, f i j * y j) + (∑ j ∈ range n, f i j * y j) ^ 2 :=
    fun i => by ring
  have e2 : ∑ i ∈ range m, x i * ∑ j ∈ range n, f i j * y j = ∑ j ∈ range n, y j ^ 2 := by
    simp only [mul_sum]
    rw [sum_comm]
    refine sum_congr rfl fun j _ => ?_
    have : ∀ i, x i * (f i j * y j) = x i * f i j * y j := fun i => by ring
    simp only [this, ← sum_mul]
    rw [sq]
  simp only [e1, sum_add_distrib, sum_sub_distrib, ← mul_sum, e2, length_eq h] at h0
  show ∑ j ∈ range n, y j ^ 2 ≤ _
  linarith

/-- **C155, signals.** An initial dense layer keeps the length of every input up to the scale when it has at least as many outputs as inputs, and never makes it longer than the
scale says; backwards it keeps the length of every gradient up to the scale when it has at most as many outputs as inputs. -/
theorem C155_signal {svd : Mat K → Mat K × Mat K} {noise : ℕ × ℕ → Mat K} {m n : ℕ} (hg : (noise (m, n)).rows = m ∧ (noise (m, n)).cols = n)
    (hs : IsSvd (noise (m, n)) (svd (noise (m, n))).1 (svd (noise (m, n))).2) (scale : K) :
    ∃ t, init svd noise scale [m, n] = .ok t ∧ ∀ x : ℕ → K,
      (m ≤ n → ∑ j ∈ range n, (∑ i ∈ range m, x i * t.at_ [i, j]) ^ 2 = scale ^ 2 * ∑ i ∈ range m, x i ^ 2) ∧
      (∑ j ∈ range n, (∑ i ∈ range m, x i * t.at_ [i, j]) ^ 2 ≤ scale ^ 2 * ∑ i ∈ range m, x i ^ 2) ∧
      (n ≤ m → ∑ i ∈ range m, (∑ j ∈ range n, t.at_ [i, j] * x j) ^ 2 = scale ^ 2 * ∑ j ∈ range n, x j ^ 2) := by
  obtain ⟨p1, p2⟩ := picked hs hg.1 hg.2
  refine ⟨_, rfl, fun x => ?_⟩
  simp only [reshape]
  generalize (if ((svd (noise (m, n))).1.rows, (svd (noise (m, n))).1.cols) = (m, n) then (svd (noise (m, n))).1 else (svd (noise (m, n))).2).at_ = w at p1 p2
  have a1 : ∀ j, (∑ i ∈ range m, x i * (scale * w i j)) ^ 2 = scale ^ 2 * (∑ i ∈ range m, x i * w i j) ^ 2 := fun j => by
    rw [← mul_pow, mul_sum]
    exact congrArg (· ^ 2) (sum_congr rfl fun i _ => by ring)
  have a2 : ∀ i, (∑ j ∈ range n, scale * w i j * x j) ^ 2 = scale ^ 2 * (∑ j ∈ range n, w i j * x j) ^ 2 := fun i => by
    rw [← mul_pow, mul_sum]
    exact congrArg (· ^ 2) (sum_congr rfl fun j _ => by ring)
  simp only [a1, a2, ← mul_sum]
  have f1 : m ≤ n → ∑ j ∈ range n, (∑ i ∈ range m, x i * w i j) ^ 2 = ∑ i ∈ range m, x i ^ 2 := fun h => by
    have := length_eq (p2 h) x
    simpa [mul_comm] using this
  refine ⟨fun h => by rw [f1 h], ?_, fun h => by rw [length_eq (p1 h) x]⟩
  rcases le_total m n with h | h
  · rw [f1 h]
  · exact mul_le_mul_of_nonneg_left (bessel (p1 h) x) (sq_nonneg _)

/-- **C155, other shapes.** Only shapes with two or four dimensions are accepted. -/
theorem C155_shapes (svd : Mat K → Mat K × Mat K) (noise : ℕ × ℕ → Mat K) (scale : K) (shape : List ℕ) :
    (∃ t, init svd noise scale shape = .ok t) ↔ shape.length = 2 ∨ shape.length = 4 := by
  match shape with
  | [] => simp [init, flatShape]
  | [_] => simp [init, flatShape]
  | [_, _] => simp [init, flatShape]
  | [_, _, _] => simp [init, flatShape]
  | [_, _, _, _] => simp [init, flatShape]
  | _ :: _ :: _ :: _ :: _ :: l => simp [init, flatShape]

end

/-- A decomposition with the assumed laws: the noise is a column `(3, 4)`, its factors `(3/5, 4/5)` and `(1)`. -/
theorem exSvd : IsSvd (K := ℚ) ⟨2, 1, fun i _ => if i = 0 then 3 else 4⟩ ⟨2, 1, fun i _ => if i = 0 then 3 / 5 else 4 / 5⟩ ⟨1, 1, fun _ _ => 1⟩ where
  urows := rfl
  ucols := rfl
  vrows := rfl
  vcols := rfl
  u := by
    intro a ha b hb
    have ha' : a = 0 := by simpa using ha
    have hb' : b = 0 := by simpa using hb
    subst ha' hb'
    norm_num [Finset.sum_range_succ]
  v := by
    intro a ha b hb
    have ha' : a = 0 := by simpa using ha
    have hb' : b = 0 := by simpa using hb
    subst ha' hb'
    norm_num

/-- The theorem at this case: a layer from two units to one with scale 2. -/
example : ∃ t, init (fun _ => (⟨2, 1, fun i _ => if i = 0 then 3 / 5 else 4 / 5⟩, ⟨1, 1, fun _ _ => 1⟩)) (fun _ => ⟨2, 1, fun i _ => if i = 0 then 3 else 4⟩) (2 : ℚ) [2, 1] = .ok t ∧
    ∑ i ∈ range 2, t.at_ [i, 0] * t.at_ [i, 0] = 4 := by
  obtain ⟨t, h, _, h1, _⟩ := C155_dense (svd := fun _ => (⟨2, 1, fun i _ => if i = 0 then 3 / 5 else 4 / 5⟩, ⟨1, 1, fun _ _ => 1⟩))
    (noise := fun _ => ⟨2, 1, fun i _ => if i = 0 then 3 else 4⟩) (m := 2) (n := 1) ⟨rfl, rfl⟩ exSvd (2 : ℚ)
  refine ⟨t, h, (h1 (by omega) 0 (by omega) 0 (by omega)).trans ?_⟩
  norm_num

end Neorl.Ortho

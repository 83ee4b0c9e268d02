import Verif.Gmatmul

/-!
# C147: products of tensors and matrices in ACKTR
-/

set_option linter.unusedSectionVars false
set_option linter.unusedVariables false

namespace Neorl.Gmatmul

variable {K : Type} [Field K]

theorem remove_ok {n x : ℕ} (h : x < n) : remove (List.range n) x = .ok ((List.range n).erase x) := by
  unfold remove
  rw [if_pos (by simpa using h)]

theorem valid_getD {s is : List ℕ} (h : Valid s is) {r : ℕ} (hr : r < s.length) : is.getD r 0 < s.getD r 0 := by
  have hl := valid_length h
  rw [List.getD_eq_getElem _ _ (by omega), List.getD_eq_getElem _ _ hr]
  exact List.Forall₂.get h (by omega) hr

theorem valid_eraseIdx {s is : List ℕ} (h : Valid s is) (r : ℕ) : Valid (s.eraseIdx r) (is.eraseIdx r) := by
  induction h generalizing r with
  | nil => simp [Valid]
  | cons h1 h2 ih =>
    cases r with
    | zero => exact h2
    | succ r => exact .cons h1 (ih r)

theorem insert_erase_set {is : List ℕ} {r : ℕ} (hr : r < is.length) (j : ℕ) : (is.eraseIdx r).insertIdx r j = is.set r j :=
  List.insertIdx_eraseIdx_self (by omega) j

/-- **C147.** A matrix times a tensor multiplies along dimension `reduce_dim`: entry `idx` of the result is the sum over `j` of the matrix entry `(idx[r], j)` (or `(j, idx[r])` with `transpose_a`) times the entry of the
tensor with `j` in place `r`. -/
theorem C147_left {a b : Tensor K} {n r : ℕ} (ha : a.shape = [n, n]) (hb : 2 < b.shape.length) (hr : r < b.shape.length) (hn : b.shape.getD r 0 = n) (h0 : 0 < n) (ta : Bool) :
    ∃ t, gmatmul a b ta false (some r) = .ok t ∧ t.shape = b.shape ∧
      ∀ idx, Valid b.shape idx → t.val idx = ∑ j ∈ Finset.range n, (if ta then a.val [j, idx.getD r 0] else a.val [idx.getD r 0, j]) * b.val (idx.set r j) := by
  have hg : gmatmul a b ta false (some r) = left a b ta false r := by
    simp only [gmatmul]
    rw [if_pos ⟨by rw [ha]; rfl, hb⟩]
  rw [hg]
  by_cases hr0 : r = 0
  · subst hr0
    obtain ⟨s, hs⟩ : ∃ s, b.shape = n :: s := by
      cases hsb : b.shape with
      | nil => rw [hsb] at hr; exact absurd hr (by simp)
      | cons d s => rw [hsb] at hn; exact ⟨s, by rw [← hn]; rfl⟩
    obtain ⟨m, q, t, e1, e2, e3, e4, e5⟩ := core_left hs ha h0 ta
    refine ⟨t, ?_, e4, ?_⟩
    · simp only [left, ne_eq, not_true_eq_false, if_false, pure, bind, Except.pure, Except.bind, hn, e1, e2, e3]
    · intro idx hv
      cases idx with
      | nil => have := valid_length hv; simp at this; omega
      | cons i is => exact e5 i is hv
  · have hT : transpose b (((List.range b.shape.length).erase r).insertIdx 0 r) = transpose b (move b.shape.length r 0) := rfl
    have hshape : (transpose b (move b.shape.length r 0)).shape = n :: b.shape.eraseIdx r := by rw [transpose_shape b hr, hn]; rfl
    obtain ⟨m, q, t, e1, e2, e3, e4, e5⟩ := core_left hshape ha h0 ta
    have htl : t.shape.length = b.shape.length := by rw [e4, hshape, List.length_cons, List.length_eraseIdx_of_lt hr]; omega
    refine ⟨transpose t (move t.shape.length 0 r), ?_, ?_, ?_⟩
    · simp only [left, ne_eq, hr0, not_false_eq_true, if_true, remove_ok hr, remove_ok (show 0 < b.shape.length by omega), pure, bind, Except.pure, Except.bind, hT, hn, e1, e2, e3]
      rw [htl]
      rfl
    · rw [transpose_shape t (by omega), e4, hshape]
      show (b.shape.eraseIdx r).insertIdx r n = b.shape
      rw [insert_erase_set hr, ← hn, List.getD_eq_getElem _ _ hr, List.set_getElem_self]
    · intro idx hv
      have hl := valid_length hv
      rw [transpose_val t (by omega) (by omega) (by omega)]
      show t.val (idx.getD r 0 :: idx.eraseIdx r) = _
      rw [e5 _ _ (by rw [hshape]; exact .cons (by rw [← hn]; exact valid_getD hv hr) (valid_eraseIdx hv r))]
      refine Finset.sum_congr rfl fun j hj => ?_
      rw [transpose_val b (by rw [List.length_cons, List.length_eraseIdx_of_lt (by omega)]; omega) hr (by omega)]
      show entry a ta _ _ * b.val ((idx.eraseIdx r).insertIdx r j) = _
      rw [insert_erase_set (by omega)]
      rfl

/-- **C147.** A tensor times a matrix multiplies along the dimension that is `reduce_dim` counted from the last one. -/
theorem C147_right {a b : Tensor K} {n r : ℕ} (hb : b.shape = [n, n]) (ha : 2 < a.shape.length) (hr : r < a.shape.length) (hn : a.shape.getD (a.shape.length - 1 - r) 0 = n) (h0 : 0 < n) (tb : Bool) :
    ∃ t, gmatmul a b false tb (some r) = .ok t ∧ t.shape = a.shape ∧
      ∀ idx, Valid a.shape idx → t.val idx =
        ∑ j ∈ Finset.range n, a.val (idx.set (a.shape.length - 1 - r) j) * (if tb then b.val [idx.getD (a.shape.length - 1 - r) 0, j] else b.val [j, idx.getD (a.shape.length - 1 - r) 0]) := by
  have hg : gmatmul a b false tb (some r) = right a b false tb r := by
    simp only [gmatmul]
    rw [if_neg (by omega), if_pos ⟨ha, by rw [hb]; rfl⟩]
  rw [hg]
  have hpe : a.shape.length - r - 1 = a.shape.length - 1 - r := by omega
  set p := a.shape.length - 1 - r with hp
  have hpl : p < a.shape.length := by omega
  by_cases hp0 : p = a.shape.length - 1
  · obtain ⟨s, hs⟩ : ∃ s, a.shape = s ++ [n] := by
      refine ⟨a.shape.dropLast, ?_⟩
      have hne : a.shape ≠ [] := by intro h; rw [h] at hpl; exact absurd hpl (by simp)
      rw [← hn, hp0, List.getD_eq_getElem _ _ (by omega), ← List.getLast_eq_getElem hne, List.dropLast_append_getLast hne]
    obtain ⟨m, q, t, e1, e2, e3, e4, e5⟩ := core_right hs hb h0 tb
    refine ⟨t, ?_, e4, ?_⟩
    · simp only [right, if_neg (not_le.2 hr), hpe, ne_eq, hp0, not_true_eq_false, if_false, pure, bind, Except.pure, Except.bind]
      rw [← hp0]
      simp only [hn, e1, e2, e3]
    · intro idx hv
      have hl := valid_length hv
      have hne : idx ≠ [] := by intro h; rw [h] at hl; simp at hl; omega
      have hpi : p = idx.length - 1 := by omega
      have hx : idx = idx.dropLast ++ [idx.getD p 0] := by
        rw [hpi, List.getD_eq_getElem _ _ (by omega), ← List.getLast_eq_getElem hne, List.dropLast_append_getLast hne]
      have hset : ∀ j, idx.set p j = idx.dropLast ++ [j] := by
        intro j
        conv_lhs => rw [hx, hpi]
        rw [List.set_append_right _ _ (by simp)]
        simp
      conv_lhs => rw [hx]
      rw [e5 _ _ (by rw [← hx]; exact hv)]
      refine Finset.sum_congr rfl fun j hj => ?_
      rw [hset]
      rfl
  · have hT : transpose a (((List.range a.shape.length).erase p).insertIdx (a.shape.length - 1) p) = transpose a (move a.shape.length p (a.shape.length - 1)) := rfl
    have hel : (a.shape.eraseIdx p).length = a.shape.length - 1 := List.length_eraseIdx_of_lt hpl
    have hshape : (transpose a (move a.shape.length p (a.shape.length - 1))).shape = a.shape.eraseIdx p ++ [n] := by
      rw [transpose_shape a hpl, hn, ← hel, List.insertIdx_length_self]
    obtain ⟨m, q, t, e1, e2, e3, e4, e5⟩ := core_right hshape hb h0 tb
    have htl : t.shape.length = a.shape.length := by rw [e4, hshape, List.length_append, hel]; simp; omega
    refine ⟨transpose t (move t.shape.length (a.shape.length - 1) p), ?_, ?_, ?_⟩
    · simp only [right, if_neg (not_le.2 hr), hpe, ne_eq, hp0, not_false_eq_true, if_true, remove_ok hpl, remove_ok (show a.shape.length - 1 < a.shape.length by omega), pure, bind, Except.pure, Except.bind, hT, hn, e1, e2, e3]
      rw [htl]
      rfl
    · rw [transpose_shape t (by omega), e4, hshape]
      have e6 : (a.shape.eraseIdx p ++ [n]).eraseIdx (a.shape.length - 1) = a.shape.eraseIdx p := by
        rw [← hel, List.eraseIdx_append_of_length_le (by omega)]; simp
      have e7 : (a.shape.eraseIdx p ++ [n]).getD (a.shape.length - 1) 0 = n := by
        rw [List.getD_eq_getElem _ _ (by rw [List.length_append, hel]; simp), List.getElem_append_right (by omega)]; simp [hel]
      rw [e6, e7, insert_erase_set hpl, ← hn, List.getD_eq_getElem _ _ hpl, List.set_getElem_self]
    · intro idx hv
      have hl := valid_length hv
      have hil : (idx.eraseIdx p).length = a.shape.length - 1 := by rw [List.length_eraseIdx_of_lt (by omega), hl]
      rw [transpose_val t (by omega) (by omega) (by omega)]
      rw [show a.shape.length - 1 = (idx.eraseIdx p).length from hil.symm, List.insertIdx_length_self]
      rw [e5 _ _ (by rw [hshape]; exact List.rel_append (valid_eraseIdx hv p) (.cons (by rw [← hn]; exact valid_getD hv hpl) .nil))]
      refine Finset.sum_congr rfl fun j hj => ?_
      rw [transpose_val a (by rw [List.length_append, hil]; simp; omega) hpl (by omega)]
      have e6 : (idx.eraseIdx p ++ [j]).eraseIdx (a.shape.length - 1) = idx.eraseIdx p := by
        rw [← hil, List.eraseIdx_append_of_length_le (by omega)]; simp
      have e7 : (idx.eraseIdx p ++ [j]).getD (a.shape.length - 1) 0 = j := by
        rw [List.getD_eq_getElem _ _ (by rw [List.length_append, hil]; simp), List.getElem_append_right (by omega)]; simp [hil]
      rw [e6, e7, insert_erase_set (by omega)]
      rfl

theorem valid_set {s is : List ℕ} (h : Valid s is) {r j : ℕ} (hj : j < s.getD r 0) : Valid s (is.set r j) := by
  induction h generalizing r with
  | nil => exact .nil
  | cons h1 h2 ih =>
    cases r with
    | zero => exact .cons hj h2
    | succ r => exact .cons h1 (ih hj)

theorem set_getD_self {is : List ℕ} {r : ℕ} (hr : r < is.length) : is.set r (is.getD r 0) = is := by
  rw [List.getD_eq_getElem _ _ hr, List.set_getElem_self]

/-- **C147.** Into the basis of the eigenvectors and back, from the left (kfac.py lines 733 and 792): with orthonormal rows the gradient comes back unchanged, whatever its number of dimensions. -/
theorem C147_back_left {Q g : Tensor K} {n r : ℕ} (hQ : Q.shape = [n, n]) (hg : 2 < g.shape.length) (hr : r < g.shape.length) (hn : g.shape.getD r 0 = n) (h0 : 0 < n)
    (ho : ∀ i < n, ∀ k < n, ∑ j ∈ Finset.range n, Q.val [i, j] * Q.val [k, j] = if i = k then 1 else 0) :
    ∃ u t, gmatmul Q g true false (some r) = .ok u ∧ gmatmul Q u false false (some r) = .ok t ∧ t.shape = g.shape ∧ ∀ idx, Valid g.shape idx → t.val idx = g.val idx := by
  obtain ⟨u, h1, h2, h3⟩ := C147_left hQ hg hr hn h0 true
  obtain ⟨t, h4, h5, h6⟩ := C147_left (b := u) hQ (by rw [h2]; exact hg) (by rw [h2]; exact hr) (by rw [h2]; exact hn) h0 false
  refine ⟨u, t, h1, h4, h5.trans h2, fun idx hv => ?_⟩
  have hl := valid_length hv
  have hi : idx.getD r 0 < n := by rw [← hn]; exact valid_getD hv hr
  rw [h6 idx (by rw [h2]; exact hv)]
  have e : ∀ j ∈ Finset.range n, (if false = true then Q.val [j, idx.getD r 0] else Q.val [idx.getD r 0, j]) * u.val (idx.set r j) =
      ∑ k ∈ Finset.range n, (Q.val [idx.getD r 0, j] * Q.val [k, j]) * g.val (idx.set r k) := by
    intro j hj
    rw [h3 _ (valid_set hv (by rw [hn]; exact Finset.mem_range.1 hj)), if_neg (by simp), Finset.mul_sum]
    refine Finset.sum_congr rfl fun k hk => ?_
    rw [if_pos rfl, List.getD_eq_getElem (idx.set r j) _ (by simpa using by omega), List.getElem_set_self, List.set_set, mul_assoc]
  rw [Finset.sum_congr rfl e, Finset.sum_comm]
  simp only [← Finset.sum_mul]
  rw [Finset.sum_eq_single (idx.getD r 0)]
  · rw [ho _ hi _ hi, if_pos rfl, one_mul, set_getD_self (by omega)]
  · intro k hk hne
    rw [ho _ hi _ (Finset.mem_range.1 hk), if_neg (Ne.symm hne), zero_mul]
  · intro h
    exact absurd (Finset.mem_range.2 hi) h

/-- **C147.** The same from the right (lines 743 and 796). -/
theorem C147_back_right {Q g : Tensor K} {n r : ℕ} (hQ : Q.shape = [n, n]) (hg : 2 < g.shape.length) (hr : r < g.shape.length) (hn : g.shape.getD (g.shape.length - 1 - r) 0 = n) (h0 : 0 < n)
    (ho : ∀ i < n, ∀ k < n, ∑ j ∈ Finset.range n, Q.val [i, j] * Q.val [k, j] = if i = k then 1 else 0) :
    ∃ u t, gmatmul g Q false false (some r) = .ok u ∧ gmatmul u Q false true (some r) = .ok t ∧ t.shape = g.shape ∧ ∀ idx, Valid g.shape idx → t.val idx = g.val idx := by
  obtain ⟨u, h1, h2, h3⟩ := C147_right hQ hg hr hn h0 false
  obtain ⟨t, h4, h5, h6⟩ := C147_right (a := u) hQ (by rw [h2]; exact hg) (by rw [h2]; exact hr) (by rw [h2]; exact hn) h0 true
  refine ⟨u, t, h1, h4, h5.trans h2, fun idx hv => ?_⟩
  rw [h2] at h6
  have hl := valid_length hv
  set p := g.shape.length - 1 - r with hp
  have hi : idx.getD p 0 < n := by rw [← hn]; exact valid_getD hv (by omega)
  rw [h6 idx hv]
  have e : ∀ j ∈ Finset.range n, u.val (idx.set p j) * (if true = true then Q.val [idx.getD p 0, j] else Q.val [j, idx.getD p 0]) =
      ∑ k ∈ Finset.range n, (Q.val [idx.getD p 0, j] * Q.val [k, j]) * g.val (idx.set p k) := by
    intro j hj
    rw [h3 _ (valid_set hv (by rw [hn]; exact Finset.mem_range.1 hj)), if_pos rfl, Finset.sum_mul]
    refine Finset.sum_congr rfl fun k hk => ?_
    rw [if_neg (by simp), List.getD_eq_getElem (idx.set p j) _ (by simpa using by omega), List.getElem_set_self, List.set_set]
    ring
  rw [Finset.sum_congr rfl e, Finset.sum_comm]
  simp only [← Finset.sum_mul]
  rw [Finset.sum_eq_single (idx.getD p 0)]
  · rw [ho _ hi _ hi, if_pos rfl, one_mul, set_getD_self (by omega)]
  · intro k hk hne
    rw [ho _ hi _ (Finset.mem_range.1 hk), if_neg (Ne.symm hne), zero_mul]
  · intro h
    exact absurd (Finset.mem_range.2 hi) h

/-- **C147.** Two matrices: the ordinary product, possibly of transposes; `reduce_dim` must be given but is not looked at. -/
theorem C147_matrices {a b : Tensor K} {m n p : ℕ} (ta tb : Bool) (ha : a.shape = if ta then [n, m] else [m, n]) (hb : b.shape = if tb then [p, n] else [n, p]) (r : ℕ) :
    ∃ t, gmatmul a b ta tb (some r) = .ok t ∧ t.shape = [m, p] ∧
      ∀ i j, t.val [i, j] = ∑ k ∈ Finset.range n, (if ta then a.val [k, i] else a.val [i, k]) * (if tb then b.val [j, k] else b.val [k, j]) := by
  have la : a.shape.length = 2 := by rw [ha]; cases ta <;> rfl
  have lb : b.shape.length = 2 := by rw [hb]; cases tb <;> rfl
  simp only [gmatmul]
  rw [if_neg (by omega), if_neg (by omega), if_pos ⟨la, lb⟩]
  unfold matmul
  rw [ha, hb]
  cases ta <;> cases tb <;> simp

/-- **C147.** Everything else is refused: no `reduce_dim`, vectors and numbers, two tensors. -/
theorem C147_refused (a b : Tensor K) (ta tb : Bool) : gmatmul a b ta tb none = .error .assertion ∧
    ∀ r, (a.shape.length < 2 ∨ b.shape.length < 2 ∨ (2 < a.shape.length ∧ 2 < b.shape.length)) → gmatmul a b ta tb (some r) = .error .assertion := by
  refine ⟨rfl, fun r h => ?_⟩
  simp only [gmatmul]
  rw [if_neg (by omega), if_neg (by omega), if_neg (by omega)]

/-- **C147.** Only square matrices can be applied to a tensor: otherwise the result cannot have the shape of the tensor, which the code gives it. -/
theorem C147_square {a b : Tensor K} {m n : ℕ} (ha : a.shape = [m, n]) (hb : 2 < b.shape.length) (hpos : ∀ d ∈ b.shape, 0 < d) (hmn : m ≠ n) :
    gmatmul a b false false (some 0) = .error .valueError := by
  simp only [gmatmul]
  rw [if_pos ⟨by rw [ha]; rfl, hb⟩]
  obtain ⟨d, s, hs⟩ : ∃ d s, b.shape = d :: s := by
    cases hsb : b.shape with
    | nil => rw [hsb] at hb; exact absurd hb (by simp)
    | cons d s => exact ⟨d, s, rfl⟩
  have hd : 0 < d := hpos d (by rw [hs]; simp)
  have hs0 : 0 < s.prod := List.prod_pos fun x hx => hpos x (by rw [hs]; simp [hx])
  have hdiv : d * s.prod / d = s.prod := Nat.mul_div_cancel_left _ hd
  unfold left
  simp only [ne_eq, not_true_eq_false, if_false, pure, bind, Except.pure, Except.bind, hs, List.getD_cons_zero, List.prod_cons, hdiv]
  have h1 : reshape b [d, s.prod] = .ok ⟨[d, s.prod], fun idx => b.val (unflat b.shape (flat [d, s.prod] idx))⟩ := by
    unfold reshape
    rw [if_pos (by rw [hs]; simp)]
  rw [h1]
  simp only [matmul, ha, Bool.false_eq_true, if_false, List.getD_cons_zero, List.getD_cons_succ]
  by_cases e : n = d
  · rw [if_pos e]
    simp only [reshape]
    rw [if_neg]
    simp only [List.prod_cons, List.prod_nil, mul_one]
    intro h
    exact hmn ((Nat.eq_of_mul_eq_mul_right hs0 h).trans e.symm)
  · rw [if_neg e]

theorem prod_replicate_set (n k d : ℕ) (hk : k < n) : ((List.replicate n 1).set k d).prod = d := by
  induction n generalizing k with
  | zero => omega
  | succ n ih =>
    cases k with
    | zero => simp [List.replicate_succ]
    | succ k => simp [List.replicate_succ, ih k (by omega)]

theorem flat_replicate_set {n k d : ℕ} (hk : k < n) {idx : List ℕ} (hv : Valid ((List.replicate n 1).set k d) idx) : flat ((List.replicate n 1).set k d) idx = idx.getD k 0 := by
  have h1 : ∀ (n : ℕ) (is : List ℕ), Valid (List.replicate n 1) is → flat (List.replicate n 1) is = 0 := by
    intro n
    induction n with
    | zero => intro is h; cases h; rfl
    | succ n ih =>
      intro is h
      rw [List.replicate_succ] at h ⊢
      cases h with
      | cons ha hb => simp only [flat, ih _ hb]; have : _ = 0 := Nat.lt_one_iff.1 ha; rw [this]; simp
  induction n generalizing k idx with
  | zero => omega
  | succ n ih =>
    cases k with
    | zero =>
      rw [List.replicate_succ, List.set_cons_zero] at hv ⊢
      cases hv with
      | cons ha hb => simp [flat, h1 _ _ hb]
    | succ k =>
      rw [List.replicate_succ, List.set_cons_succ] at hv ⊢
      cases hv with
      | cons ha hb =>
        simp only [flat, ih (by omega) hb, List.getD_cons_succ]
        have : _ = 0 := Nat.lt_one_iff.1 ha
        rw [this]; simp

/-- **C147.** The eigenvalues are laid along the dimension the matrix of eigenvectors is multiplied along (`reduce_dim` for the activations, counted from the last for the gradients), so that they multiply the matching
coordinates; all other dimensions have size 1. -/
theorem C147_eigenvalues {e g : Tensor K} {n idx : ℕ} (act : Bool) (he : e.shape = [n]) (hi : idx < g.shape.length) (hn : g.shape.getD (if act then idx else g.shape.length - 1 - idx) 0 = n) :
    ∃ t, factorReshape e g idx act = .ok t ∧ t.shape = (List.replicate g.shape.length 1).set (if act then idx else g.shape.length - 1 - idx) n ∧
      ∀ is, Valid t.shape is → t.val is = e.val [is.getD (if act then idx else g.shape.length - 1 - idx) 0] := by
  have hk : (if act then idx else g.shape.length - idx - 1) = if act then idx else g.shape.length - 1 - idx := by cases act <;> simp; omega
  set k := if act then idx else g.shape.length - 1 - idx with hkd
  have hkl : k < g.shape.length := by rw [hkd]; split_ifs <;> omega
  refine ⟨⟨(List.replicate g.shape.length 1).set k n, fun is => e.val (unflat [n] (flat ((List.replicate g.shape.length 1).set k n) is))⟩, ?_, rfl, ?_⟩
  · unfold factorReshape
    rw [if_neg (by omega), hk, he]
    simp only [List.getD_cons_zero, hn, ne_eq, not_true_eq_false, if_false, reshape, he, List.prod_singleton]
    rw [if_pos (prod_replicate_set _ _ _ hkl).symm]
  · intro is hv
    show e.val (unflat [n] (flat ((List.replicate g.shape.length 1).set k n) is)) = _
    rw [flat_replicate_set hkl hv]
    simp [unflat]

/-! ### Concrete cases -/

def exG : Tensor ℚ := ⟨[2, 3, 2], fun idx => (idx.getD 0 0 * 100 + idx.getD 1 0 * 10 + idx.getD 2 0 : ℕ)⟩
def exQ : Tensor ℚ := ⟨[2, 2], fun idx => if idx = [0, 0] ∨ idx = [1, 1] then 3 / 5 else if idx = [0, 1] then -4 / 5 else 4 / 5⟩
/-- Cyclic exchange of three coordinates. -/
def exP : Tensor ℚ := ⟨[3, 3], fun idx => if idx.getD 1 0 = (idx.getD 0 0 + 1) % 3 then 1 else 0⟩

/-- The middle dimension: entry `[1, 0, 1]` of the product is entry `[1, 1, 1]` of the tensor. -/
example : ((gmatmul exP exG false false (some 1)).toOption.map fun t => (t.shape, t.val [1, 0, 1], t.val [1, 2, 1])) = some ([2, 3, 2], 111, 101) := by decide +kernel

example : ((gmatmul exG exQ false false (some 0)).toOption.map fun t => (t.shape, t.val [1, 2, 1])) = some ([2, 3, 2], 120 * (-4 / 5) + 121 * (3 / 5)) := by decide +kernel

/-- `reduce_dim` is ignored for two matrices: along dimension 1 entry `[0, 1]` would be `0 * (4/5) + 1 * (3/5)`. -/
example : ((gmatmul exQ ⟨[2, 2], fun idx => (idx.getD 0 0 * 2 + idx.getD 1 0 : ℕ)⟩ false false (some 1)).toOption.map fun t => t.val [0, 1]) = some (1 * (3 / 5) + 3 * (-4 / 5)) := by decide +kernel

example : ∀ i < 2, ∀ k < 2, ∑ j ∈ Finset.range 2, exQ.val [i, j] * exQ.val [k, j] = if i = k then 1 else 0 := by decide +kernel

example : exQ.shape = [2, 2] ∧ 2 < exG.shape.length ∧ exG.shape.getD 0 0 = 2 ∧ exG.shape.getD (exG.shape.length - 1 - 0) 0 = 2 ∧ Valid exG.shape [1, 2, 1] ∧ ∀ d ∈ exG.shape, 0 < d := by
  refine ⟨rfl, by decide, rfl, rfl, ?_, by decide⟩
  exact .cons (by decide) (.cons (by decide) (.cons (by decide) .nil))

/-- Three eigenvalues along the middle dimension. -/
example : ((factorReshape (⟨[3], fun idx => (idx.getD 0 0 + 5 : ℕ)⟩ : Tensor ℚ) exG 1 true).toOption.map fun t : Tensor ℚ => (t.shape, t.val [0, 2, 0])) = some ([1, 3, 1], 7) := by decide +kernel

end Neorl.Gmatmul

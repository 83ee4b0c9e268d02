import Verif.Py
import Mathlib.Algebra.BigOperators.Intervals
import Mathlib.Algebra.Field.Defs
import Mathlib.Data.List.InsertIdx
import Mathlib.Data.List.GetD
import Mathlib.Tactic

/-!
# Products of tensors and matrices in ACKTR

Model of `gmatmul` and `factor_reshape` (`neorl/rl/baselines/acktr/kfac_utils.py` lines 4-64 and 103-128), with which `apply_gradients_kfac` brings a gradient into the basis of eigenvectors and back
(`neorl/rl/baselines/acktr/kfac.py` lines 718-796).

* A tensor is its shape and its entries by index; `tf.transpose` and `tf.reshape` are modelled as TensorFlow defines them (row-major order).  Shapes are fully known.
* `reduce_dim` is a natural number.
-/

set_option linter.unusedSectionVars false
set_option linter.unusedVariables false

namespace Neorl.Gmatmul

variable {K : Type} [Field K]

/-- A tensor. -/
structure Tensor (K : Type) where
  shape : List ℕ
  val : List ℕ → K

/-- `idx` is an index of a tensor of this shape. -/
def Valid (shape idx : List ℕ) : Prop := List.Forall₂ (· < ·) idx shape

/-- Number of an entry in row-major order. -/
def flat : List ℕ → List ℕ → ℕ
  | _ :: s, i :: is => i * s.prod + flat s is
  | _, _ => 0

/-- The entry with a number. -/
def unflat : List ℕ → ℕ → List ℕ
  | [], _ => []
  | _ :: s, k => k / s.prod :: unflat s (k % s.prod)

/-- `tf.transpose(t, perm)`: dimension `k` of the result is dimension `perm[k]` of the argument. -/
def transpose (t : Tensor K) (perm : List ℕ) : Tensor K where
  shape := perm.map fun d => t.shape.getD d 0
  val := fun idx => t.val ((List.range t.shape.length).map fun d => idx.getD (perm.idxOf d) 0)

/-- `tf.reshape(t, shape)`. -/
def reshape (t : Tensor K) (shape : List ℕ) : Py (Tensor K) :=
  if t.shape.prod = shape.prod then .ok ⟨shape, fun idx => t.val (unflat t.shape (flat shape idx))⟩ else .error .valueError

/-- `tf.matmul` of two matrices. -/
def matmul (a b : Tensor K) (ta tb : Bool) : Py (Tensor K) :=
  let m := a.shape.getD (if ta then 1 else 0) 0
  let n := a.shape.getD (if ta then 0 else 1) 0
  let n' := b.shape.getD (if tb then 1 else 0) 0
  let p := b.shape.getD (if tb then 0 else 1) 0
  if n = n' then
    .ok ⟨[m, p], fun idx => ∑ j ∈ Finset.range n, a.val (if ta then [j, idx.getD 0 0] else [idx.getD 0 0, j]) * b.val (if tb then [idx.getD 1 0, j] else [j, idx.getD 1 0])⟩
  else .error .valueError

/-- `l.remove(x)`. -/
def remove (l : List ℕ) (x : ℕ) : Py (List ℕ) := if x ∈ l then .ok (l.erase x) else .error .valueError

/-- A matrix from the left, lines 19-37.  The second dimension `-1` of line 27 is what is left. -/
def left (a b : Tensor K) (ta tb : Bool) (r : ℕ) : Py (Tensor K) := do
  let dims := List.range b.shape.length
  let bT ← if r ≠ 0 then (do
      let d ← remove dims r
      pure (transpose b (d.insertIdx 0 r))) else pure b
  let d := b.shape.getD r 0
  let bM ← reshape bT [d, bT.shape.prod / d]
  let res ← matmul a bM ta tb
  let res ← reshape res bT.shape
  if r ≠ 0 then do
    let d ← remove dims 0
    pure (transpose res (d.insertIdx r 0))
  else pure res

/-- A matrix from the right, lines 40-60. -/
def right (a b : Tensor K) (ta tb : Bool) (r : ℕ) : Py (Tensor K) := do
  let outer := a.shape.length - 1
  let dims := List.range a.shape.length
  if a.shape.length ≤ r then .error .valueError else do
  let r := a.shape.length - r - 1
  let aT ← if r ≠ outer then (do
      let d ← remove dims r
      pure (transpose a (d.insertIdx outer r))) else pure a
  let d := a.shape.getD r 0
  let aM ← reshape aT [aT.shape.prod / d, d]
  let res ← matmul aM b ta tb
  let res ← reshape res aT.shape
  if r ≠ outer then do
    let d ← remove dims outer
    pure (transpose res (d.insertIdx r outer))
  else pure res

/-- `gmatmul`, lines 4-64. -/
def gmatmul (a b : Tensor K) (ta tb : Bool) (r : Option ℕ) : Py (Tensor K) :=
  match r with
  | none => .error .assertion
  | some r =>
    if a.shape.length = 2 ∧ b.shape.length > 2 then left a b ta tb r
    else if a.shape.length > 2 ∧ b.shape.length = 2 then right a b ta tb r
    else if a.shape.length = 2 ∧ b.shape.length = 2 then matmul a b ta tb
    else .error .assertion

/-- `factor_reshape`, lines 116-128; `act` is `f_type == 'act'`, otherwise `f_type == 'grad'`. -/
def factorReshape (e g : Tensor K) (idx : ℕ) (act : Bool) : Py (Tensor K) :=
  if g.shape.length ≤ idx then .error .indexError else
  let k := if act then idx else g.shape.length - idx - 1
  if e.shape.getD 0 0 ≠ g.shape.getD k 0 then .error .assertion
  else reshape e ((List.replicate g.shape.length 1).set k e.shape.prod)

/-! ### Row-major order -/

theorem flat_lt {s is : List ℕ} (h : Valid s is) : flat s is < s.prod := by
  induction h with
  | nil => simp [flat]
  | @cons i d is s h1 _ ih =>
    simp only [flat, List.prod_cons]
    calc i * s.prod + flat s is < i * s.prod + s.prod := by omega
      _ = (i + 1) * s.prod := by ring
      _ ≤ d * s.prod := Nat.mul_le_mul_right _ h1

theorem unflat_flat {s is : List ℕ} (h : Valid s is) : unflat s (flat s is) = is := by
  induction h with
  | nil => rfl
  | @cons i d is s h1 h2 ih =>
    have hl := flat_lt h2
    simp only [flat, unflat]
    rw [Nat.add_comm, Nat.add_mul_div_right _ _ (by omega), Nat.div_eq_of_lt hl, Nat.add_mul_mod_self_right, Nat.mod_eq_of_lt hl, ih, Nat.zero_add]

theorem flat_snoc {s is : List ℕ} (h : Valid s is) (d i : ℕ) : flat (s ++ [d]) (is ++ [i]) = flat s is * d + i := by
  induction h with
  | nil => simp [flat]
  | @cons j e is s h1 h2 ih =>
    simp only [List.cons_append, flat, List.prod_append, List.prod_singleton, ih]
    ring

theorem valid_length {s is : List ℕ} (h : Valid s is) : is.length = s.length := h.length_eq

/-! ### Transpositions that move one dimension -/

/-- All transpositions of `gmatmul` are of this form: dimension `p` goes to place `q`. -/
def move (n p q : ℕ) : List ℕ := ((List.range n).erase p).insertIdx q p

theorem erase_range {n p : ℕ} (hp : p < n) : (List.range n).erase p = (List.range n).eraseIdx p := by
  have h := List.Nodup.erase_getElem (List.nodup_range (n := n)) p (by simpa using hp)
  rwa [List.getElem_range] at h

theorem map_range_getD (l : List ℕ) : (List.range l.length).map (fun d => l.getD d 0) = l := by
  refine List.ext_getElem (by simp) fun i h1 h2 => ?_
  rw [List.getElem_map, List.getElem_range, List.getD_eq_getElem _ _ h2]

theorem move_map {l : List ℕ} {p q : ℕ} (hp : p < l.length) : (move l.length p q).map (fun d => l.getD d 0) = (l.eraseIdx p).insertIdx q (l.getD p 0) := by
  unfold move
  rw [erase_range hp, List.map_insertIdx, ← List.eraseIdx_map, map_range_getD]

theorem mem_move {n p q d : ℕ} (hp : p < n) (hq : q < n) : d ∈ move n p q ↔ d < n := by
  unfold move
  have hl : q ≤ ((List.range n).erase p).length := by rw [List.length_erase_of_mem (by simpa using hp), List.length_range]; omega
  rw [List.mem_insertIdx hl, List.Nodup.mem_erase_iff List.nodup_range, List.mem_range]
  constructor
  · rintro (h | h)
    · omega
    · exact h.2
  · intro h
    by_cases e : d = p
    · exact .inl e
    · exact .inr ⟨e, h⟩

theorem move_index {idx : List ℕ} {n p q : ℕ} (hl : idx.length = n) (hp : p < n) (hq : q < n) :
    (List.range n).map (fun d => idx.getD ((move n p q).idxOf d) 0) = (idx.eraseIdx q).insertIdx p (idx.getD q 0) := by
  set T := (idx.eraseIdx q).insertIdx p (idx.getD q 0) with hT
  have he : (idx.eraseIdx q).length = n - 1 := by rw [List.length_eraseIdx_of_lt (by omega), hl]
  have hTl : T.length = n := by rw [hT, List.length_insertIdx_of_le_length (by omega), he]; omega
  have hTp : T.getD p 0 = idx.getD q 0 := by
    rw [List.getD_eq_getElem _ _ (by omega), List.getElem_insertIdx_self]
  have hidx : (move n p q).map (fun d => T.getD d 0) = idx := by
    have h1 := move_map (l := T) (p := p) (q := q) (by omega)
    rw [hTl, hTp] at h1
    rw [h1, hT, List.eraseIdx_insertIdx_self, List.getD_eq_getElem _ _ (by omega)]
    exact List.insertIdx_eraseIdx_getElem (by omega)
  conv_rhs => rw [← map_range_getD T, hTl]
  refine List.map_congr_left fun d hd => ?_
  rw [List.mem_range] at hd
  have hm : d ∈ move n p q := (mem_move hp hq).2 hd
  have hi : (move n p q).idxOf d < (move n p q).length := List.idxOf_lt_length_of_mem hm
  conv_lhs => rw [← hidx]
  rw [List.getD_eq_getElem _ _ (by simpa using hi), List.getElem_map, List.getElem_idxOf]

theorem transpose_val (t : Tensor K) {idx : List ℕ} {p q : ℕ} (hl : idx.length = t.shape.length) (hp : p < t.shape.length) (hq : q < t.shape.length) :
    (transpose t (move t.shape.length p q)).val idx = t.val ((idx.eraseIdx q).insertIdx p (idx.getD q 0)) := by
  show t.val _ = _
  rw [move_index hl hp hq]

theorem transpose_shape (t : Tensor K) {p q : ℕ} (hp : p < t.shape.length) : (transpose t (move t.shape.length p q)).shape = (t.shape.eraseIdx p).insertIdx q (t.shape.getD p 0) := move_map hp

/-! ### The products -/

/-- Entry of a matrix or its transpose. -/
def entry (a : Tensor K) (tr : Bool) (i j : ℕ) : K := if tr then a.val [j, i] else a.val [i, j]

theorem core_left {a b : Tensor K} {n : ℕ} {s : List ℕ} (hs : b.shape = n :: s) (ha : a.shape = [n, n]) (hn : 0 < n) (ta : Bool) :
    ∃ m r t, reshape b [n, b.shape.prod / n] = .ok m ∧ matmul a m ta false = .ok r ∧ reshape r b.shape = .ok t ∧ t.shape = b.shape ∧
      ∀ i is, Valid b.shape (i :: is) → t.val (i :: is) = ∑ j ∈ Finset.range n, entry a ta i j * b.val (j :: is) := by
  have hd : b.shape.prod / n = s.prod := by rw [hs, List.prod_cons, Nat.mul_div_cancel_left _ hn]
  rw [hd]
  have hp : b.shape.prod = [n, s.prod].prod := by rw [hs]; simp
  refine ⟨⟨[n, s.prod], fun idx => b.val (unflat b.shape (flat [n, s.prod] idx))⟩,
    ⟨[n, s.prod], fun idx => ∑ j ∈ Finset.range n, entry a ta (idx.getD 0 0) j * b.val (unflat b.shape (flat [n, s.prod] [j, idx.getD 1 0]))⟩,
    ⟨b.shape, fun idx => ∑ j ∈ Finset.range n, entry a ta ((unflat [n, s.prod] (flat b.shape idx)).getD 0 0) j *
      b.val (unflat b.shape (flat [n, s.prod] [j, (unflat [n, s.prod] (flat b.shape idx)).getD 1 0]))⟩, ?_, ?_, ?_, rfl, ?_⟩
  · unfold reshape
    rw [if_pos hp]
  · unfold matmul
    rw [ha]
    cases ta <;> simp [entry]
  · unfold reshape
    rw [if_pos hp.symm]
  · intro i is hv
    have hv' := hv
    rw [hs] at hv
    obtain ⟨h1, h2⟩ := List.forall₂_cons.1 hv
    have hl := flat_lt h2
    have e1 : unflat [n, s.prod] (flat b.shape (i :: is)) = [i, flat s is] := by
      rw [hs]
      simp only [flat, unflat, List.prod_cons, List.prod_nil, mul_one, Nat.div_one]
      rw [Nat.add_comm, Nat.add_mul_div_right _ _ (by omega), Nat.div_eq_of_lt hl, Nat.add_mul_mod_self_right, Nat.mod_eq_of_lt hl, Nat.zero_add]
    simp only [e1]
    refine Finset.sum_congr rfl fun j hj => ?_
    have e2 : unflat b.shape (flat [n, s.prod] [j, flat s is]) = j :: is := by
      rw [← unflat_flat (s := b.shape) (is := j :: is) (by rw [hs]; exact .cons (Finset.mem_range.1 hj) h2), hs]
      simp [flat]
    simp only [List.getD_cons_zero, List.getD_cons_succ, e2]

theorem core_right {a b : Tensor K} {n : ℕ} {s : List ℕ} (hs : a.shape = s ++ [n]) (hb : b.shape = [n, n]) (hn : 0 < n) (tb : Bool) :
    ∃ m r t, reshape a [a.shape.prod / n, n] = .ok m ∧ matmul m b false tb = .ok r ∧ reshape r a.shape = .ok t ∧ t.shape = a.shape ∧
      ∀ i is, Valid a.shape (is ++ [i]) → t.val (is ++ [i]) = ∑ j ∈ Finset.range n, a.val (is ++ [j]) * entry b tb j i := by
  have hd : a.shape.prod / n = s.prod := by rw [hs, List.prod_append, List.prod_singleton, Nat.mul_div_cancel _ hn]
  rw [hd]
  have hp : a.shape.prod = [s.prod, n].prod := by rw [hs]; simp
  refine ⟨⟨[s.prod, n], fun idx => a.val (unflat a.shape (flat [s.prod, n] idx))⟩,
    ⟨[s.prod, n], fun idx => ∑ j ∈ Finset.range n, a.val (unflat a.shape (flat [s.prod, n] [idx.getD 0 0, j])) * entry b tb j (idx.getD 1 0)⟩,
    ⟨a.shape, fun idx => ∑ j ∈ Finset.range n, a.val (unflat a.shape (flat [s.prod, n] [(unflat [s.prod, n] (flat a.shape idx)).getD 0 0, j])) *
      entry b tb j ((unflat [s.prod, n] (flat a.shape idx)).getD 1 0)⟩, ?_, ?_, ?_, rfl, ?_⟩
  · unfold reshape
    rw [if_pos hp]
  · unfold matmul
    rw [hb]
    cases tb <;> simp [entry]
  · unfold reshape
    rw [if_pos hp.symm]
  · intro i is hv
    rw [hs] at hv
    have hlen : is.length = s.length := by have := valid_length hv; simpa using this
    have h2 : Valid s is ∧ i < n := by
      have ha := List.forall₂_take_append _ _ _ hv
      have hb := List.forall₂_drop_append _ _ _ hv
      rw [← hlen, List.take_left] at ha
      rw [← hlen, List.drop_left] at hb
      exact ⟨ha, by simpa using hb⟩
    have hl := flat_lt h2.1
    have e1 : unflat [s.prod, n] (flat a.shape (is ++ [i])) = [flat s is, i] := by
      rw [hs, flat_snoc h2.1]
      simp only [unflat, List.prod_cons, List.prod_nil, mul_one, Nat.div_one]
      rw [Nat.add_comm, Nat.add_mul_div_right _ _ hn, Nat.div_eq_of_lt h2.2, Nat.add_mul_mod_self_right, Nat.mod_eq_of_lt h2.2, Nat.zero_add]
    simp only [e1]
    refine Finset.sum_congr rfl fun j hj => ?_
    have hvj : Valid (s ++ [n]) (is ++ [j]) := List.rel_append h2.1 (.cons (Finset.mem_range.1 hj) .nil)
    have e2 : unflat a.shape (flat [s.prod, n] [flat s is, j]) = is ++ [j] := by
      rw [← unflat_flat (s := a.shape) (is := is ++ [j]) (by rw [hs]; exact hvj), hs, flat_snoc h2.1]
      simp [flat]
    simp only [List.getD_cons_zero, List.getD_cons_succ, e2]

end Neorl.Gmatmul

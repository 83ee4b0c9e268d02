import Verif.Py
import Mathlib.Algebra.BigOperators.Intervals
import Mathlib.Algebra.BigOperators.Group.Finset.Basic
import Mathlib.Algebra.Order.BigOperators.Group.Finset

/-!
# Segment trees

Model of `neorl/rl/baselines/shared/segment_tree.py`.  The capacity is `2 ^ h` (the constructor asserts a power of two, line 39);
the array `_value` of `2 * capacity` cells is a function on indices, with explicit bound checks where the code could run out of
the array.
-/

set_option linter.unusedSectionVars false
set_option linter.unusedVariables false

namespace Neorl.SegTree

/-- A segment tree, `segment_tree.py` lines 39-43. -/
structure Tree (α : Type) where
  h : ℕ
  val : ℕ → α

variable {α : Type}

/-- `self._capacity`. -/
def Tree.cap (t : Tree α) : ℕ := 2 ^ t.h

/-- `__init__`, lines 39-43: all cells hold the neutral element. -/
def new (h : ℕ) (e : α) : Tree α := ⟨h, fun _ => e⟩

/-- `unique`, lines 4-15: keep an element iff the next one differs (the last is kept). -/
def unique : List ℕ → List ℕ
  | [] => []
  | [a] => [a]
  | a :: b :: l => if b = a then unique (b :: l) else a :: unique (b :: l)

/-- Vectorised write `self._value[idxs] = vals` (line 81); numpy writes in order, so the last duplicate wins. -/
def writeAll : List (ℕ × α) → (ℕ → α) → (ℕ → α)
  | [], v => v
  | (i, x) :: l, v => writeAll l (Function.update v i x)

/-- Body of the loop of `__setitem__`, lines 88-91: all nodes in `idxs` are recomputed from their children (the right-hand side is
evaluated before the write). -/
def recompute (op : α → α → α) (idxs : List ℕ) (v : ℕ → α) : ℕ → α :=
  writeAll (idxs.map (fun i => (i, op (v (2 * i)) (v (2 * i + 1))))) v

/-- The loop of `__setitem__`, lines 86-93; `none` if it has not ended after `fuel` rounds. -/
def upLoop (op : α → α → α) : ℕ → List ℕ → (ℕ → α) → Option (ℕ → α)
  | 0, idxs, v => if idxs.length > 1 ∨ idxs.headD 0 > 0 then none else some v
  | n + 1, idxs, v =>
    if idxs.length > 1 ∨ idxs.headD 0 > 0 then
      upLoop op n (unique (idxs.map (· / 2))) (recompute op idxs v)
    else some v

/-- `__setitem__` on an index array with the values to store, lines 78-93 (an integer index is the one-element array).  Indices are
natural numbers; an index beyond the capacity raises `IndexError` (line 81), an empty index array raises in
`unique` (line 15, boolean mask of the wrong length).  Simplification: negative indices, which numpy would accept, are
not modelled.  The loop gets `h + 1` rounds; `setItems_total` shows that is always enough. -/
def setItems (op : α → α → α) (t : Tree α) (w : List (ℕ × α)) : Py (Tree α) :=
  if w = [] then .error .indexError
  else if ∀ p ∈ w, p.1 < t.cap then
    let v := writeAll (w.map (fun p => (p.1 + t.cap, p.2))) t.val
    match upLoop op (t.h + 1) (unique (w.map (fun p => (p.1 + t.cap) / 2))) v with
    | some v' => .ok ⟨t.h, v'⟩
    | none => .error .recursion
  else .error .indexError

instance [DecidableEq α] (t : Tree α) (w : List (ℕ × α)) : Decidable (∀ p ∈ w, p.1 < t.cap) := by
  infer_instance

/-- `__getitem__`, lines 95-98 (one index). -/
def getItem (t : Tree α) (i : ℕ) : Py α := if i < t.cap then .ok (t.val (t.cap + i)) else .error .assertion

/-- `_reduce_helper`, lines 45-58; `none` when the recursion is deeper than `fuel`. -/
def reduceHelper (op : α → α → α) (v : ℕ → α) : ℕ → ℤ → ℤ → ℕ → ℤ → ℤ → Option α
  | 0, _, _, _, _, _ => none
  | n + 1, s, e, node, ns, ne =>
    if s = ns ∧ e = ne then some (v node)
    else
      let mid := (ns + ne) / 2
      if e ≤ mid then reduceHelper op v n s e (2 * node) ns mid
      else if mid + 1 ≤ s then reduceHelper op v n s e (2 * node + 1) (mid + 1) ne
      else
        match reduceHelper op v n s mid (2 * node) ns mid, reduceHelper op v n (mid + 1) e (2 * node + 1) (mid + 1) ne with
        | some a, some b => some (op a b)
        | _, _ => none

/-- `reduce`, lines 60-76; the recursion gets `fuel` levels. -/
def reduceFuel (op : α → α → α) (t : Tree α) (fuel : ℕ) (start : ℤ) (stop : Option ℤ) : Option α :=
  let e := stop.getD (t.cap : ℤ)
  let e := if e < 0 then e + t.cap else e
  reduceHelper op t.val fuel start (e - 1) 1 0 ((t.cap : ℤ) - 1)

/-- `reduce` with `h + 1` recursion levels (sufficient for every non-empty range, `C35_reduce`). -/
def reduce (op : α → α → α) (t : Tree α) (start : ℤ) (stop : Option ℤ) : Py α :=
  match reduceFuel op t (t.h + 1) start stop with
  | some a => .ok a
  | none => .error .recursion

/-! ### Specification -/

/-- Specification: `f s ∘ f (s+1) ∘ ... ∘ f (s+n)`. -/
def rangeFold (op : α → α → α) (f : ℕ → α) (s : ℕ) : ℕ → α
  | 0 => f s
  | n + 1 => op (rangeFold op f s n) (f (s + n + 1))

/-- Leaves of the tree as an array. -/
def Tree.leaf (t : Tree α) (i : ℕ) : α := t.val (t.cap + i)

/-- Heap invariant: every inner node is the combination of its children. -/
def Heap (op : α → α → α) (t : Tree α) : Prop :=
  ∀ n, 1 ≤ n → n < t.cap → t.val n = op (t.val (2 * n)) (t.val (2 * n + 1))

/-! ### Helper lemmas -/

theorem mem_unique {l : List ℕ} {a : ℕ} : a ∈ unique l ↔ a ∈ l := by
  induction l with
  | nil => simp [unique]
  | cons b l ih =>
    cases l with
    | nil => simp [unique]
    | cons c l =>
      simp only [unique]
      split_ifs with h
      · subst h; rw [ih]; simp
      · rw [List.mem_cons, ih]; simp

theorem unique_const {l : List ℕ} {a : ℕ} (hl : l ≠ []) (h : ∀ x ∈ l, x = a) : unique l = [a] := by
  induction l with
  | nil => exact absurd rfl hl
  | cons b l ih =>
    have hb := h b (by simp)
    cases l with
    | nil => simp [unique, hb]
    | cons c l =>
      have hc := h c (by simp)
      simp only [unique]
      rw [if_pos (by rw [hb, hc])]
      exact ih (by simp) (fun x hx => h x (by simp at hx; simp [hx]))

theorem unique_ne_nil {l : List ℕ} (hl : l ≠ []) : unique l ≠ [] := by
  cases l with
  | nil => exact absurd rfl hl
  | cons a l =>
    have : a ∈ unique (a :: l) := mem_unique.2 (by simp)
    intro h; rw [h] at this; simp at this

theorem writeAll_not_mem {w : List (ℕ × α)} {v : ℕ → α} {i : ℕ} (h : ∀ p ∈ w, p.1 ≠ i) : writeAll w v i = v i := by
  induction w generalizing v with
  | nil => rfl
  | cons p w ih =>
    obtain ⟨j, x⟩ := p
    simp only [writeAll]
    rw [ih (fun q hq => h q (by simp [hq]))]
    exact Function.update_of_ne (fun hij => h (j, x) (by simp) hij.symm) _ _

/-- If all writes to cell `i` carry the value `x` and there is one, the cell holds `x`. -/
theorem writeAll_mem {w : List (ℕ × α)} {v : ℕ → α} {i : ℕ} {x : α} (hm : (i, x) ∈ w) (h : ∀ y, (i, y) ∈ w → y = x) :
    writeAll w v i = x := by
  induction w generalizing v with
  | nil => simp at hm
  | cons p w ih =>
    obtain ⟨j, y⟩ := p
    simp only [writeAll]
    by_cases hw : ∃ z, (i, z) ∈ w
    · obtain ⟨z, hz⟩ := hw
      have : z = x := h z (by simp [hz])
      subst this
      exact ih hz (fun y hy => h y (by simp [hy]))
    · rw [writeAll_not_mem (fun q hq hqi => hw ⟨q.2, by rw [← hqi]; exact hq⟩)]
      rcases List.mem_cons.1 hm with hm | hm
      · cases hm; simp
      · exact absurd ⟨x, hm⟩ hw

theorem recompute_mem (op : α → α → α) {idxs : List ℕ} {v : ℕ → α} {i : ℕ} (h : i ∈ idxs) :
    recompute op idxs v i = op (v (2 * i)) (v (2 * i + 1)) := by
  unfold recompute
  apply writeAll_mem
  · exact List.mem_map.2 ⟨i, h, rfl⟩
  · intro y hy
    obtain ⟨j, _, hj⟩ := List.mem_map.1 hy
    simp only [Prod.mk.injEq] at hj
    obtain ⟨rfl, rfl⟩ := hj
    rfl

theorem recompute_not_mem (op : α → α → α) {idxs : List ℕ} {v : ℕ → α} {i : ℕ} (h : i ∉ idxs) :
    recompute op idxs v i = v i := by
  unfold recompute
  apply writeAll_not_mem
  intro p hp
  obtain ⟨j, hj, rfl⟩ := List.mem_map.1 hp
  rintro rfl; exact h hj

/-- Main lemma of the write loop: `idxs` are nodes of one level `d` and the heap property holds below and wherever no
ancestor-or-self of a listed node is involved; then the loop ends and restores the heap property, leaving deeper levels alone. -/
theorem upLoop_spec (op : α → α → α) (cap : ℕ) {fuel : ℕ} : ∀ {d : ℕ} {idxs : List ℕ} {v : ℕ → α},
    d < fuel → idxs ≠ [] → (∀ i ∈ idxs, 2 ^ d ≤ i ∧ i < 2 ^ (d + 1)) → 2 ^ (d + 1) ≤ cap →
    (∀ n, 1 ≤ n → n < cap → (∀ i ∈ idxs, ∀ k, n ≠ i / 2 ^ k) → v n = op (v (2 * n)) (v (2 * n + 1))) →
    ∃ v', upLoop op fuel idxs v = some v' ∧ (∀ n, 1 ≤ n → n < cap → v' n = op (v' (2 * n)) (v' (2 * n + 1))) ∧
      (∀ n, 2 ^ (d + 1) ≤ n → v' n = v n) := by
  induction fuel with
  | zero => intro d idxs v h; omega
  | succ fuel ih =>
    intro d idxs v hd hne hlev hcap hheap
    have hcond : idxs.length > 1 ∨ idxs.headD 0 > 0 := by
      right
      cases idxs with
      | nil => exact absurd rfl hne
      | cons a l =>
        have := (hlev a (by simp)).1
        have h2 : 0 < 2 ^ d := Nat.two_pow_pos d
        simp only [List.headD_cons]; omega
    simp only [upLoop, if_pos hcond]
    have hnew : ∀ n, 1 ≤ n → n < cap → (∀ i ∈ idxs, ∀ k, n ≠ i / 2 ^ (k + 1)) →
        recompute op idxs v n = op (recompute op idxs v (2 * n)) (recompute op idxs v (2 * n + 1)) := by
      intro n h1 h2 hn
      have c1 : 2 * n ∉ idxs := by
        intro hm; exact hn _ hm 0 (by simp)
      have c2 : 2 * n + 1 ∉ idxs := by
        intro hm; exact hn _ hm 0 (by simp; omega)
      rw [recompute_not_mem op c1, recompute_not_mem op c2]
      by_cases hni : n ∈ idxs
      · rw [recompute_mem op hni]
      · rw [recompute_not_mem op hni]
        apply hheap n h1 h2
        intro i hi k
        cases k with
        | zero => rw [pow_zero, Nat.div_one]; rintro rfl; exact hni hi
        | succ k => exact hn i hi k
    have hdeep : ∀ n, 2 ^ (d + 1) ≤ n → recompute op idxs v n = v n := by
      intro n hn
      apply recompute_not_mem
      intro hm
      have := (hlev n hm).2; omega
    cases d with
    | zero =>
      have hone : ∀ i ∈ idxs, i = 1 := by
        intro i hi; have := hlev i hi; simp at this; omega
      have hu : unique (idxs.map (· / 2)) = [0] := by
        apply unique_const
        · simpa using hne
        · intro x hx
          obtain ⟨i, hi, rfl⟩ := List.mem_map.1 hx
          rw [hone i hi]
      rw [hu]
      have hstop : upLoop op fuel [0] (recompute op idxs v) = some (recompute op idxs v) := by
        cases fuel <;> simp [upLoop]
      refine ⟨_, hstop, ?_, hdeep⟩
      intro n h1 h2
      apply hnew n h1 h2
      intro i hi k
      rw [hone i hi, Nat.div_eq_of_lt]
      · omega
      · exact Nat.one_lt_two_pow (by omega)
    | succ d =>
      have hlev' : ∀ i ∈ unique (idxs.map (· / 2)), 2 ^ d ≤ i ∧ i < 2 ^ (d + 1) := by
        intro i hi
        obtain ⟨j, hj, rfl⟩ := List.mem_map.1 (mem_unique.1 hi)
        have := hlev j hj
        rw [pow_succ 2 (d + 1), pow_succ 2 d] at this
        rw [pow_succ 2 d]
        constructor <;> omega
      obtain ⟨v', h1, h2, h3⟩ := ih (d := d) (idxs := unique (idxs.map (· / 2))) (v := recompute op idxs v) (by omega)
        (unique_ne_nil (by simpa using hne)) hlev' (by rw [pow_succ 2 (d + 1)] at hcap; omega) (by
          intro n hn1 hn2 hn
          apply hnew n hn1 hn2
          intro i hi k
          have := hn (i / 2) (mem_unique.2 (List.mem_map.2 ⟨i, hi, rfl⟩)) k
          rw [Nat.div_div_eq_div_mul] at this
          rwa [pow_succ', ])
      refine ⟨v', h1, h2, ?_⟩
      intro n hn
      rw [h3 n (by rw [pow_succ 2 (d + 1)] at hn; omega), hdeep n hn]

theorem rangeFold_append {op : α → α → α} (ha : ∀ a b c, op (op a b) c = op a (op b c)) (f : ℕ → α) (s m n : ℕ) :
    rangeFold op f s (m + n + 1) = op (rangeFold op f s m) (rangeFold op f (s + m + 1) n) := by
  induction n with
  | zero => simp [rangeFold]
  | succ n ih =>
    rw [show m + (n + 1) + 1 = (m + n + 1) + 1 by omega]
    simp only [rangeFold] at ih ⊢
    rw [ih, ha]
    congr 3
    omega

/-- The value of a node at height `k` is the fold over the leaves below it. -/
theorem node_fold {op : α → α → α} (ha : ∀ a b c, op (op a b) c = op a (op b c)) {t : Tree α} (hh : Heap op t) {k : ℕ} :
    ∀ {n : ℕ}, 1 ≤ n → 2 ^ t.h ≤ n * 2 ^ k → n * 2 ^ k < 2 ^ (t.h + 1) →
      t.val n = rangeFold op t.val (n * 2 ^ k) (2 ^ k - 1) := by
  induction k with
  | zero => intro n h1 h2 h3; simp [rangeFold]
  | succ k ih =>
    intro n h1 h2 h3
    have hp : 0 < 2 ^ k := Nat.two_pow_pos k
    have hlt : n < t.cap := by
      unfold Tree.cap
      by_contra hc
      push Not at hc
      have h4 : 2 ^ t.h * 2 ^ (k + 1) ≤ n * 2 ^ (k + 1) := Nat.mul_le_mul_right _ hc
      have h5 : 2 ^ (t.h + 1) ≤ 2 ^ t.h * 2 ^ (k + 1) := by
        rw [← pow_add]; exact Nat.pow_le_pow_right (by norm_num) (by omega)
      omega
    have e1 : 2 * n * 2 ^ k = n * 2 ^ (k + 1) := by rw [pow_succ]; ring
    have e2 : (2 * n + 1) * 2 ^ k = n * 2 ^ (k + 1) + 2 ^ k := by rw [pow_succ]; ring
    have e3 : n * 2 ^ (k + 1) + 2 ^ k < 2 ^ (t.h + 1) := by
      have hle : k + 1 ≤ t.h := by
        by_contra hc
        push Not at hc
        have h6 : 2 ^ (t.h + 1) ≤ 2 ^ (k + 1) := Nat.pow_le_pow_right (by norm_num) (by omega)
        have h7 : 2 ^ (k + 1) ≤ n * 2 ^ (k + 1) := Nat.le_mul_of_pos_left _ h1
        omega
      have h8 : 2 ^ (t.h + 1) = 2 ^ (t.h - k) * 2 ^ (k + 1) := by
        rw [← pow_add]; congr 1; omega
      have h9 : n < 2 ^ (t.h - k) := by
        rw [h8] at h3
        exact lt_of_mul_lt_mul_right h3 (Nat.zero_le _)
      have h10 : (n + 1) * 2 ^ (k + 1) ≤ 2 ^ (t.h + 1) := by
        rw [h8]; exact Nat.mul_le_mul_right _ h9
      have h11 : (n + 1) * 2 ^ (k + 1) = n * 2 ^ (k + 1) + 2 ^ (k + 1) := by ring
      have h12 : 2 ^ (k + 1) = 2 ^ k + 2 ^ k := by rw [pow_succ]; omega
      omega
    have i1 := ih (n := 2 * n) (by omega) (by rw [e1]; exact h2) (by rw [e1]; exact h3)
    have i2 := ih (n := 2 * n + 1) (by omega) (by rw [e2]; omega) (by rw [e2]; exact e3)
    rw [hh n h1 hlt, i1, i2, e1, e2]
    have : 2 ^ (k + 1) - 1 = (2 ^ k - 1) + (2 ^ k - 1) + 1 := by rw [pow_succ]; omega
    rw [this, rangeFold_append ha]
    congr 2
    omega

theorem rangeFold_shift (op : α → α → α) (f g : ℕ → α) (s s' n : ℕ) (h : ∀ i, i ≤ n → f (s + i) = g (s' + i)) :
    rangeFold op f s n = rangeFold op g s' n := by
  induction n with
  | zero => simpa [rangeFold] using h 0 le_rfl
  | succ n ih =>
    simp only [rangeFold]
    rw [ih (fun i hi => h i (by omega)), show s + n + 1 = s + (n + 1) by omega, h (n + 1) le_rfl]
    rfl

/-- Recursion of `_reduce_helper` on a node of height `k` covering `[a, a + 2^k)`. -/
theorem reduceHelper_spec {op : α → α → α} (ha : ∀ a b c, op (op a b) c = op a (op b c)) {t : Tree α} (hh : Heap op t)
    {k : ℕ} : ∀ {n fuel s e : ℕ}, k < fuel → 1 ≤ n → 2 ^ t.h ≤ n * 2 ^ k → n * 2 ^ k < 2 ^ (t.h + 1) →
      n * 2 ^ k - 2 ^ t.h ≤ s → s ≤ e → e < n * 2 ^ k - 2 ^ t.h + 2 ^ k →
      reduceHelper op t.val fuel (s : ℤ) (e : ℤ) n ((n * 2 ^ k - 2 ^ t.h : ℕ) : ℤ)
        (((n * 2 ^ k - 2 ^ t.h + 2 ^ k - 1 : ℕ)) : ℤ) = some (rangeFold op t.val (2 ^ t.h + s) (e - s)) := by
  induction k with
  | zero =>
    intro n fuel s e hf h1 h2 h3 h4 h5 h6
    cases fuel with
    | zero => omega
    | succ fuel =>
      simp only [pow_zero, mul_one] at *
      have hs : s = n - 2 ^ t.h := by omega
      have he : e = s := by omega
      simp only [reduceHelper]
      rw [if_pos (by omega)]
      subst he
      simp only [Nat.sub_self, rangeFold]
      congr 2; omega
  | succ k ih =>
    intro n fuel s e hf h1 h2 h3 h4 h5 h6
    cases fuel with
    | zero => omega
    | succ fuel =>
      have hp : 0 < 2 ^ k := Nat.two_pow_pos k
      have e0 : 2 ^ (k + 1) = 2 ^ k + 2 ^ k := by rw [pow_succ]; omega
      have e1 : 2 * n * 2 ^ k = n * 2 ^ (k + 1) := by rw [pow_succ]; ring
      have e2 : (2 * n + 1) * 2 ^ k = n * 2 ^ (k + 1) + 2 ^ k := by rw [pow_succ]; ring
      have e3 : n * 2 ^ (k + 1) + 2 ^ k < 2 ^ (t.h + 1) := by
        have hle : k + 1 ≤ t.h := by
          by_contra hc
          push Not at hc
          have h6 : 2 ^ (t.h + 1) ≤ 2 ^ (k + 1) := Nat.pow_le_pow_right (by norm_num) (by omega)
          have h7 : 2 ^ (k + 1) ≤ n * 2 ^ (k + 1) := Nat.le_mul_of_pos_left _ h1
          omega
        have h8 : 2 ^ (t.h + 1) = 2 ^ (t.h - k) * 2 ^ (k + 1) := by
          rw [← pow_add]; congr 1; omega
        have h9 : n < 2 ^ (t.h - k) := by
          rw [h8] at h3
          exact lt_of_mul_lt_mul_right h3 (Nat.zero_le _)
        have h10 : (n + 1) * 2 ^ (k + 1) ≤ 2 ^ (t.h + 1) := by
          rw [h8]; exact Nat.mul_le_mul_right _ h9
        have h11 : (n + 1) * 2 ^ (k + 1) = n * 2 ^ (k + 1) + 2 ^ (k + 1) := by ring
        omega
      simp only [reduceHelper]
      split_ifs with c1 c2 c3
      · have q1 : s = n * 2 ^ (k + 1) - 2 ^ t.h := by omega
        have q2 : e = n * 2 ^ (k + 1) - 2 ^ t.h + 2 ^ (k + 1) - 1 := by omega
        rw [node_fold ha hh h1 h2 h3]
        congr 2 <;> omega
      · have := ih (n := 2 * n) (fuel := fuel) (s := s) (e := e) (by omega) (by omega) (by omega) (by omega)
          (by omega) h5 (by rw [e1]; omega)
        rw [e1] at this
        rw [← this]
        congr 1; omega
      · have := ih (n := 2 * n + 1) (fuel := fuel) (s := s) (e := e) (by omega) (by omega) (by omega) (by omega)
          (by rw [e2]; omega) h5 (by rw [e2]; omega)
        rw [e2] at this
        rw [← this]
        congr 1 <;> omega
      · have hm : ((n * 2 ^ (k + 1) - 2 ^ t.h : ℕ) + (n * 2 ^ (k + 1) - 2 ^ t.h + 2 ^ (k + 1) - 1 : ℕ) : ℤ) / 2
            = ((n * 2 ^ (k + 1) - 2 ^ t.h + 2 ^ k - 1 : ℕ) : ℤ) := by omega
        rw [hm] at c2 c3 ⊢
        have i1 := ih (n := 2 * n) (fuel := fuel) (s := s) (e := n * 2 ^ (k + 1) - 2 ^ t.h + 2 ^ k - 1) (by omega)
          (by omega) (by omega) (by omega) (by omega) (by omega) (by rw [e1]; omega)
        have i2 := ih (n := 2 * n + 1) (fuel := fuel) (s := n * 2 ^ (k + 1) - 2 ^ t.h + 2 ^ k) (e := e) (by omega)
          (by omega) (by omega) (by omega) (by rw [e2]; omega) (by omega) (by rw [e2]; omega)
        rw [e1] at i1
        rw [e2] at i2
        have g1 : ((n * 2 ^ (k + 1) - 2 ^ t.h + 2 ^ k - 1 : ℕ) : ℤ) + 1 = ((n * 2 ^ (k + 1) - 2 ^ t.h + 2 ^ k : ℕ) : ℤ) := by
          omega
        have g2 : n * 2 ^ (k + 1) + 2 ^ k - 2 ^ t.h = n * 2 ^ (k + 1) - 2 ^ t.h + 2 ^ k := by omega
        have g3 : n * 2 ^ (k + 1) - 2 ^ t.h + 2 ^ k + 2 ^ k - 1 = n * 2 ^ (k + 1) - 2 ^ t.h + 2 ^ (k + 1) - 1 := by omega
        rw [g2, g3] at i2
        rw [g1, i1, i2]
        simp only [Option.some.injEq]
        have g4 : e - s = (n * 2 ^ (k + 1) - 2 ^ t.h + 2 ^ k - 1 - s) + (e - (n * 2 ^ (k + 1) - 2 ^ t.h + 2 ^ k)) + 1 := by
          omega
        rw [g4, rangeFold_append ha]
        congr 2
        omega

/-- `_reduce_helper` never returns on an empty range. -/
theorem reduceHelper_empty (op : α → α → α) (v : ℕ → α) {fuel : ℕ} : ∀ {s e ns ne : ℤ} {node : ℕ}, e < s →
    (ns ≤ ne ∨ (ns = ne + 1 ∧ ne < e)) → reduceHelper op v fuel s e node ns ne = none := by
  induction fuel with
  | zero => intros; rfl
  | succ n ih =>
    intro s e ns ne node h1 h2
    simp only [reduceHelper]
    rw [if_neg (by omega)]
    split_ifs with c1 c2
    · exact ih h1 (by omega)
    · exact ih h1 (by omega)
    · omega

/-! ### Prefix-sum search -/

section
variable {K : Type} [Field K] [LinearOrder K] [IsStrictOrderedRing K]

/-- One element of the vectorised search state: node index, remaining prefix sum, and the `cont` flag. -/
structure Probe (K : Type) where
  idx : ℕ
  ps : K
  cont : Bool

/-- Body of the loop of `find_prefixsum_idx` for one element, lines 142-149.  The array has `2 * cap` cells, reading beyond raises
`IndexError`.  Inactive elements (`cont` false) keep their index. -/
def probeStep (t : Tree K) (p : Probe K) : Py (Probe K) :=
  let i := if p.cont then 2 * p.idx else p.idx
  if i < 2 * t.cap then
    let ps' := if t.val i ≤ p.ps then p.ps - t.val i else p.ps
    let i' := if t.val i > p.ps ∨ p.cont = false then i else i + 1
    .ok ⟨i', ps', decide (i' < t.cap)⟩
  else .error .indexError

/-- The vectorised body: every element is stepped (numpy evaluates all of them, lines 142-149). -/
def probeAll (t : Tree K) : List (Probe K) → Py (List (Probe K))
  | [] => .ok []
  | p :: ps =>
    match probeStep t p, probeAll t ps with
    | .ok q, .ok qs => .ok (q :: qs)
    | .error e, _ => .error e
    | _, .error e => .error e

/-- The `while np.any(cont)` loop, lines 141-150. -/
def findLoop (t : Tree K) : ℕ → List (Probe K) → Py (List (Probe K))
  | 0, l => if l.any (·.cont) then .error .recursion else .ok l
  | n + 1, l =>
    if l.any (·.cont) then
      match probeAll t l with
      | .error e => .error e
      | .ok l' => findLoop t n l'
    else .ok l

/-- `find_prefixsum_idx`, lines 132-151.  `eps` is the tolerance `1e-5` of line 135; `np.min` of an empty query raises
`ValueError`.  The loop gets `h + 1` rounds, which is enough (`findPrefix_ok`). -/
def findPrefix (eps : K) (t : Tree K) (q : List K) : Py (List ℕ) :=
  if q = [] then .error .valueError
  else if ¬ (∀ s ∈ q, 0 ≤ s) then .error .assertion
  else
    match reduce (· + ·) t 0 none with
    | .error e => .error e
    | .ok tot =>
      if ¬ (∀ s ∈ q, s ≤ tot + eps) then .error .assertion
      else
        match findLoop t (t.h + 1) (q.map (fun s => ⟨1, s, true⟩)) with
        | .error e => .error e
        | .ok l => .ok (l.map (fun p => p.idx - t.cap))

/-- Specification: sum of the first `i` stored values. -/
def prefixSum (t : Tree K) (i : ℕ) : K := ∑ j ∈ Finset.range i, t.leaf j

theorem rangeFold_add (f : ℕ → K) (s n : ℕ) : rangeFold (· + ·) f s n = ∑ i ∈ Finset.range (n + 1), f (s + i) := by
  induction n with
  | zero => simp [rangeFold]
  | succ n ih => rw [Finset.sum_range_succ, ← ih]; rfl

/-- Value of a node of height `k` in a sum tree: difference of two prefix sums. -/
theorem node_sum {t : Tree K} (hh : Heap (· + ·) t) {k n : ℕ} (h1 : 1 ≤ n) (h2 : 2 ^ t.h ≤ n * 2 ^ k)
    (h3 : n * 2 ^ k < 2 ^ (t.h + 1)) :
    t.val n = prefixSum t (n * 2 ^ k - 2 ^ t.h + 2 ^ k) - prefixSum t (n * 2 ^ k - 2 ^ t.h) := by
  rw [node_fold (fun a b c => add_assoc a b c) hh h1 h2 h3, rangeFold_add]
  have hp : 0 < 2 ^ k := Nat.two_pow_pos k
  have : 2 ^ k - 1 + 1 = 2 ^ k := by omega
  rw [this]
  unfold prefixSum
  rw [Finset.sum_range_add, add_sub_cancel_left]
  apply Finset.sum_congr rfl
  intro i _
  unfold Tree.leaf Tree.cap
  congr 1; omega

theorem prefixSum_mono {t : Tree K} (hn : ∀ j < t.cap, 0 ≤ t.leaf j) {a b : ℕ} (hab : a ≤ b) (hb : b ≤ t.cap) :
    prefixSum t a ≤ prefixSum t b := by
  unfold prefixSum
  apply Finset.sum_le_sum_of_subset_of_nonneg
  · intro x hx; simp only [Finset.mem_range] at *; omega
  · intro x hx _; simp only [Finset.mem_range] at hx; exact hn x (by omega)

/-- Invariant of the descent for the query `s`: the probe stands at a node of height `k`; if `s` is below the total then the node
covers `s`, otherwise the probe stands at the rightmost node. -/
structure ProbeInv (t : Tree K) (s : K) (k : ℕ) (p : Probe K) : Prop where
  pos : 1 ≤ p.idx
  lo : 2 ^ t.h ≤ p.idx * 2 ^ k
  hi : p.idx * 2 ^ k < 2 ^ (t.h + 1)
  below : s < prefixSum t t.cap → 0 ≤ p.ps ∧ p.ps < t.val p.idx ∧ prefixSum t (p.idx * 2 ^ k - 2 ^ t.h) + p.ps = s
  above : prefixSum t t.cap ≤ s → (p.idx + 1) * 2 ^ k = 2 ^ (t.h + 1) ∧ t.val p.idx ≤ p.ps

theorem node_hi {h k n : ℕ} (h1 : 1 ≤ n) (h3 : n * 2 ^ k < 2 ^ (h + 1)) : (n + 1) * 2 ^ k ≤ 2 ^ (h + 1) := by
  have hle : k ≤ h := by
    by_contra hc
    push Not at hc
    have h6 : 2 ^ (h + 1) ≤ 2 ^ k := Nat.pow_le_pow_right (by norm_num) (by omega)
    have h7 : 2 ^ k ≤ n * 2 ^ k := Nat.le_mul_of_pos_left _ h1
    omega
  have h8 : 2 ^ (h + 1) = 2 ^ (h + 1 - k) * 2 ^ k := by
    rw [← pow_add]; congr 1; omega
  rw [h8] at h3 ⊢
  exact Nat.mul_le_mul_right _ (lt_of_mul_lt_mul_right h3 (Nat.zero_le _))

theorem probeStep_spec {t : Tree K} (hh : Heap (· + ·) t) (hn : ∀ j < t.cap, 0 ≤ t.leaf j) {s : K} {k : ℕ}
    {p : Probe K} (hp : ProbeInv t s (k + 1) p) (hc : p.cont = true) :
    ∃ q, probeStep t p = .ok q ∧ ProbeInv t s k q ∧ q.cont = decide (0 < k) := by
  obtain ⟨p1, p2, p3, p4, p5⟩ := hp
  obtain ⟨n, ps, cont⟩ := p
  simp only at *
  subst hc
  have hk : 0 < 2 ^ k := Nat.two_pow_pos k
  have e0 : 2 ^ (k + 1) = 2 ^ k + 2 ^ k := by rw [pow_succ]; omega
  have e1 : 2 * n * 2 ^ k = n * 2 ^ (k + 1) := by rw [pow_succ]; ring
  have e2 : (2 * n + 1) * 2 ^ k = n * 2 ^ (k + 1) + 2 ^ k := by rw [pow_succ]; ring
  have ehi := node_hi p1 p3
  have e3 : (n + 1) * 2 ^ (k + 1) = n * 2 ^ (k + 1) + 2 ^ (k + 1) := by ring
  have hcap : t.cap = 2 ^ t.h := rfl
  have e4 : 2 ^ (t.h + 1) = 2 * 2 ^ t.h := by rw [pow_succ]; omega
  have hn2 : 2 * n < 2 * t.cap := by
    have : 2 * n ≤ 2 * n * 2 ^ k := Nat.le_mul_of_pos_right _ hk
    omega
  have hncap : n < t.cap := by omega
  have hsum : t.val n = t.val (2 * n) + t.val (2 * n + 1) := hh n p1 hncap
  have v1 := node_sum hh (k := k) (n := 2 * n) (by omega) (by omega) (by omega)
  have v2 := node_sum hh (k := k) (n := 2 * n + 1) (by omega) (by omega) (by omega)
  rw [e1] at v1
  rw [e2] at v2
  have g1 : n * 2 ^ (k + 1) + 2 ^ k - 2 ^ t.h = n * 2 ^ (k + 1) - 2 ^ t.h + 2 ^ k := by omega
  rw [g1] at v2
  have hv2 : 0 ≤ t.val (2 * n + 1) := by
    rw [v2]
    exact sub_nonneg.2 (prefixSum_mono hn (by omega) (by omega))
  have hcont : ∀ m, 2 ^ t.h ≤ m * 2 ^ k → m * 2 ^ k < 2 ^ (t.h + 1) → 1 ≤ m → (decide (m < t.cap)) = decide (0 < k) := by
    intro m m1 m2 m3
    rw [decide_eq_decide]
    constructor
    · intro hm
      by_contra h0
      have : k = 0 := by omega
      subst this; simp at m1; omega
    · intro h0
      have : 2 ^ k = 2 * 2 ^ (k - 1) := by rw [← pow_succ']; congr 1; omega
      have h5 : 0 < 2 ^ (k - 1) := Nat.two_pow_pos _
      rw [this] at m2
      have h6 : m * (2 * 2 ^ (k - 1)) = 2 * (m * 2 ^ (k - 1)) := by ring
      have h7 : m ≤ m * 2 ^ (k - 1) := Nat.le_mul_of_pos_right _ h5
      omega
  unfold probeStep
  simp only [if_true]
  rw [if_pos hn2]
  by_cases hle : t.val (2 * n) ≤ ps
  · have hgt : ¬ (t.val (2 * n) > ps ∨ (true : Bool) = false) := by simp [hle]
    refine ⟨_, rfl, ?_, ?_⟩
    · simp only [if_pos hle, if_neg hgt]
      refine ⟨by simp only; omega, by simp only; omega, by simp only; omega, ?_, ?_⟩
      · intro hs
        obtain ⟨a1, a2, a3⟩ := p4 hs
        simp only
        refine ⟨by linarith, by linarith, ?_⟩
        rw [e2, g1, ← a3]
        rw [v1] at *
        ring
      · intro hs
        obtain ⟨a1, a2⟩ := p5 hs
        simp only
        refine ⟨?_, by linarith⟩
        rw [← a1, add_mul, e2, e3, e0]; omega
    · simp only [if_neg hgt]
      exact hcont _ (by omega) (by omega) (by omega)
  · have hgt : (t.val (2 * n) > ps ∨ (true : Bool) = false) := by left; exact not_le.1 hle
    refine ⟨_, rfl, ?_, ?_⟩
    · simp only [if_neg hle, if_pos hgt]
      refine ⟨by simp only; omega, by simp only; omega, by simp only; omega, ?_, ?_⟩
      · intro hs
        obtain ⟨a1, a2, a3⟩ := p4 hs
        simp only
        exact ⟨a1, not_le.1 hle, by rw [e1]; exact a3⟩
      · intro hs
        obtain ⟨a1, a2⟩ := p5 hs
        exact absurd (by linarith : t.val (2 * n) ≤ ps) hle
    · simp only [if_pos hgt]
      exact hcont _ (by omega) (by omega) (by omega)

theorem probeAll_spec {t : Tree K} (hh : Heap (· + ·) t) (hn : ∀ j < t.cap, 0 ≤ t.leaf j) {k : ℕ} {q : List K}
    {l : List (Probe K)} (hl : List.Forall₂ (fun s p => ProbeInv t s (k + 1) p ∧ p.cont = true) q l) :
    ∃ l', probeAll t l = .ok l' ∧ List.Forall₂ (fun s p => ProbeInv t s k p ∧ p.cont = decide (0 < k)) q l' := by
  induction hl with
  | nil => exact ⟨[], rfl, .nil⟩
  | cons h _ ih =>
    obtain ⟨l', h1, h2⟩ := ih
    obtain ⟨p', h3, h4⟩ := probeStep_spec hh hn h.1 h.2
    refine ⟨p' :: l', ?_, .cons h4 h2⟩
    simp only [probeAll, h3, h1]

theorem findLoop_spec {t : Tree K} (hh : Heap (· + ·) t) (hn : ∀ j < t.cap, 0 ≤ t.leaf j) {k : ℕ} :
    ∀ {fuel : ℕ} {q : List K} {l : List (Probe K)}, k ≤ fuel → q ≠ [] →
      List.Forall₂ (fun s p => ProbeInv t s k p ∧ p.cont = decide (0 < k)) q l →
      ∃ l', findLoop t fuel l = .ok l' ∧ List.Forall₂ (fun s p => ProbeInv t s 0 p) q l' := by
  induction k with
  | zero =>
    intro fuel q l hf hq hl
    have hany : l.any (·.cont) = false := by
      rw [List.any_eq_false]
      intro p hp
      obtain ⟨i, hi⟩ := List.mem_iff_getElem?.1 hp
      clear hq
      induction hl generalizing i with
      | nil => simp at hi
      | cons h _ ih =>
        cases i with
        | zero => simp at hi; subst hi; simp [h.2]
        | succ i =>
          simp only [List.getElem?_cons_succ] at hi
          exact ih (List.mem_of_getElem? hi) i hi
    refine ⟨l, ?_, hl.imp (fun _ _ h => h.1)⟩
    cases fuel <;> simp [findLoop, hany]
  | succ k ih =>
    intro fuel q l hf hq hl
    cases fuel with
    | zero => omega
    | succ fuel =>
      have hany : l.any (·.cont) = true := by
        cases hl with
        | nil => exact absurd rfl hq
        | cons h _ => simp [h.2]
      obtain ⟨l', h1, h2⟩ := probeAll_spec hh hn (hl.imp (fun _ _ h => ⟨h.1, by simpa using h.2⟩))
      obtain ⟨l'', h3, h4⟩ := ih (fuel := fuel) (by omega) hq h2
      refine ⟨l'', ?_, h4⟩
      simp only [findLoop, hany, if_true, h1, h3]

end

end Neorl.SegTree

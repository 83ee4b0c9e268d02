import Verif.SegTree

/-!
# Property theorems C35, C36: segment trees
-/

set_option linter.unusedSectionVars false
set_option linter.unusedVariables false

namespace Neorl.SegTree

variable {α : Type}

/-- Specification of a history of writes: value of cell `i` after the writes `w` (in order) on top of `d`. -/
def lastWrite (w : List (ℕ × α)) (i : ℕ) (d : α) : α := (w.reverse.lookup i).getD d

private theorem lookup_append {l m : List (ℕ × α)} {i : ℕ} :
    (l ++ m).lookup i = (l.lookup i).or (m.lookup i) := by
  induction l with
  | nil => simp
  | cons p l ih =>
    obtain ⟨j, x⟩ := p
    rw [List.cons_append, List.lookup_cons, List.lookup_cons]
    cases h : (i == j) <;> simp [ih]

private theorem writeAll_eq (w : List (ℕ × α)) (v : ℕ → α) (c i : ℕ) :
    writeAll (w.map (fun p => (p.1 + c, p.2))) v (c + i) = lastWrite w i (v (c + i)) := by
  induction w generalizing v with
  | nil => simp [writeAll, lastWrite]
  | cons p w ih =>
    obtain ⟨j, x⟩ := p
    simp only [List.map_cons, writeAll]
    rw [ih]
    unfold lastWrite
    rw [List.reverse_cons, lookup_append]
    by_cases hij : i = j
    · subst hij
      have : c + i = i + c := by omega
      rw [this, Function.update_self]
      simp only [List.lookup_cons, beq_self_eq_true]
      cases w.reverse.lookup i <;> simp
    · rw [Function.update_of_ne (by omega)]
      have hb : (i == j) = false := by simpa using hij
      simp only [List.lookup_cons, hb, List.lookup_nil, Option.or_none]

/-- **C35, creation.** A new tree is well formed and all its cells hold the neutral element. -/
theorem C35_new {op : α → α → α} {e : α} (he : op e e = e) (h : ℕ) :
    Heap op (new h e) ∧ (new h e).cap = 2 ^ h ∧ ∀ i, (new h e).leaf i = e :=
  ⟨fun n _ _ => he.symm, rfl, fun _ => rfl⟩

/-- **C35, write.** Writing any non-empty batch of in-range cells (repeated and unsorted indices allowed) terminates without
exception, keeps the tree well formed, gives every written cell the last value written to it and leaves the
others alone. -/
theorem C35_write {op : α → α → α} {t : Tree α} (hh : Heap op t) {w : List (ℕ × α)} (hw : w ≠ [])
    (hr : ∀ p ∈ w, p.1 < t.cap) :
    ∃ t', setItems op t w = .ok t' ∧ Heap op t' ∧ t'.cap = t.cap ∧
      ∀ i, i < t.cap → t'.leaf i = lastWrite w i (t.leaf i) := by
  unfold setItems
  rw [if_neg hw, if_pos hr]
  have hinner : ∀ n, n < t.cap → writeAll (w.map (fun p => (p.1 + t.cap, p.2))) t.val n = t.val n := by
    intro n hn
    apply writeAll_not_mem
    intro p hp
    obtain ⟨q, _, rfl⟩ := List.mem_map.1 hp
    simp only; omega
  rcases Nat.eq_zero_or_pos t.h with h0 | h0
  · have hcap : t.cap = 1 := by simp [Tree.cap, h0]
    have hu : unique (w.map (fun p => (p.1 + t.cap) / 2)) = [0] := by
      apply unique_const
      · simpa using hw
      · intro x hx
        obtain ⟨p, hp, rfl⟩ := List.mem_map.1 hx
        have := hr p hp
        omega
    simp only [hu, h0, upLoop]
    refine ⟨_, rfl, ?_, ?_, ?_⟩
    · intro n h1 h2; simp [Tree.cap] at h2; omega
    · simp [Tree.cap, h0]
    · intro i _
      have := writeAll_eq w t.val t.cap i
      simpa [Tree.leaf, Tree.cap, h0] using this
  · obtain ⟨d, hd⟩ : ∃ d, t.h = d + 1 := ⟨t.h - 1, by omega⟩
    have hcap : t.cap = 2 ^ (d + 1) := by simp [Tree.cap, hd]
    have hcap2 : t.cap = 2 ^ d + 2 ^ d := by rw [hcap, pow_succ]; omega
    have hlev : ∀ i ∈ unique (w.map (fun p => (p.1 + t.cap) / 2)), 2 ^ d ≤ i ∧ i < 2 ^ (d + 1) := by
      intro i hi
      obtain ⟨p, hp, rfl⟩ := List.mem_map.1 (mem_unique.1 hi)
      have := hr p hp
      rw [← hcap]
      constructor <;> omega
    obtain ⟨v', g1, g2, g3⟩ := upLoop_spec op t.cap (fuel := t.h + 1) (d := d)
      (idxs := unique (w.map (fun p => (p.1 + t.cap) / 2)))
      (v := writeAll (w.map (fun p => (p.1 + t.cap, p.2))) t.val) (by omega) (unique_ne_nil (by simpa using hw)) hlev
      (le_of_eq hcap.symm) (by
        intro n h1 h2 hn
        have hnp : ∀ m, m / 2 = n → writeAll (w.map (fun p => (p.1 + t.cap, p.2))) t.val m = t.val m := by
          intro m hm
          apply writeAll_not_mem
          intro p hp
          obtain ⟨q, hq, rfl⟩ := List.mem_map.1 hp
          simp only
          intro hqm
          refine hn ((q.1 + t.cap) / 2) (mem_unique.2 (List.mem_map.2 ⟨q, hq, rfl⟩)) 0 ?_
          rw [pow_zero, Nat.div_one, hqm, hm]
        rw [hinner n h2, hnp (2 * n) (by omega), hnp (2 * n + 1) (by omega)]
        exact hh n h1 h2)
    simp only [g1]
    refine ⟨_, rfl, ?_, rfl, ?_⟩
    · intro n h1 h2
      exact g2 n h1 h2
    · intro i hi
      have := writeAll_eq w t.val t.cap i
      rw [← g3 (t.cap + i) (by rw [← hcap]; omega)] at this
      exact this

/-- **C35, refused writes.** An index at or beyond the capacity, or an empty batch, raises `IndexError`. -/
theorem C35_write_error {op : α → α → α} {t : Tree α} {w : List (ℕ × α)} (h : w = [] ∨ ∃ p ∈ w, t.cap ≤ p.1) :
    setItems op t w = .error .indexError := by
  unfold setItems
  rcases h with h | ⟨p, hp, hle⟩
  · rw [if_pos h]
  · rw [if_neg (by rintro rfl; simp at hp), if_neg]
    intro hc
    have := hc p hp
    omega

/-- **C35, read.** Reading an in-range cell returns its value. -/
theorem C35_read {t : Tree α} {i : ℕ} : (i < t.cap → getItem t i = .ok (t.leaf i)) ∧
    (t.cap ≤ i → getItem t i = .error .assertion) := by
  refine ⟨fun h => by simp [getItem, h, Tree.leaf], fun h => by simp [getItem, not_lt.2 h]⟩

/-- **C35, reduce.** For an associative operation the reduction over `[start, stop)` is the left-to-right combination of the
stored values `start .. stop-1`. -/
theorem C35_reduce {op : α → α → α} (ha : ∀ a b c, op (op a b) c = op a (op b c)) {t : Tree α} (hh : Heap op t)
    {start stop : ℕ} (h1 : start < stop) (h2 : stop ≤ t.cap) :
    reduce op t start (some stop) = .ok (rangeFold op t.leaf start (stop - 1 - start)) := by
  have key := reduceHelper_spec ha hh (k := t.h) (n := 1) (fuel := t.h + 1) (s := start) (e := stop - 1) (by omega) le_rfl
    (by omega) (by rw [pow_succ]; have := Nat.two_pow_pos t.h; omega) (by omega) (by omega)
    (by unfold Tree.cap at h2; omega)
  have hsh := rangeFold_shift op t.val t.leaf (2 ^ t.h + start) start (stop - 1 - start)
    (by intro i _; unfold Tree.leaf Tree.cap; congr 1; omega)
  rw [hsh] at key
  unfold reduce reduceFuel
  have e1 : ((some (stop : ℤ)).getD (t.cap : ℤ)) = (stop : ℤ) := rfl
  simp only [e1]
  rw [if_neg (by omega)]
  have e2 : ((stop : ℤ) - 1) = ((stop - 1 : ℕ) : ℤ) := by omega
  have e3 : ((t.cap : ℤ) - 1) = ((1 * 2 ^ t.h - 2 ^ t.h + 2 ^ t.h - 1 : ℕ) : ℤ) := by
    have := Nat.two_pow_pos t.h
    unfold Tree.cap; omega
  have e4 : (0 : ℤ) = ((1 * 2 ^ t.h - 2 ^ t.h : ℕ) : ℤ) := by omega
  rw [e2, e3, e4, key]

/-- **C35, default and negative end.** `stop = None` means the whole capacity; a negative `stop` counts from the end. -/
theorem C35_reduce_conventions (op : α → α → α) (t : Tree α) (start : ℤ) :
    reduce op t start none = reduce op t start (some (t.cap : ℤ)) ∧
    ∀ k : ℕ, 1 ≤ k → k ≤ t.cap → reduce op t start (some (-(k : ℤ))) = reduce op t start (some ((t.cap : ℤ) - k)) := by
  refine ⟨rfl, ?_⟩
  intro k h1 h2
  unfold reduce reduceFuel
  have e1 : ((some (-(k : ℤ))).getD (t.cap : ℤ)) = -(k : ℤ) := rfl
  have e2 : ((some ((t.cap : ℤ) - k)).getD (t.cap : ℤ)) = (t.cap : ℤ) - k := rfl
  simp only [e1, e2]
  rw [if_pos (by omega), if_neg (by omega)]
  congr 2
  ring_nf

/-- **C35, negation.** On an empty range (`stop ≤ start`) the recursion never ends, whatever recursion depth is allowed. -/
theorem C35_reduce_empty_range (op : α → α → α) (t : Tree α) (fuel : ℕ) {start stop : ℤ} (h0 : 0 ≤ stop) (h : stop ≤ start) :
    reduceFuel op t fuel start (some stop) = none := by
  unfold reduceFuel
  have e1 : ((some stop).getD (t.cap : ℤ)) = stop := rfl
  simp only [e1]
  rw [if_neg (by omega)]
  apply reduceHelper_empty
  · omega
  · left
    have : 0 < t.cap := Nat.two_pow_pos t.h
    omega

/-- Run a history of batch writes. -/
def applyAll (op : α → α → α) : List (List (ℕ × α)) → Tree α → Py (Tree α)
  | [], t => .ok t
  | w :: ws, t =>
    match setItems op t w with
    | .error e => .error e
    | .ok t' => applyAll op ws t'

private theorem lastWrite_append (w ws : List (ℕ × α)) (i : ℕ) (d : α) :
    lastWrite (w ++ ws) i d = lastWrite ws i (lastWrite w i d) := by
  unfold lastWrite
  rw [List.reverse_append, lookup_append]
  cases ws.reverse.lookup i <;> simp

/-- **C35, histories.** After any history of valid batch writes to a new tree, every cell holds the last value written to it
(the neutral element if none) and every range reduction folds exactly those values. -/
theorem C35_history {op : α → α → α} (ha : ∀ a b c, op (op a b) c = op a (op b c)) {e : α} (he : op e e = e) (h : ℕ)
    {ws : List (List (ℕ × α))} (hw : ∀ w ∈ ws, w ≠ [] ∧ ∀ p ∈ w, p.1 < 2 ^ h) :
    ∃ t, applyAll op ws (new h e) = .ok t ∧ t.cap = 2 ^ h ∧
      (∀ i, i < 2 ^ h → getItem t i = .ok (lastWrite ws.flatten i e)) ∧
      (∀ start stop : ℕ, start < stop → stop ≤ 2 ^ h →
        reduce op t start (some stop) = .ok (rangeFold op (fun i => lastWrite ws.flatten i e) start (stop - 1 - start))) := by
  have main : ∀ (ws : List (List (ℕ × α))) (t0 : Tree α) (f : ℕ → α), Heap op t0 → t0.cap = 2 ^ h →
      (∀ i, i < 2 ^ h → t0.leaf i = f i) → (∀ w ∈ ws, w ≠ [] ∧ ∀ p ∈ w, p.1 < 2 ^ h) →
      ∃ t, applyAll op ws t0 = .ok t ∧ Heap op t ∧ t.cap = 2 ^ h ∧
        ∀ i, i < 2 ^ h → t.leaf i = lastWrite ws.flatten i (f i) := by
    intro ws
    induction ws with
    | nil => intro t0 f h1 h2 h3 _; exact ⟨t0, rfl, h1, h2, by simpa [lastWrite] using h3⟩
    | cons w ws ih =>
      intro t0 f h1 h2 h3 h4
      obtain ⟨hw1, hw2⟩ := h4 w (by simp)
      obtain ⟨t1, a1, a2, a3, a4⟩ := C35_write h1 hw1 (by rw [h2]; exact hw2)
      obtain ⟨t, b1, b2, b3, b4⟩ := ih t1 (fun i => lastWrite w i (f i)) a2 (a3.trans h2)
        (fun i hi => by rw [a4 i (by rw [h2]; exact hi), h3 i hi]) (fun w' hw' => h4 w' (by simp [hw']))
      refine ⟨t, by simp only [applyAll, a1, b1], b2, b3, ?_⟩
      intro i hi
      rw [b4 i hi, List.flatten_cons, lastWrite_append]
  obtain ⟨t, h1, h2, h3, h4⟩ := main ws (new h e) (fun _ => e) (C35_new he h).1 rfl (fun _ _ => rfl) hw
  refine ⟨t, h1, h3, ?_, ?_⟩
  · intro i hi
    rw [C35_read.1 (by rw [h3]; exact hi), h4 i hi]
  · intro start stop hs1 hs2
    rw [C35_reduce ha h2 hs1 (by rw [h3]; exact hs2)]
    congr 1
    apply rangeFold_shift
    intro i hi
    exact h4 _ (by omega)

section
variable {K : Type} [Field K] [LinearOrder K] [IsStrictOrderedRing K]

private theorem total_eq {t : Tree K} (hh : Heap (· + ·) t) : reduce (· + ·) t 0 none = .ok (prefixSum t t.cap) := by
  have hcap : 0 < t.cap := Nat.two_pow_pos t.h
  have := C35_reduce (fun a b c : K => add_assoc a b c) hh (start := 0) (stop := t.cap) hcap le_rfl
  rw [(C35_reduce_conventions _ t 0).1]
  rw [show ((0 : ℕ) : ℤ) = 0 from rfl] at this
  rw [this, rangeFold_add]
  congr 1
  unfold prefixSum
  apply Finset.sum_congr
  · congr 1; omega
  · intro i _; simp

/-- **C36.** For non-negative stored values, capacity at least two and queries in `[0, total + eps]`, the vectorised search
answers every query `s`: if `s < total`, the unique index `i` with `sum_{j<i} a_j ≤ s < sum_{j≤i} a_j` (so `a_i > 0`);
if `s ≥ total`, the last index. -/
theorem C36_prefix_search {t : Tree K} (hh : Heap (· + ·) t) (hn : ∀ j < t.cap, 0 ≤ t.leaf j) (hc : 2 ≤ t.cap) {eps : K}
    {q : List K} (hq : q ≠ []) (h0 : ∀ s ∈ q, 0 ≤ s) (h1 : ∀ s ∈ q, s ≤ prefixSum t t.cap + eps) :
    ∃ r, findPrefix eps t q = .ok r ∧ List.Forall₂ (fun s i => i < t.cap ∧
      (s < prefixSum t t.cap → prefixSum t i ≤ s ∧ s < prefixSum t (i + 1) ∧ 0 < t.leaf i) ∧
      (prefixSum t t.cap ≤ s → i = t.cap - 1)) q r := by
  have hh1 : 1 ≤ t.h := by
    by_contra hcon
    have : t.h = 0 := by omega
    simp [Tree.cap, this] at hc
  have hcap : t.cap = 2 ^ t.h := rfl
  have htot : t.val 1 = prefixSum t t.cap := by
    have := node_sum hh (k := t.h) (n := 1) le_rfl (by omega) (by rw [pow_succ]; have := Nat.two_pow_pos t.h; omega)
    rw [this]
    have e1 : 1 * 2 ^ t.h - 2 ^ t.h = 0 := by omega
    rw [e1]
    simp [prefixSum, Tree.cap]
  have hinit : List.Forall₂ (fun s p => ProbeInv t s t.h p ∧ p.cont = decide (0 < t.h)) q
      (q.map (fun s => (⟨1, s, true⟩ : Probe K))) := by
    rw [List.forall₂_map_right_iff]
    apply List.forall₂_same.2
    intro s hs
    refine ⟨⟨le_rfl, by simp, ?_, ?_, ?_⟩, by simp; omega⟩
    · simp only [one_mul]; rw [pow_succ]; have := Nat.two_pow_pos t.h; omega
    · intro hlt
      refine ⟨h0 s hs, by rw [htot]; exact hlt, ?_⟩
      simp [prefixSum]
    · intro hle
      refine ⟨?_, by rw [htot]; exact hle⟩
      simp only; rw [pow_succ]; omega
  obtain ⟨l, g1, g2⟩ := findLoop_spec hh hn (fuel := t.h + 1) (by omega) hq hinit
  refine ⟨l.map (fun p => p.idx - t.cap), ?_, ?_⟩
  · unfold findPrefix
    rw [if_neg hq, if_neg (not_not.2 h0)]
    simp only [total_eq hh, g1]
    rw [if_neg (not_not.2 h1)]
  · rw [List.forall₂_map_right_iff]
    refine g2.imp ?_
    rintro s ⟨n, ps, c⟩ ⟨p1, p2, p3, p4, p5⟩
    simp only [pow_zero, mul_one] at *
    have e4 : 2 ^ (t.h + 1) = 2 * 2 ^ t.h := by rw [pow_succ]; omega
    refine ⟨by omega, ?_, ?_⟩
    · intro hs
      obtain ⟨a1, a2, a3⟩ := p4 hs
      have hv : t.val n = t.leaf (n - t.cap) := by
        unfold Tree.leaf; congr 1; omega
      have hsucc : prefixSum t (n - t.cap + 1) = prefixSum t (n - t.cap) + t.leaf (n - t.cap) := by
        unfold prefixSum; rw [Finset.sum_range_succ]
      rw [hsucc, ← hv]
      rw [← hcap] at a3
      refine ⟨by linarith, by linarith, by linarith⟩
    · intro hs
      have := (p5 hs).1
      omega

/-- **C36, uniqueness.** The index is determined by the query. -/
theorem C36_unique {t : Tree K} (hn : ∀ j < t.cap, 0 ≤ t.leaf j) {s : K} {i j : ℕ} (hi : i < t.cap) (hj : j < t.cap)
    (h1 : prefixSum t i ≤ s ∧ s < prefixSum t (i + 1)) (h2 : prefixSum t j ≤ s ∧ s < prefixSum t (j + 1)) : i = j := by
  rcases lt_trichotomy i j with h | h | h
  · have := prefixSum_mono hn (a := i + 1) (b := j) (by omega) (by omega)
    linarith [h1.2, h2.1]
  · exact h
  · have := prefixSum_mono hn (a := j + 1) (b := i) (by omega) (by omega)
    linarith [h2.2, h1.1]

/-- **C36, negation for capacity one.** A tree with a single cell cannot be searched: every admissible query raises
`IndexError`. -/
theorem C36_capacity_one {t : Tree K} (hh : Heap (· + ·) t) (hc : t.cap = 1) {eps : K} {s : K} (h0 : 0 ≤ s)
    (h1 : s ≤ prefixSum t t.cap + eps) : findPrefix eps t [s] = .error .indexError := by
  unfold findPrefix
  rw [if_neg (by simp), if_neg (by simpa using h0)]
  simp only [total_eq hh]
  rw [if_neg (by simpa using h1)]
  simp [findLoop, probeAll, probeStep, hc]

end

/-! ### Concrete cases -/

example : ((applyAll (· + ·) [[(0, (2 : ℚ)), (3, 5)], [(0, 1), (1, 4), (0, 3)]] (new 2 0)).map
    (fun t => (reduce (· + ·) t 0 none, reduce (· + ·) t 1 (some 4), getItem t 0))) = .ok (.ok 12, .ok 9, .ok 3) := by
  decide +kernel
example : ((applyAll (· + ·) [[(0, (2 : ℚ)), (3, 5)], [(0, 1), (1, 4), (0, 3)]] (new 2 0)).bind
    (fun t => findPrefix (1/100000) t [0, 3, 6, 7, 12])) = .ok [0, 1, 1, 3, 3] := by decide +kernel

end Neorl.SegTree

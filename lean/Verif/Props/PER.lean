import Verif.PER

/-!
# Property theorems C37: prioritised replay
-/

set_option linter.unusedSectionVars false
set_option linter.unusedVariables false

namespace Neorl.PER

open Neorl.Replay (Buf Inv lastN)
open Neorl.SegTree (Heap setItems reduce findPrefix prefixSum lastWrite)

variable {α K : Type} [Field K] [LinearOrder K] [IsStrictOrderedRing K]

/-- **C37, tree size.** The priority trees have the smallest power-of-two capacity that is at least the buffer size. -/
theorem C37_capacity (size : ℕ) : size ≤ (new size : PBuf α K).sum.cap ∧ (new size : PBuf α K).mn.cap = (new size : PBuf α K).sum.cap ∧
    ∀ k, size ≤ 2 ^ k → (new size : PBuf α K).sum.cap ≤ 2 ^ k := by
  obtain ⟨h1, h2⟩ := capLoop_spec size size 0 (by rw [Nat.zero_add]; exact Nat.lt_two_pow_self.le) (Or.inl rfl)
  refine ⟨h1, rfl, ?_⟩
  intro k hk
  show 2 ^ capLoop size size 0 ≤ 2 ^ k
  apply Nat.pow_le_pow_right (by norm_num)
  by_contra hcon
  rcases h2 with h2 | h2
  · omega
  · have : 2 ^ k ≤ 2 ^ (capLoop size size 0 - 1) := Nat.pow_le_pow_right (by norm_num) (by omega)
    omega

/-- **C37, priorities after any history** of `add`, `extend` (batches smaller than the buffer) and `update_priorities` that did
not raise: the stored transitions are the last `size` submitted ones, each stored slot has a positive priority, slots not yet
used have none, and the running maximum is the largest priority ever assigned (at least 1). -/
theorem C37_history {pw : K → K} (hpw : ∀ p, 0 < p → 0 < pw p) {size : ℕ} (hs : 0 < size) {ops : List (Op α K)}
    (he : ∀ ys, Op.extend ys ∈ ops → ys.length < size) {b : PBuf α K} (h : run pw (new size) ops = .ok b) :
    b.buf.storage.rotate b.buf.next = lastN size (ops.flatMap Op.items) ∧
    (∀ i, i < b.buf.storage.length → 0 < b.sum.leaf i ∧ b.mn.leaf i = ((b.sum.leaf i : K) : WithTop K)) ∧
    (∀ i, b.buf.storage.length ≤ i → i < b.sum.cap → b.sum.leaf i = 0 ∧ b.mn.leaf i = ⊤) ∧
    b.maxp = maxPrio ops 1 := by
  obtain ⟨h1, h2⟩ := run_pinv hpw hs (pinv_new hs) he h
  rw [List.nil_append] at h1
  exact ⟨h1.ring.order, h1.trees.pos, h1.trees.zero, h2⟩

/-- **C37, new transitions get the maximal priority** and nobody else's priority changes. -/
theorem C37_add_max {pw : K → K} (hpw : ∀ p, 0 < p → 0 < pw p) {size : ℕ} (hs : 0 < size) {ops : List (Op α K)}
    (he : ∀ ys, Op.extend ys ∈ ops → ys.length < size) {b : PBuf α K} (h : run pw (new size) ops = .ok b) (x : α) :
    ∃ b', add pw b x = .ok b' ∧ b'.buf.storage[b.buf.next]? = some x ∧
      b'.sum.leaf b.buf.next = pw (maxPrio ops 1) ∧
      ∀ i, i < b.sum.cap → i ≠ b.buf.next → b'.sum.leaf i = b.sum.leaf i := by
  obtain ⟨h1, h2⟩ := run_pinv hpw hs (pinv_new hs) he h
  obtain ⟨b', e1, e2, e3, e4, e5⟩ := add_pinv hpw hs h1 x
  have hlt := h1.ring.lt
  have hroom := h1.room
  refine ⟨b', e1, ?_, ?_, ?_⟩
  · unfold add at e1
    obtain ⟨buf, g1, g2⟩ := Replay.add_inv hs h1.ring x
    simp only [g1, setPrio] at e1
    split at e1
    · cases e1
    · split at e1
      · cases e1
      · simp only [Except.ok.injEq] at e1
        rw [← e1]
        unfold Replay.add at g1
        rw [if_neg (by rw [h1.ring.size]; omega)] at g1
        simp only [Except.ok.injEq] at g1
        rw [← g1]
        simp only
        split_ifs with hge
        · have : b.buf.next = b.buf.storage.length := by
            by_cases hl : b.buf.storage.length < size
            · exact h1.ring.part hl
            · have := h1.ring.len; omega
          rw [this]; simp
        · rw [List.getElem?_set_self (by omega)]
  · rw [e5 _ (by omega), if_pos rfl, h2]; rfl
  · intro i hi hne
    rw [e5 i hi, if_neg hne]

/-- **C37, proportional sampling.** With at least two stored transitions a sample never raises; the draw `u` selects the slot `i` whose
interval `[sum_{j<i} p_j, sum_{j≤i} p_j)` contains `u * (p_0 + ... + p_{len-2})`.  In particular the selected slot is always
strictly before the last stored slot: slot `len - 1` is never sampled, whatever its priority. -/
theorem C37_sample {pw : K → K} (hpw : ∀ p, 0 < p → 0 < pw p) {size : ℕ} (hs : 0 < size) {ops : List (Op α K)}
    (he : ∀ ys, Op.extend ys ∈ ops → ys.length < size) {b : PBuf α K} (h : run pw (new size) ops = .ok b)
    (hlen : 2 ≤ b.buf.storage.length) {eps : K} (heps : 0 ≤ eps) {us : List K} (hne : us ≠ []) (hu : ∀ u ∈ us, 0 ≤ u ∧ u < 1) :
    ∃ idxs, sampleProportional eps b us = .ok idxs ∧
      List.Forall₂ (fun u i => i + 1 < b.buf.storage.length ∧
        prefixSum b.sum i ≤ u * prefixSum b.sum (b.buf.storage.length - 1) ∧
        u * prefixSum b.sum (b.buf.storage.length - 1) < prefixSum b.sum (i + 1)) us idxs := by
  obtain ⟨h1, h2⟩ := run_pinv hpw hs (pinv_new hs) he h
  have ht := h1.trees
  have hcap := ht.le
  have hnn : ∀ j < b.sum.cap, 0 ≤ b.sum.leaf j := by
    intro j hj
    by_cases hjl : j < b.buf.storage.length
    · exact (ht.pos j hjl).1.le
    · rw [(ht.zero j (by omega) hj).1]
  set n := b.buf.storage.length - 1 with hn
  have hT : reduce (· + ·) b.sum 0 (some ((b.buf.storage.length : ℤ) - 1)) = .ok (prefixSum b.sum n) := by
    rw [show ((b.buf.storage.length : ℤ) - 1) = (n : ℤ) by omega]
    exact reduce_sum ht.heapS (by omega) (by omega)
  have hTpos : 0 < prefixSum b.sum n := by
    have h01 : prefixSum b.sum 1 ≤ prefixSum b.sum n := SegTree.prefixSum_mono hnn (by omega) (by omega)
    have : prefixSum b.sum 1 = b.sum.leaf 0 := by simp [prefixSum]
    have := (ht.pos 0 (by omega)).1
    linarith
  have hTle : prefixSum b.sum n ≤ prefixSum b.sum b.sum.cap := SegTree.prefixSum_mono hnn (by omega) le_rfl
  have hTlt : prefixSum b.sum n < prefixSum b.sum b.sum.cap := by
    have h3 : prefixSum b.sum (n + 1) ≤ prefixSum b.sum b.sum.cap := SegTree.prefixSum_mono hnn (by omega) le_rfl
    have h4 : prefixSum b.sum (n + 1) = prefixSum b.sum n + b.sum.leaf n := by unfold prefixSum; rw [Finset.sum_range_succ]
    have := (ht.pos n (by omega)).1
    linarith
  obtain ⟨r, r1, r2⟩ := SegTree.C36_prefix_search ht.heapS hnn (by omega) (eps := eps) (q := us.map (· * prefixSum b.sum n))
    (by simpa using hne)
    (by intro s hs'; obtain ⟨u, hu', rfl⟩ := List.mem_map.1 hs'; exact mul_nonneg (hu u hu').1 hTpos.le)
    (by
      intro s hs'; obtain ⟨u, hu', rfl⟩ := List.mem_map.1 hs'
      have := mul_le_mul_of_nonneg_right (hu u hu').2.le hTpos.le
      linarith)
  refine ⟨r, by simp only [sampleProportional, hT, r1], ?_⟩
  rw [List.forall₂_map_left_iff] at r2
  have hcomb : ∀ (us : List K) (r : List ℕ), (∀ u ∈ us, 0 ≤ u ∧ u < 1) →
      List.Forall₂ (fun u i => i < b.sum.cap ∧
        (u * prefixSum b.sum n < prefixSum b.sum b.sum.cap → prefixSum b.sum i ≤ u * prefixSum b.sum n ∧
          u * prefixSum b.sum n < prefixSum b.sum (i + 1) ∧ 0 < b.sum.leaf i) ∧
        (prefixSum b.sum b.sum.cap ≤ u * prefixSum b.sum n → i = b.sum.cap - 1)) us r →
      List.Forall₂ (fun u i => i + 1 < b.buf.storage.length ∧ prefixSum b.sum i ≤ u * prefixSum b.sum n ∧
        u * prefixSum b.sum n < prefixSum b.sum (i + 1)) us r := by
    intro us r hu' hf
    induction hf with
    | nil => exact .nil
    | @cons u i us r hh _ ih =>
      refine .cons ?_ (ih (fun u hu'' => hu' u (by simp [hu''])))
      have hu1 := hu' u (by simp)
      have hlt : u * prefixSum b.sum n < prefixSum b.sum n := by
        have := mul_lt_mul_of_pos_right hu1.2 hTpos
        linarith
      obtain ⟨p1, p2, p3⟩ := hh.2.1 (by linarith)
      refine ⟨?_, p1, p2⟩
      by_contra hcon
      have := SegTree.prefixSum_mono hnn (a := n) (b := i) (by omega) (by omega)
      linarith
  exact hcomb us r hu r2

/-- **C37, sampled transitions are stored ones and importance weights lie in (0, 1]** (for a positive antitone `p ↦ p^(-beta)`): slot `i` gets
`(p_i / sum * len) ^ (-beta)` divided by the same expression for the smallest priority. -/
theorem C37_sample_stored {pw pb : K → K} (hpw : ∀ p, 0 < p → 0 < pw p) (hpb : ∀ p, 0 < p → 0 < pb p)
    (hanti : ∀ p q, 0 < p → p ≤ q → pb q ≤ pb p) {size : ℕ} (hs : 0 < size) {ops : List (Op α K)}
    (he : ∀ ys, Op.extend ys ∈ ops → ys.length < size) {b : PBuf α K} (h : run pw (new size) ops = .ok b)
    (hlen : 2 ≤ b.buf.storage.length) {eps beta : K} (heps : 0 ≤ eps) (hbeta : 0 < beta) {us : List K} (hne : us ≠ [])
    (hu : ∀ u ∈ us, 0 ≤ u ∧ u < 1) :
    ∃ xs ws idxs, sample eps pb beta b us = .ok (xs, ws, idxs) ∧
      List.Forall₂ (fun i x => b.buf.storage[i]? = some x) idxs xs ∧ xs.length = us.length ∧
      (∀ x ∈ xs, x ∈ lastN size (ops.flatMap Op.items)) ∧ ws.length = us.length ∧ (∀ w ∈ ws, 0 < w ∧ w ≤ 1) ∧
      sampleProportional eps b us = .ok idxs ∧
      ∃ j < b.buf.storage.length, (∀ i < b.buf.storage.length, b.sum.leaf j ≤ b.sum.leaf i) ∧
        List.Forall₂ (fun i w => w = pb (b.sum.leaf i / prefixSum b.sum b.buf.storage.length * (b.buf.storage.length : K)) /
          pb (b.sum.leaf j / prefixSum b.sum b.buf.storage.length * (b.buf.storage.length : K))) idxs ws := by
  obtain ⟨idxs, g1, g2⟩ := C37_sample hpw hs he h hlen heps hne hu
  obtain ⟨h1, h2⟩ := run_pinv hpw hs (pinv_new hs) he h
  rw [List.nil_append] at h1
  have ht := h1.trees
  have hcap := ht.le
  have hidx : ∀ i ∈ idxs, i < b.buf.storage.length := by
    intro i hi
    obtain ⟨n, hn, rfl⟩ := List.mem_iff_getElem.1 hi
    have := (List.forall₂_iff_get.1 g2).2 n (by have := g2.length_eq; omega) hn
    have h3 := this.1
    simp only [List.get_eq_getElem] at h3
    omega
  obtain ⟨xs, x1, x2⟩ := Replay.encodeSample_ok hidx
  have htot := reduce_total ht.heapS
  have hmin := SegTree.C35_reduce (fun a b c : WithTop K => min_assoc a b c) ht.heapM (start := 0) (stop := b.mn.cap)
    (Nat.two_pow_pos _) le_rfl
  rw [show ((0 : ℕ) : ℤ) = 0 from rfl, ← (SegTree.C35_reduce_conventions min b.mn 0).1] at hmin
  obtain ⟨m1, j, m2, m3⟩ := rangeFold_min_le b.mn.leaf 0 (b.mn.cap - 1 - 0)
  set pm := SegTree.rangeFold min b.mn.leaf 0 (b.mn.cap - 1 - 0) with hpm
  have hsame := ht.same
  have hmcap : 0 < b.mn.cap := Nat.two_pow_pos _
  have hjl : j < b.buf.storage.length := by
    by_contra hcon
    have e0 := m1 0 (by omega)
    rw [m3, Nat.zero_add, (ht.zero j (by omega) (by omega)).2, Nat.zero_add, (ht.pos 0 (by omega)).2] at e0
    simp at e0
  have hpmj : pm = ((b.sum.leaf j : K) : WithTop K) := by rw [m3, Nat.zero_add, (ht.pos j hjl).2]
  have hjmin : ∀ i, i < b.buf.storage.length → b.sum.leaf j ≤ b.sum.leaf i := by
    intro i hi
    have := m1 i (by omega)
    rw [hpmj, Nat.zero_add, (ht.pos i hi).2] at this
    exact WithTop.coe_le_coe.1 this
  have hnn : ∀ j < b.sum.cap, 0 ≤ b.sum.leaf j := by
    intro j hj
    by_cases hjl : j < b.buf.storage.length
    · exact (ht.pos j hjl).1.le
    · rw [(ht.zero j (by omega) hj).1]
  have htotpos : 0 < prefixSum b.sum b.sum.cap := by
    have h01 : prefixSum b.sum 1 ≤ prefixSum b.sum b.sum.cap := SegTree.prefixSum_mono hnn (by omega) le_rfl
    have e1 : prefixSum b.sum 1 = b.sum.leaf 0 := by simp [prefixSum]
    have := (ht.pos 0 (by omega)).1
    linarith
  have hlpos : (0 : K) < (b.buf.storage.length : K) := by exact_mod_cast (by omega : 0 < b.buf.storage.length)
  have hsum : prefixSum b.sum b.sum.cap = prefixSum b.sum b.buf.storage.length := by
    unfold prefixSum
    symm
    apply Finset.sum_subset
    · intro i hi; rw [Finset.mem_range] at hi ⊢; omega
    · intro i hi hi'
      rw [Finset.mem_range] at hi hi'
      exact (ht.zero i (by omega) hi).1
  refine ⟨xs, weights pb b pm (prefixSum b.sum b.sum.cap) idxs, idxs, ?_, x2, ?_, ?_, ?_, ?_, g1, j, hjl, hjmin, ?_⟩
  · unfold sample
    rw [if_pos hbeta]
    simp only [g1, hmin, htot, x1]
  · rw [← x2.length_eq, ← g2.length_eq]
  · intro x hx
    rw [← h1.ring.order, List.mem_rotate]
    obtain ⟨n, hn, rfl⟩ := List.mem_iff_getElem.1 hx
    exact List.mem_of_getElem? ((List.forall₂_iff_get.1 x2).2 n (by have := x2.length_eq; omega) hn)
  · simp only [weights, List.length_map]; rw [← g2.length_eq]
  · intro w hw
    simp only [weights, List.mem_map] at hw
    obtain ⟨i, hi, rfl⟩ := hw
    rw [hpmj]
    simp only [WithTop.untopD_coe]
    have hji := hjmin i (hidx i hi)
    have p1 : 0 < b.sum.leaf j / prefixSum b.sum b.sum.cap * (b.buf.storage.length : K) :=
      mul_pos (div_pos (ht.pos j hjl).1 htotpos) hlpos
    have p2 : b.sum.leaf j / prefixSum b.sum b.sum.cap * (b.buf.storage.length : K) ≤
        b.sum.leaf i / prefixSum b.sum b.sum.cap * (b.buf.storage.length : K) :=
      mul_le_mul_of_nonneg_right (div_le_div_of_nonneg_right hji htotpos.le) hlpos.le
    have p3 := hpb _ p1
    refine ⟨div_pos (hpb _ (lt_of_lt_of_le p1 p2)) p3, ?_⟩
    rw [div_le_one p3]
    exact hanti _ _ p1 p2
  · rw [hpmj, hsum]
    simp only [weights, WithTop.untopD_coe]
    rw [List.forall₂_map_right_iff, List.forall₂_same]
    intro i _
    rfl

/-- **C37, which draw samples which slot.** Slot `i` before the last stored one is sampled exactly by the draws in an interval of length
`p_i / (p_0 + ... + p_{len-2})`. -/
theorem C37_sample_exact {pw : K → K} (hpw : ∀ p, 0 < p → 0 < pw p) {size : ℕ} (hs : 0 < size) {ops : List (Op α K)}
    (he : ∀ ys, Op.extend ys ∈ ops → ys.length < size) {b : PBuf α K} (h : run pw (new size) ops = .ok b)
    {eps : K} (heps : 0 ≤ eps) {i : ℕ} (hi : i + 1 < b.buf.storage.length) {u : K} (hu : 0 ≤ u ∧ u < 1) :
    sampleProportional eps b [u] = .ok [i] ↔
      prefixSum b.sum i / prefixSum b.sum (b.buf.storage.length - 1) ≤ u ∧
      u < prefixSum b.sum i / prefixSum b.sum (b.buf.storage.length - 1) + b.sum.leaf i / prefixSum b.sum (b.buf.storage.length - 1) := by
  obtain ⟨idxs, g1, g2⟩ := C37_sample hpw hs he h (by omega) heps (us := [u]) (by simp) (by simpa using hu)
  obtain ⟨k, hk1, hk2⟩ : ∃ k, idxs = [k] ∧ (k + 1 < b.buf.storage.length ∧
      prefixSum b.sum k ≤ u * prefixSum b.sum (b.buf.storage.length - 1) ∧
      u * prefixSum b.sum (b.buf.storage.length - 1) < prefixSum b.sum (k + 1)) := by
    cases g2 with
    | cons h1 h2 => cases h2 with
      | nil => exact ⟨_, rfl, h1⟩
  subst hk1
  obtain ⟨h1, h2⟩ := run_pinv hpw hs (pinv_new hs) he h
  have ht := h1.trees
  have hcap := ht.le
  have hnn : ∀ j < b.sum.cap, 0 ≤ b.sum.leaf j := by
    intro j hj
    by_cases hjl : j < b.buf.storage.length
    · exact (ht.pos j hjl).1.le
    · rw [(ht.zero j (by omega) hj).1]
  have hpos : 0 < prefixSum b.sum (b.buf.storage.length - 1) := by
    have h01 : prefixSum b.sum 1 ≤ prefixSum b.sum (b.buf.storage.length - 1) := SegTree.prefixSum_mono hnn (by omega) (by omega)
    have e1 : prefixSum b.sum 1 = b.sum.leaf 0 := by simp [prefixSum]
    have := (ht.pos 0 (by omega)).1
    linarith
  have hsucc : ∀ n, prefixSum b.sum (n + 1) = prefixSum b.sum n + b.sum.leaf n := by
    intro n; unfold prefixSum; rw [Finset.sum_range_succ]
  rw [g1, ← add_div, div_le_iff₀ hpos, lt_div_iff₀ hpos, ← hsucc]
  constructor
  · intro e
    cases e
    exact hk2.2
  · rintro ⟨a1, a2⟩
    congr 2
    by_contra hne
    rcases Nat.lt_or_gt_of_ne hne with hlt | hlt
    · have := SegTree.prefixSum_mono hnn (a := k + 1) (b := i) (by omega) (by omega)
      linarith [hk2.2.2]
    · have := SegTree.prefixSum_mono hnn (a := i + 1) (b := k) (by omega) (by omega)
      linarith [hk2.2.1]

/-- **C37, `update_priorities`.** It raises unless some index is given, all priorities are positive and all indices are stored; otherwise every given
slot gets its last given priority to the power alpha, the other slots and the transitions are untouched, and the running maximum grows to the largest
given priority. -/
theorem C37_update {pw : K → K} (hpw : ∀ p, 0 < p → 0 < pw p) {size : ℕ} (hs : 0 < size) {ops : List (Op α K)}
    (he : ∀ ys, Op.extend ys ∈ ops → ys.length < size) {b : PBuf α K} (h : run pw (new size) ops = .ok b) (w : List (ℕ × K)) :
    ((∃ b', update pw b w = .ok b') ↔ w ≠ [] ∧ (∀ p ∈ w, 0 < p.2) ∧ ∀ p ∈ w, p.1 < b.buf.storage.length) ∧
    ∀ b', update pw b w = .ok b' → b'.buf = b.buf ∧ (∀ p ∈ w, p.2 ≤ b'.maxp) ∧ b.maxp ≤ b'.maxp ∧ (b'.maxp = b.maxp ∨ ∃ p ∈ w, b'.maxp = p.2) ∧
      (∀ u v i p, w = u ++ (i, p) :: v → (∀ q ∈ v, q.1 ≠ i) → b'.sum.leaf i = pw p) ∧
      ∀ i, i < b.sum.cap → (∀ q ∈ w, q.1 ≠ i) → b'.sum.leaf i = b.sum.leaf i := by
  obtain ⟨h1, h2⟩ := run_pinv hpw hs (pinv_new hs) he h
  rw [List.nil_append] at h1
  have ht := h1.trees
  constructor
  · constructor
    · rintro ⟨b', hb⟩
      unfold update at hb
      split at hb
      · cases hb
      split at hb
      · split at hb
        · exact ⟨by assumption, by assumption, by assumption⟩
        · cases hb
      · cases hb
    · rintro ⟨a1, a2, a3⟩
      unfold update
      rw [if_neg a1, if_pos a2, if_pos a3]
      obtain ⟨s', m', e1, e2, _⟩ := write_both ht (w := w.map (fun p => (p.1, pw p.2))) (by simpa using a1) le_rfl ht.le
        (by intro p hp; obtain ⟨q, hq, rfl⟩ := List.mem_map.1 hp; exact a3 q hq)
        (by intro p hp; obtain ⟨q, hq, rfl⟩ := List.mem_map.1 hp; exact hpw _ (a2 q hq)) (by intro i h3 h4; omega)
      rw [List.map_map] at e2
      rw [e1]
      simp only
      have e2' : setItems min b.mn (w.map (fun p => (p.1, ((pw p.2 : K) : WithTop K)))) = .ok m' := e2
      rw [e2']
      exact ⟨_, rfl⟩
  · intro b' hb
    obtain ⟨e1, e2, e3, e4, e5⟩ := update_pinv hpw h1 hb
    have hge := foldl_max_ge w b.maxp
    rw [← e3] at hge
    have hmem : ∀ (l : List (ℕ × K)) (a : K), l.foldl (fun a p => max a p.2) a = a ∨ ∃ p ∈ l, l.foldl (fun a p => max a p.2) a = p.2 := by
      intro l
      induction l with
      | nil => intro a; exact Or.inl rfl
      | cons q l ih =>
        intro a
        rw [List.foldl_cons]
        rcases ih (max a q.2) with h | ⟨p, hp, h⟩
        · rcases max_choice a q.2 with hm | hm
          · left; rw [h, hm]
          · right; exact ⟨q, by simp, by rw [h, hm]⟩
        · right; exact ⟨p, by simp [hp], h⟩
    have hlt : ∀ p ∈ w, p.1 < b.sum.cap := by
      intro p hp
      unfold update at hb
      split at hb
      · cases hb
      split at hb
      · split at hb
        · rename_i h3; exact lt_of_lt_of_le (h3 p hp) ht.le
        · cases hb
      · cases hb
    refine ⟨e2, hge.2, hge.1, by rw [e3]; exact hmem w b.maxp, ?_, ?_⟩
    · intro u v i p hw hv
      rw [e5 i (by have := hlt (i, p) (by rw [hw]; simp); exact this), hw]
      unfold lastWrite
      rw [List.map_append, List.map_cons, List.reverse_append, List.reverse_cons, List.append_assoc]
      rw [List.lookup_append]
      have : ((v.map (fun p => (p.1, pw p.2))).reverse).lookup i = none := by
        rw [List.lookup_eq_none_iff]
        intro q hq
        obtain ⟨q', hq', rfl⟩ := List.mem_map.1 (List.mem_reverse.1 hq)
        simpa using fun h => hv q' hq' h.symm
      rw [this]
      simp
    · intro i hi hni
      rw [e5 i hi]
      exact lastWrite_not_mem (by intro p hp; obtain ⟨q, hq, rfl⟩ := List.mem_map.1 hp; exact hni q hq)

/-- **C37, `extend`.** A batch smaller than the buffer gets the maximal priority in the slots it is written to, and nothing else changes. -/
theorem C37_extend_max {pw : K → K} (hpw : ∀ p, 0 < p → 0 < pw p) {size : ℕ} (hs : 0 < size) {ops : List (Op α K)}
    (he : ∀ ys, Op.extend ys ∈ ops → ys.length < size) {b : PBuf α K} (h : run pw (new size) ops = .ok b) {ys : List α} (hy : ys.length < size) :
    ∃ b', extend pw b ys = .ok b' ∧ b'.buf.storage.rotate b'.buf.next = lastN size (ops.flatMap Op.items ++ ys) ∧ b'.maxp = b.maxp ∧
      (∀ t < ys.length, b'.sum.leaf ((b.buf.next + t) % size) = pw (maxPrio ops 1)) ∧
      ∀ i, i < b.sum.cap → (∀ t < ys.length, i ≠ (b.buf.next + t) % size) → b'.sum.leaf i = b.sum.leaf i := by
  obtain ⟨h1, h2⟩ := run_pinv hpw hs (pinv_new hs) he h
  rw [List.nil_append] at h1
  obtain ⟨b', e1, e2, e3, e4, e5, e6⟩ := extend_pinv hpw hs h1 hy
  have h2' : b.maxp = maxPrio ops 1 := h2
  exact ⟨b', e1, e2.ring.order, e3, by rw [← h2']; exact e5, e6⟩

/-- **C37, negation.** A buffer with exactly one stored transition cannot be sampled: the range sum recurses forever. -/
theorem C37_single_element_diverges {b : PBuf α K} (h : b.buf.storage.length = 1) (fuel : ℕ) :
    SegTree.reduceFuel (· + ·) b.sum fuel 0 (some ((b.buf.storage.length : ℤ) - 1)) = none := by
  rw [h]
  exact SegTree.C35_reduce_empty_range _ _ fuel (by norm_num) (by norm_num)

/-- **C37, negation.** Extending a fresh buffer by a batch of exactly its size stores the transitions but gives none of them a
priority. -/
theorem C37_full_extend_no_priority (pw : K → K) {size : ℕ} (hs : 0 < size) {ys : List α} (hy : ys.length = size) :
    ∃ b, extend pw (new size : PBuf α K) ys = .ok b ∧ b.buf.storage.length = size ∧ b.sum = (new size : PBuf α K).sum ∧
      ∀ i, b.sum.leaf i = 0 := by
  obtain ⟨buf, h1, h2⟩ := Replay.extend_inv hs (Replay.inv_new (α := α) hs) (ys := ys)
  obtain ⟨n1, n2⟩ := replay_extend_next h1 (by simpa [Replay.new] using hs)
  have hn0 : (Replay.new size : Buf α).next = 0 := rfl
  have hms : (Replay.new size : Buf α).maxsize = size := rfl
  rw [hn0, hms, Nat.zero_add, hy, Nat.mod_self] at n1
  refine ⟨{ (new size : PBuf α K) with buf := buf }, ?_, ?_, rfl, fun i => rfl⟩
  · simp only [extend, new, h1]
    obtain ⟨m, hm⟩ : ∃ m, buf.maxsize = m + 1 := ⟨buf.maxsize - 1, by rw [n2, hms]; omega⟩
    rw [hm]
    simp [prioLoop, n1, Replay.new]
  · have := h2.len
    simp only [List.nil_append, hy, min_self] at this
    exact this

/-- The hypotheses of the history theorems are met by a run with wrap-around and updates. -/
example : ((run (fun p : ℚ => p) (new 3) [.add 10, .extend [11, 12], .update [(0, 4), (2, 1/2), (0, 5)], .add 13]).bind
    (fun b => (sample (1/100000) (fun p => 1 / p) 1 b [0, 9/10]))) = .ok ([13, 11], [1/10, 1/2], [0, 1]) := by decide +kernel

end Neorl.PER

import Verif.ER

/-!
# Property theorems C39: experience memory of PESA
-/

set_option linter.unusedSectionVars false
set_option linter.unusedVariables false

namespace Neorl.ER

variable {β X K : Type} [DecidableEq β] [DecidableEq X] [Field K] [LinearOrder K] [IsStrictOrderedRing K]

/-- **C39, size and distinctness.** After any history of additions, greedy/prioritised sampling and duplicate removal the memory holds at
most `size` samples and no sample twice. -/
theorem C39_bounded_distinct (obj : β → K) (xOf : β → X) {size : ℕ} (hs : 0 < size) {ops : List (Op β)} {m : Mem β}
    (h : run obj xOf (new size) ops = .ok m) : m.storage.length ≤ size ∧ m.storage.Nodup := by
  have := run_inv obj xOf hs (m := new size) ⟨rfl, hs, by simp [new], by simp [new]⟩ h
  exact ⟨this.le, this.nodup⟩

/-- **C39, additions never raise** (positive size) and the added sample is in the memory afterwards. -/
theorem C39_add_stored (obj : β → K) (xOf : β → X) {size : ℕ} (hs : 0 < size) {ops : List (Op β)} {m : Mem β}
    (h : run obj xOf (new size) ops = .ok m) (x : β) : ∃ m', addOne m x = .ok m' ∧ x ∈ m'.storage := by
  have hi := run_inv obj xOf hs (m := new size) ⟨rfl, hs, by simp [new], by simp [new]⟩ h
  obtain ⟨m', h1, _⟩ := addOne_inv hs hi x
  refine ⟨m', h1, ?_⟩
  unfold addOne at h1
  by_cases hx : x ∈ m.storage
  · rw [if_pos hx] at h1; cases h1; exact hx
  · rw [if_neg hx, if_neg (by rw [hi.sz]; omega)] at h1
    simp only [Except.ok.injEq] at h1
    rw [← h1]
    simp only
    split_ifs with hc
    · simp
    · exact List.mem_set (by omega) x

/-- **C39, without sampling the memory is a FIFO ring** over the accepted (new) samples: adding `xs` equals pushing some subsequence of `xs` into
the ring buffer of C34, and a pushed sample is skipped only if it is stored at that moment. -/
theorem C39_add_fifo {size : ℕ} (hs : 0 < size) (xs : List β) : ∃ (ys : List β) (b : Replay.Buf β) (m : Mem β), ys.Sublist xs ∧
    add (new size) xs = .ok m ∧ Replay.extend (Replay.new size) ys = .ok b ∧ m.storage = b.storage ∧ m.next = b.next ∧
    (xs.Nodup → ys = xs) := by
  have key : ∀ (xs pre : List β) (m0 : Mem β) (b0 : Replay.Buf β), m0.storage = b0.storage → m0.next = b0.next → m0.size = size →
      Replay.Inv size b0 pre → (∀ x ∈ b0.storage, x ∈ pre) →
      ∃ (ys : List β) (b : Replay.Buf β) (m : Mem β), ys.Sublist xs ∧ add m0 xs = .ok m ∧ Replay.extend b0 ys = .ok b ∧
        m.storage = b.storage ∧ m.next = b.next ∧ ((pre ++ xs).Nodup → ys = xs) := by
    intro xs
    induction xs with
    | nil => intro pre m0 b0 h1 h2 _ _ _; exact ⟨[], b0, m0, .slnil, rfl, rfl, h1, h2, fun _ => rfl⟩
    | cons x xs ih =>
      intro pre m0 b0 h1 h2 h3 h4 h5
      by_cases hx : x ∈ m0.storage
      · obtain ⟨ys, b, m, g1, g2, g3, g4, g5, _⟩ := ih pre m0 b0 h1 h2 h3 h4 h5
        refine ⟨ys, b, m, g1.cons x, ?_, g3, g4, g5, ?_⟩
        · have : addOne m0 x = .ok m0 := by unfold addOne; rw [if_pos hx]
          simp only [add, this, g2]
        · intro hn
          exfalso
          rw [List.nodup_append] at hn
          exact hn.2.2 x (h5 x (by rw [← h1]; exact hx)) x (by simp) rfl
      · obtain ⟨b1, c1, c2⟩ := Replay.add_inv hs h4 x
        have ha : addOne m0 x = .ok { m0 with storage := b1.storage, next := b1.next } := by
          unfold addOne
          rw [if_neg hx, if_neg (by omega)]
          unfold Replay.add at c1
          rw [if_neg (by rw [h4.size]; omega)] at c1
          simp only [Except.ok.injEq] at c1
          rw [← c1]
          simp only [h1, h2, h3, h4.size]
        obtain ⟨ys, b, m, g1, g2, g3, g4, g5, g6⟩ := ih (pre ++ [x]) { m0 with storage := b1.storage, next := b1.next } b1 rfl rfl h3 c2
          (by
            intro y hy
            have hmem : y ∈ b1.storage.rotate b1.next := List.mem_rotate.2 hy
            rw [c2.order] at hmem
            exact List.mem_of_mem_drop hmem)
        refine ⟨x :: ys, b, m, g1.cons_cons x, by simp only [add, ha, g2], by simp only [Replay.extend, c1, g3], g4, g5, ?_⟩
        intro hn
        rw [g6 (by simpa using hn)]
  obtain ⟨ys, b, m, h1, h2, h3, h4, h5, h6⟩ := key xs [] (new size) (Replay.new size) rfl rfl rfl (Replay.inv_new hs) (by simp [Replay.new])
  exact ⟨ys, b, m, h1, h2, h3, h4, h5, by simpa using h6⟩

/-- **C39, greedy sampling** returns the `min batch len` best stored samples, best first; nothing stored is better than a returned
sample unless it is returned too; the content of the memory is unchanged as a multiset. -/
theorem C39_greedy (obj : β → K) (m : Mem β) (batch : ℕ) :
    let r := sampleGreedy obj m batch
    r.2.length = min batch m.storage.length ∧ r.2.Pairwise (fun a b => obj b ≤ obj a) ∧ List.Perm r.1.storage m.storage ∧
    ∃ rest, List.Perm (r.2 ++ rest) m.storage ∧ ∀ a ∈ r.2, ∀ b ∈ rest, obj b ≤ obj a := by
  refine ⟨by simp [sampleGreedy, sortMem], ?_, sortDesc_perm obj m.storage, (sortDesc obj m.storage).drop batch, ?_, ?_⟩
  · exact (sortDesc_sorted obj m.storage).sublist (List.take_sublist _ _)
  · show List.Perm ((sortDesc obj m.storage).take batch ++ (sortDesc obj m.storage).drop batch) m.storage
    rw [List.take_append_drop]; exact sortDesc_perm obj m.storage
  · intro a ha b hb
    exact sortDesc_take_drop obj m.storage batch ha hb

private theorem sum_div (l : List K) (s : K) : (l.map (fun r => r / s)).sum = l.sum / s := by
  induction l with
  | nil => simp
  | cons a l ih => rw [List.map_cons, List.sum_cons, List.sum_cons, ih]; ring

private theorem sum_pos' {l : List K} (hl : l ≠ []) (h : ∀ x ∈ l, 0 < x) : 0 < l.sum := by
  induction l with
  | nil => exact absurd rfl hl
  | cons a l ih =>
    rw [List.sum_cons]
    have ha := h a (by simp)
    by_cases hn : l = []
    · subst hn; simpa using ha
    · have := ih hn (fun x hx => h x (by simp [hx])); linarith

/-- **C39, rank priorities.** On a non-empty memory the rank priorities are returned, one per sample, positive, non-increasing with the rank and
summing to one; on an empty memory the assertion fires. -/
theorem C39_priorities {pw : K → K} (hpos : ∀ r, 0 < r → 0 < pw r) (hmono : ∀ r s, 0 < r → r ≤ s → pw r ≤ pw s) (n : ℕ) :
    (n = 0 → priorities pw n = .error .assertion) ∧
    (0 < n → ∃ ps, priorities pw n = .ok ps ∧ ps.length = n ∧ ps.sum = 1 ∧ (∀ p ∈ ps, 0 < p) ∧ ps.Pairwise (fun a b => b ≤ a)) := by
  refine ⟨by rintro rfl; simp [priorities], ?_⟩
  intro hn
  set ranks := (List.range n).map (fun i : ℕ => pw (1 / ((i : K) + 1))) with hr
  have hrp : ∀ x ∈ ranks, 0 < x := by
    intro x hx
    rw [hr] at hx
    obtain ⟨i, _, rfl⟩ := List.mem_map.1 hx
    apply hpos
    have : (0 : K) ≤ (i : K) := Nat.cast_nonneg i
    positivity
  have hne : ranks ≠ [] := by rw [hr]; simp; omega
  have hsum := sum_pos' hne hrp
  have h1 : (ranks.map (fun r => r / ranks.sum)).sum = 1 := by rw [sum_div, div_self hsum.ne']
  refine ⟨ranks.map (fun r => r / ranks.sum), ?_, by simp [hr], h1, ?_, ?_⟩
  · unfold priorities
    rw [← hr]
    simp only [h1, if_true]
  · intro p hp
    obtain ⟨r, hr', rfl⟩ := List.mem_map.1 hp
    exact div_pos (hrp r hr') hsum
  · rw [List.pairwise_map]
    have : ranks.Pairwise (fun a b => b ≤ a) := by
      rw [hr, List.pairwise_map]
      refine (List.pairwise_lt_range (n := n)).imp ?_
      intro i j hij
      have hi0 : (0 : K) ≤ (i : K) := Nat.cast_nonneg i
      have hj0 : (0 : K) ≤ (j : K) := Nat.cast_nonneg j
      have hc : (i : K) < (j : K) := by exact_mod_cast hij
      apply hmono
      · positivity
      · exact one_div_le_one_div_of_le (by linarith) (by linarith)
    exact this.imp (fun h => div_le_div_of_nonneg_right h hsum.le)

theorem gather_rows {st : List β} : ∀ {idxs : List ℕ}, (∀ i ∈ idxs, i < st.length) → ∃ xs, gather st idxs = .ok xs ∧ xs.length = idxs.length ∧
    ∀ j : ℕ, xs[j]? = (idxs[j]?).bind (fun i : ℕ => st[i]?)
  | [], _ => ⟨[], rfl, rfl, fun j => by simp⟩
  | i :: is, h => by
    obtain ⟨xs, h1, h2, h3⟩ := gather_rows (idxs := is) (fun j hj => h j (List.mem_cons_of_mem _ hj))
    have hi := h i List.mem_cons_self
    refine ⟨st[i] :: xs, by simp [gather, List.getElem?_eq_getElem hi, h1], by simp [h2], ?_⟩
    intro j
    cases j with
    | zero => simp [List.getElem?_eq_getElem hi]
    | succ j => simpa using h3 j

/-- **C39, uniform sampling** returns the samples at the drawn positions; on an empty memory it raises, unless nothing is asked for. -/
theorem C39_uniform (m : Mem β) {idxs : List ℕ} (hi : ∀ i ∈ idxs, i < m.storage.length) :
    (∃ xs, sampleUniform m idxs = .ok xs ∧ xs.length = idxs.length ∧ ∀ j : ℕ, xs[j]? = (idxs[j]?).bind (fun i : ℕ => m.storage[i]?)) ∧
    ∀ js, js ≠ [] → m.storage = [] → sampleUniform m js = .error .valueError := by
  refine ⟨?_, fun js hj hm => by rw [sampleUniform, if_pos ⟨hm, hj⟩]⟩
  rw [sampleUniform, if_neg (by
    rintro ⟨h1, h2⟩
    obtain ⟨i, hi'⟩ := List.exists_mem_of_ne_nil _ h2
    have := hi i hi'
    rw [h1] at this
    simp at this)]
  exact gather_rows hi

/-- **C39, prioritised sampling** sorts the memory by decreasing objective and returns the samples at the drawn ranks; on an empty memory it raises. -/
theorem C39_prior (obj : β → K) {pw : K → K} (hpos : ∀ r, 0 < r → 0 < pw r) (hmono : ∀ r s, 0 < r → r ≤ s → pw r ≤ pw s) (m : Mem β) {idxs : List ℕ}
    (hi : ∀ i ∈ idxs, i < m.storage.length) :
    (m.storage ≠ [] → ∃ m' xs, samplePrior obj pw m idxs = .ok (m', xs) ∧ m'.storage.Perm m.storage ∧ m'.storage.Pairwise (fun a b => obj b ≤ obj a) ∧
      m'.size = m.size ∧ m'.next = m.next ∧ xs.length = idxs.length ∧ ∀ j : ℕ, xs[j]? = (idxs[j]?).bind (fun i : ℕ => m'.storage[i]?)) ∧
    (m.storage = [] → samplePrior obj pw m idxs = .error .assertion) := by
  have hl : (sortMem obj m).storage.length = m.storage.length := by simp [sortMem]
  obtain ⟨hz, hp⟩ := C39_priorities hpos hmono (sortMem obj m).storage.length
  unfold samplePrior
  dsimp only
  constructor
  · intro hne
    obtain ⟨ps, e, _⟩ := hp (by rw [hl]; exact List.length_pos_iff.2 hne)
    obtain ⟨xs, g1, g2, g3⟩ := gather_rows (st := (sortMem obj m).storage) (idxs := idxs) (by rw [hl]; exact hi)
    rw [e, g1]
    exact ⟨_, xs, rfl, sortDesc_perm obj m.storage, sortDesc_sorted obj m.storage, rfl, rfl, g2, g3⟩
  · intro he
    rw [hz (by rw [hl, he]; rfl)]

example : sampleUniform (⟨5, [7, 8, 9], 0⟩ : Mem ℕ) [2, 0, 2] = .ok [9, 7, 9] := by decide

/-- **C39, duplicate removal** keeps exactly one sample, the first, for every stored vector. -/
theorem C39_remove_duplicates (xOf : β → X) {m : Mem β} (hne : m.storage ≠ []) :
    ∃ m', removeDuplicates xOf m = .ok m' ∧ m'.storage.Sublist m.storage ∧ (m'.storage.map xOf).Nodup ∧
      ∀ b ∈ m.storage, ∃ c ∈ m'.storage, xOf c = xOf b := by
  obtain ⟨h1, h2, _, h4⟩ := dedupBy_spec xOf m.storage []
  refine ⟨_, by unfold removeDuplicates; rw [if_neg hne], h1, h2, ?_⟩
  intro b hb
  rcases h4 b hb with h | h
  · simp at h
  · obtain ⟨c, hc, he⟩ := List.mem_map.1 h
    exact ⟨c, hc, he⟩

/-- **C39, negation.** Greedy sampling breaks the oldest-first replacement: on a full memory whose write position is 0, sampling greedily and then
adding a new sample overwrites a best stored sample. -/
theorem C39_greedy_then_add_loses_best (obj : β → K) {size : ℕ} {m : Mem β} (hi : Inv size m) (hs : 0 < size)
    (hfull : m.storage.length = size) (h0 : m.next = 0) {x : β} (hx : x ∉ m.storage) :
    ∃ (best : β) (m' : Mem β), best ∈ m.storage ∧ (∀ b ∈ m.storage, obj b ≤ obj best) ∧
      addOne (sampleGreedy obj m 1).1 x = .ok m' ∧ (sampleGreedy obj m 1).2 = [best] ∧ best ∉ m'.storage := by
  have hlen : (sortDesc obj m.storage).length = size := by simp [hfull]
  cases hl : sortDesc obj m.storage with
  | nil => rw [hl] at hlen; simp at hlen; omega
  | cons best t =>
    obtain ⟨b1, b2⟩ := sortDesc_head_max obj (l := m.storage) (a := best) (by rw [hl]; rfl)
    have hnd : (best :: t).Nodup := by rw [← hl]; exact (sortDesc_perm obj m.storage).nodup_iff.2 hi.nodup
    have hxl : x ∉ best :: t := by rw [← hl, mem_sortDesc]; exact hx
    refine ⟨best, { m with storage := x :: t, next := 1 % m.size }, b1, b2, ?_, ?_, ?_⟩
    · simp only [sampleGreedy, sortMem, hl, addOne]
      rw [if_neg hxl, if_neg (by rw [hi.sz]; omega)]
      simp [h0]
    · simp [sampleGreedy, sortMem, hl]
    · simp only [List.mem_cons, not_or]
      refine ⟨?_, (List.nodup_cons.1 hnd).1⟩
      rintro rfl; exact hxl (by simp)

example : ((run (fun p : ℤ × ℚ => p.2) (fun p => p.1) (new 2) [.add [(1, 3), (2, 9), (1, 3)], .greedy, .add [(5, 1)]]).map (fun m => m.storage)) =
    .ok [(5, 1), (1, 3)] := by decide +kernel

end Neorl.ER

import Verif.Dataset

/-!
# C53: minibatches partition the data
-/

set_option linter.unusedSectionVars false
set_option linter.unusedVariables false

namespace Neorl.Dataset

section
variable {α : Type}

theorem reindex_get {col : List α} {perm : List ℕ} (h : ∀ i ∈ perm, i < col.length) : ∀ (j : ℕ), (reindex col perm)[j]? = perm[j]?.bind (fun i => col[i]?) := by
  induction perm with
  | nil => intro j; simp [reindex]
  | cons p ps ih =>
    intro j
    have hp := h p List.mem_cons_self
    have e : reindex col (p :: ps) = col[p] :: reindex col ps := by
      unfold reindex
      rw [List.filterMap_cons, List.getElem?_eq_getElem hp]
    rw [e]
    cases j with
    | zero => simp [hp]
    | succ j =>
      rw [List.getElem?_cons_succ, List.getElem?_cons_succ]
      exact ih (fun i hi => h i (List.mem_cons_of_mem _ hi)) j

theorem reindex_length {col : List α} {perm : List ℕ} (h : ∀ i ∈ perm, i < col.length) : (reindex col perm).length = perm.length := by
  induction perm with
  | nil => rfl
  | cons p ps ih =>
    have hp := h p List.mem_cons_self
    unfold reindex at ih ⊢
    rw [List.filterMap_cons, List.getElem?_eq_getElem hp]
    simp only [List.length_cons]
    rw [ih (fun i hi => h i (List.mem_cons_of_mem _ hi))]

/-- Reindexing by a permutation permutes the column. -/
theorem reindex_perm {col : List α} {perm : List ℕ} (h : perm.Perm (List.range col.length)) : (reindex col perm).Perm col := by
  have h1 : (reindex col perm).Perm (reindex col (List.range col.length)) := h.filterMap _
  have h2 : reindex col (List.range col.length) = col := by
    apply List.ext_getElem?
    intro i
    rw [reindex_get (by intro j hj; simpa using hj)]
    by_cases hi : i < col.length
    · rw [List.getElem?_range hi]; rfl
    · rw [List.getElem?_eq_none (by simpa using hi), List.getElem?_eq_none (by omega)]; rfl
  rw [h2] at h1
  exact h1

/-- All columns have `n` samples. -/
def WF (d : Data α) : Prop := ∀ c ∈ d.cols, c.length = d.n

theorem shuffle_wf {d : Data α} (h : WF d) {perm : List ℕ} (hp : perm.Perm (List.range d.n)) : WF (shuffleData d perm) := by
  intro c hc
  obtain ⟨c0, h0, rfl⟩ := List.mem_map.1 hc
  rw [reindex_length (by
    intro i hi
    have := hp.mem_iff.1 hi
    rw [h c0 h0]
    simpa using this)]
  have := hp.length_eq
  show perm.length = d.n
  simpa using this

/-- The loop yields consecutive slices of size `b` from the current position while they fit, and leaves the columns alone. -/
theorem iterLoop_spec {b : ℕ} (hb : 1 ≤ b) (perm : List ℕ) : ∀ (fuel : ℕ) (d : Data α), d.n < d.nextId + fuel →
    (iterLoop b perm fuel d).2.cols = d.cols ∧ (iterLoop b perm fuel d).2.n = d.n ∧ (iterLoop b perm fuel d).2.shuffle = d.shuffle ∧
    ∀ j, (iterLoop b perm fuel d).1[j]? = if d.nextId + (j + 1) * b ≤ d.n then some (d.cols.map (fun c => (c.drop (d.nextId + j * b)).take b)) else none
  | 0, d, h => by
    refine ⟨rfl, rfl, rfl, ?_⟩
    intro j
    rw [if_neg (by omega)]
    rfl
  | fuel + 1, d, h => by
    rw [iterLoop]
    by_cases hc : d.nextId + b ≤ d.n
    · rw [if_pos hc]
      dsimp only
      have hnb : nextBatch d b perm = (d.cols.map (fun c => (c.drop d.nextId).take b), { d with nextId := d.nextId + b }) := by
        unfold nextBatch
        rw [if_neg (show ¬ d.nextId ≥ d.n by omega)]
        dsimp only
        rw [Nat.min_eq_left (by omega)]
      rw [hnb]
      dsimp only
      obtain ⟨h1, h2, h3, h4⟩ := iterLoop_spec hb perm fuel { d with nextId := d.nextId + b } (by dsimp only; omega)
      refine ⟨h1, h2, h3, ?_⟩
      intro j
      cases j with
      | zero =>
        rw [List.getElem?_cons_zero, if_pos (by omega)]
        simp
      | succ j =>
        rw [List.getElem?_cons_succ, h4]
        dsimp only
        rw [show d.nextId + b + (j + 1) * b = d.nextId + (j + 1 + 1) * b by ring, show d.nextId + b + j * b = d.nextId + (j + 1) * b by ring]
    · rw [if_neg hc]
      refine ⟨rfl, rfl, rfl, ?_⟩
      intro j
      rw [if_neg]
      · simp
      · have : b ≤ (j + 1) * b := Nat.le_mul_of_pos_left b (by omega)
        omega

/-- The order in which an iteration visits the samples. -/
def order (d : Data α) (perm : List ℕ) : List ℕ := if d.shuffle then perm else List.range d.n

/-- **C53.** `iterate_once`, from a fresh position, yields exactly `n / b` batches of exactly `b` samples; sample `i` of batch `j` is, in every column, sample
`order[j * b + i]` of the dataset: columns stay aligned, and no sample is used twice since `order` is a permutation. -/
theorem C53_iterate_once {d : Data α} (hw : WF d) (h0 : d.nextId = 0) {b : ℕ} (hb : 1 ≤ b) {perm perm' : List ℕ} (hp : perm.Perm (List.range d.n)) :
    (order d perm).Perm (List.range d.n) ∧ (order d perm).Nodup ∧ (iterateOnce d b perm perm').1.length = d.n / b ∧
    ∀ (j k : ℕ) (batch : List (List α)) (c : List α), (iterateOnce d b perm perm').1[j]? = some batch → d.cols[k]? = some c →
      ∃ slice, batch[k]? = some slice ∧ slice.length = b ∧ batch.length = d.cols.length ∧
        ∀ i < b, ∃ s, (order d perm)[j * b + i]? = some s ∧ s < d.n ∧ slice[i]? = c[s]? := by
  have hord : (order d perm).Perm (List.range d.n) := by
    unfold order
    split_ifs
    · exact hp
    · exact List.Perm.refl _
  refine ⟨hord, hord.nodup_iff.2 List.nodup_range, ?_⟩
  set d1 : Data α := if d.shuffle then shuffleData d perm else d with hd1
  have hn : d1.n = d.n := by rw [hd1]; split_ifs <;> rfl
  have hid : d1.nextId = 0 := by rw [hd1]; split_ifs <;> exact h0
  have hcols : d1.cols = d.cols.map (fun c => reindex c (order d perm)) := by
    rw [hd1]
    unfold order
    split_ifs with hs
    · rfl
    · symm
      rw [List.map_congr_left (g := id)]
      · simp
      · intro c hc
        apply List.ext_getElem?
        intro i
        rw [reindex_get (by intro j hj; rw [hw c hc]; simpa using hj)]
        by_cases hi : i < d.n
        · rw [List.getElem?_range hi]; rfl
        · rw [List.getElem?_eq_none (by simpa using hi), id, List.getElem?_eq_none (by rw [hw c hc]; omega)]; rfl
  obtain ⟨-, -, -, hl⟩ := iterLoop_spec hb perm' (d1.n + 1) d1 (by omega)
  have hit : (iterateOnce d b perm perm').1 = (iterLoop b perm' (d1.n + 1) d1).1 := rfl
  rw [hit]
  rw [hid, hn] at hl
  have hdiv : ∀ j, (0 + (j + 1) * b ≤ d.n) ↔ j < d.n / b := by
    intro j
    rw [zero_add, Nat.lt_iff_add_one_le, Nat.le_div_iff_mul_le (by omega)]
  constructor
  · apply le_antisymm
    · by_contra hlt
      push Not at hlt
      have := hl (d.n / b)
      rw [if_neg (by rw [hdiv]; omega)] at this
      have h2 := List.getElem?_eq_none_iff.1 this
      rw [hn] at *
      omega
    · by_contra hlt
      push Not at hlt
      have := hl ((iterLoop b perm' (d1.n + 1) d1).1.length)
      rw [hn] at this hlt
      rw [if_pos ((hdiv _).2 hlt), List.getElem?_eq_none le_rfl] at this
      cases this
  · intro j k batch c hj hk
    rw [hn, hl j] at hj
    split_ifs at hj with hjb
    cases hj
    rw [hcols]
    refine ⟨((reindex c (order d perm)).drop (0 + j * b)).take b, ?_, ?_, by simp, ?_⟩
    · rw [List.getElem?_map, List.getElem?_map, hk]
      rfl
    · have hlen : (reindex c (order d perm)).length = d.n := by
        rw [reindex_length (by
          intro i hi
          rw [hw c (List.mem_of_getElem? hk)]
          simpa using hord.mem_iff.1 hi), hord.length_eq, List.length_range]
      rw [List.length_take, List.length_drop, hlen]
      have : (j + 1) * b = j * b + b := by ring
      omega
    · intro i hi
      have hlt : j * b + i < d.n := by
        have : (j + 1) * b = j * b + b := by ring
        omega
      have ho : j * b + i < (order d perm).length := by rw [hord.length_eq, List.length_range]; exact hlt
      refine ⟨(order d perm)[j * b + i], List.getElem?_eq_getElem ho, ?_, ?_⟩
      · simpa using hord.mem_iff.1 (List.getElem_mem ho)
      · rw [List.getElem?_take, if_pos hi, List.getElem?_drop, zero_add, reindex_get (by
          intro i hi
          rw [hw c (List.mem_of_getElem? hk)]
          simpa using hord.mem_iff.1 hi), List.getElem?_eq_getElem ho]
        rfl

/-- **C53.** A finished iteration leaves the dataset ready for the next one: position zero, the columns permuted alike. -/
theorem C53_reusable {d : Data α} (hw : WF d) {b : ℕ} (hb : 1 ≤ b) {perm perm' : List ℕ} (hp : perm.Perm (List.range d.n)) :
    let d' := (iterateOnce d b perm perm').2
    d'.nextId = 0 ∧ d'.n = d.n ∧ d'.shuffle = d.shuffle ∧ WF d' ∧ d'.cols = (if d.shuffle then d.cols.map (fun c => reindex c perm) else d.cols) := by
  dsimp only
  set d1 : Data α := if d.shuffle then shuffleData d perm else d with hd1
  have hn : d1.n = d.n := by rw [hd1]; split_ifs <;> rfl
  have hsh : d1.shuffle = d.shuffle := by rw [hd1]; split_ifs <;> rfl
  obtain ⟨h1, h2, h3, -⟩ := iterLoop_spec hb perm' (d1.n + 1) d1 (by omega)
  have hit : (iterateOnce d b perm perm').2 = { (iterLoop b perm' (d1.n + 1) d1).2 with nextId := 0 } := rfl
  rw [hit]
  have hwf : WF d1 := by
    rw [hd1]
    split_ifs
    · exact shuffle_wf hw hp
    · exact hw
  refine ⟨rfl, by dsimp only; rw [h2, hn], by dsimp only; rw [h3, hsh], ?_, ?_⟩
  · intro c hc
    dsimp only at hc ⊢
    rw [h1] at hc
    rw [h2]
    exact hwf c hc
  · dsimp only
    rw [h1, hd1]
    split_ifs <;> rfl

/-- **C53, defect.** The generator starts where the dataset stands: after an iteration that was abandoned (or any `next_batch`), the next `iterate_once` silently skips the first
`nextId` samples of the new order and yields only `(n - nextId) / b` batches. -/
theorem C53_resumes {d : Data α} {b : ℕ} (hb : 1 ≤ b) (hs : d.shuffle = false) (hle : d.nextId ≤ d.n) (perm perm' : List ℕ) :
    (iterateOnce d b perm perm').1.length = (d.n - d.nextId) / b ∧
    ∀ j batch, (iterateOnce d b perm perm').1[j]? = some batch → batch = d.cols.map (fun c => (c.drop (d.nextId + j * b)).take b) := by
  have hit : (iterateOnce d b perm perm').1 = (iterLoop b perm' (d.n + 1) d).1 := by
    unfold iterateOnce
    rw [if_neg (by rw [hs]; simp)]
  obtain ⟨-, -, -, hl⟩ := iterLoop_spec hb perm' (d.n + 1) d (by omega)
  rw [hit]
  have hdiv : ∀ j, (d.nextId + (j + 1) * b ≤ d.n) ↔ j < (d.n - d.nextId) / b := by
    intro j
    rw [Nat.lt_iff_add_one_le, Nat.le_div_iff_mul_le (by omega)]
    omega
  constructor
  · apply le_antisymm
    · by_contra hlt
      push Not at hlt
      have := hl ((d.n - d.nextId) / b)
      rw [if_neg (by rw [hdiv]; omega)] at this
      have h2 := List.getElem?_eq_none_iff.1 this
      omega
    · by_contra hlt
      push Not at hlt
      have := hl ((iterLoop b perm' (d.n + 1) d).1.length)
      rw [if_pos ((hdiv _).2 hlt), List.getElem?_eq_none le_rfl] at this
      cases this
  · intro j batch hj
    rw [hl j] at hj
    split_ifs at hj
    cases hj
    rfl

/-- Successive calls of `next_batch`. -/
def calls (b : ℕ) (perm : List ℕ) : ℕ → Data α → List (List (List α)) × Data α
  | 0, d => ([], d)
  | k + 1, d => ((nextBatch d b perm).1 :: (calls b perm k (nextBatch d b perm).2).1, (calls b perm k (nextBatch d b perm).2).2)

/-- **C53.** Calling `next_batch` repeatedly from position zero: after `k` calls that do not pass the end, the `k` batches together are the first `min (k * b) n` samples of every
column; after `⌈n / b⌉` calls the whole dataset has been seen exactly once, and only then the data are shuffled again. -/
theorem C53_next_batch_epoch {b : ℕ} (hb : 1 ≤ b) (perm : List ℕ) : ∀ (k : ℕ) (d : Data α), WF d → d.nextId + (k - 1) * b < d.n ∨ k = 0 → d.nextId ≤ d.n →
    (calls b perm k d).2.cols = d.cols ∧ (calls b perm k d).2.nextId = min (d.nextId + k * b) d.n ∧
    ∀ (i : ℕ) (c : List α), d.cols[i]? = some c → (((calls b perm k d).1.map (fun batch => (batch[i]?).getD [])).flatten) = (c.drop d.nextId).take (min (k * b) (d.n - d.nextId))
  | 0, d, hw, _, hle => by
    refine ⟨rfl, ?_, ?_⟩
    · show d.nextId = _
      rw [Nat.zero_mul, Nat.add_zero, Nat.min_eq_left hle]
    · intro i c hc
      simp [calls]
  | k + 1, d, hw, hk, hle => by
    have hk' : d.nextId + k * b < d.n := by
      rcases hk with h | h
      · simpa using h
      · cases h
    have hlt : d.nextId < d.n := by
      have := Nat.zero_le (k * b)
      omega
    have hnb : nextBatch d b perm = (d.cols.map (fun c => (c.drop d.nextId).take (min b (d.n - d.nextId))), { d with nextId := d.nextId + min b (d.n - d.nextId) }) := by
      unfold nextBatch
      rw [if_neg (show ¬ d.nextId ≥ d.n by omega)]
    have key : (k + 1) * b = k * b + b := by ring
    obtain ⟨h1, h2, h3⟩ := C53_next_batch_epoch hb perm k (nextBatch d b perm).2 (by rw [hnb]; exact hw) (by
      rw [hnb]
      dsimp only
      cases k with
      | zero => right; rfl
      | succ k =>
        left
        simp only [Nat.add_sub_cancel]
        have : (k + 1) * b = k * b + b := by ring
        omega) (by rw [hnb]; dsimp only; omega)
    rw [calls]
    rw [hnb] at h1 h2 h3
    rw [hnb]
    dsimp only at h1 h2 h3 ⊢
    refine ⟨h1, ?_, ?_⟩
    · rw [h2]
      omega
    · intro i c hc
      rw [List.map_cons, List.flatten_cons, h3 i c hc, List.getElem?_map, hc]
      simp only [Option.map_some, Option.getD_some]
      have hlen := hw c (List.mem_of_getElem? hc)
      have e : min ((k + 1) * b) (d.n - d.nextId) = min b (d.n - d.nextId) + min (k * b) (d.n - (d.nextId + min b (d.n - d.nextId))) := by omega
      rw [e, List.take_add, List.drop_drop]

/-- **C53.** A whole epoch. -/
theorem C53_epoch {d : Data α} (hw : WF d) (h0 : d.nextId = 0) {b : ℕ} (hb : 1 ≤ b) (hn : 1 ≤ d.n) (perm : List ℕ) (i : ℕ) (c : List α) (hc : d.cols[i]? = some c) :
    (((calls b perm ((d.n + b - 1) / b) d).1.map (fun batch => (batch[i]?).getD [])).flatten) = c ∧ (calls b perm ((d.n + b - 1) / b) d).2.nextId = d.n := by
  have hk1 : 1 ≤ (d.n + b - 1) / b := (Nat.one_le_div_iff (by omega)).2 (by omega)
  have hk2 : d.n ≤ (d.n + b - 1) / b * b := by
    have h1 := Nat.div_add_mod (d.n + b - 1) b
    have h2 := Nat.mod_lt (d.n + b - 1) (show b > 0 by omega)
    rw [Nat.mul_comm] at h1
    omega
  have hk3 : ((d.n + b - 1) / b - 1) * b < d.n := by
    have h1 := Nat.div_mul_le_self (d.n + b - 1) b
    rw [Nat.sub_mul, Nat.one_mul]
    omega
  obtain ⟨-, h2, h3⟩ := C53_next_batch_epoch hb perm ((d.n + b - 1) / b) d hw (Or.inl (by rw [h0]; omega)) (by omega)
  rw [h0] at h2 h3
  constructor
  · rw [h3 i c hc, List.drop_zero, Nat.min_eq_right (by omega), List.take_of_length_le]
    rw [hw c (List.mem_of_getElem? hc)]
    omega
  · rw [h2]
    omega

/-! ### `iterbatches` -/

theorem splitAtIdx_spec (l : List ℕ) : ∀ (idx : List ℕ) (start : ℕ), (start :: idx).Pairwise (· ≤ ·) →
    (splitAtIdx l start idx).flatten = l.drop start ∧ (splitAtIdx l start idx).length = idx.length + 1 ∧
    ∀ (i : ℕ) (p : List ℕ), (splitAtIdx l start idx)[i]? = some p → ∃ s : ℕ, (start :: idx)[i]? = some s ∧
      p = match idx[i]? with | some e => (l.drop s).take (e - s) | none => l.drop s
  | [], start, _ => by
    refine ⟨by simp [splitAtIdx], rfl, ?_⟩
    intro i p hp
    cases i with
    | zero =>
      simp only [splitAtIdx, List.getElem?_cons_zero, Option.some.injEq] at hp
      exact ⟨start, rfl, hp.symm⟩
    | succ i => simp [splitAtIdx] at hp
  | e :: es, start, h => by
    have hse : start ≤ e := List.rel_of_pairwise_cons h List.mem_cons_self
    obtain ⟨h1, h2, h3⟩ := splitAtIdx_spec l es e h.of_cons
    refine ⟨?_, by simp [splitAtIdx, h2], ?_⟩
    · rw [splitAtIdx, List.flatten_cons, h1]
      have : l.drop e = (l.drop start).drop (e - start) := by
        rw [List.drop_drop]
        congr 1
        omega
      rw [this, List.take_append_drop]
    · intro i p hp
      cases i with
      | zero =>
        simp only [splitAtIdx, List.getElem?_cons_zero, Option.some.injEq] at hp
        exact ⟨start, rfl, hp.symm⟩
      | succ i =>
        rw [splitAtIdx, List.getElem?_cons_succ] at hp
        obtain ⟨s, hs1, hs2⟩ := h3 i p hp
        exact ⟨s, by rw [List.getElem?_cons_succ]; exact hs1, by rw [List.getElem?_cons_succ]; exact hs2⟩

theorem cuts_get {n b : ℕ} (i : ℕ) : (cuts n b)[i]? = if i + 1 < (n + b - 1) / b then some ((i + 1) * b) else none := by
  unfold cuts
  rw [List.getElem?_tail, List.getElem?_map]
  split_ifs with h
  · rw [List.getElem?_range h]; rfl
  · rw [List.getElem?_eq_none (by simpa using h)]; rfl

theorem cuts_sorted (n b : ℕ) : (0 :: cuts n b).Pairwise (· ≤ ·) := by
  rw [List.pairwise_cons]
  refine ⟨fun _ _ => Nat.zero_le _, ?_⟩
  unfold cuts
  apply List.Pairwise.tail
  rw [List.pairwise_map]
  exact List.pairwise_lt_range.imp (fun h => Nat.mul_le_mul_right _ h.le)

theorem evenCuts_sorted (n k : ℕ) : (0 :: evenCuts n k).Pairwise (· ≤ ·) := by
  rw [List.pairwise_cons]
  refine ⟨fun _ _ => Nat.zero_le _, ?_⟩
  unfold evenCuts
  rw [List.pairwise_map]
  refine List.pairwise_lt_range.imp (fun {a c} h => ?_)
  have := Nat.mul_le_mul_right (n / k) (show a + 1 ≤ c + 1 by omega)
  have h2 : min (a + 1) (n % k) ≤ min (c + 1) (n % k) := by omega
  omega

/-- **C53.** `iterbatches` with a batch size: the batches partition the shuffled indices, in order, all of size `b` but the last, which has between 1 and `b`. -/
theorem C53_iterbatches_size {n b : ℕ} (hb : 1 ≤ b) (hn : 1 ≤ n) {inds : List ℕ} (hp : inds.Perm (List.range n)) (arrays : List (List α)) :
    ∃ parts : List (List ℕ), parts.flatten = inds ∧ parts.length = (n + b - 1) / b ∧
      (∀ (i : ℕ) (p : List ℕ), parts[i]? = some p → if i + 1 < parts.length then p.length = b else p.length = n - i * b ∧ 1 ≤ p.length ∧ p.length ≤ b) ∧
      iterbatches arrays n none (some b) true inds = parts.map (fun p => arrays.map (fun a => reindex a p)) ∧
      iterbatches arrays n none (some b) false inds = (parts.filter (fun p => p.length = b)).map (fun p => arrays.map (fun a => reindex a p)) := by
  have hlen : inds.length = n := by rw [hp.length_eq, List.length_range]
  have hk1 : 1 ≤ (n + b - 1) / b := (Nat.one_le_div_iff (by omega)).2 (by omega)
  have hk2 : n ≤ (n + b - 1) / b * b := by
    have h1 := Nat.div_add_mod (n + b - 1) b
    have h2 := Nat.mod_lt (n + b - 1) (show b > 0 by omega)
    rw [Nat.mul_comm] at h1
    omega
  have hk3 : ((n + b - 1) / b - 1) * b < n := by
    have h1 := Nat.div_mul_le_self (n + b - 1) b
    rw [Nat.sub_mul, Nat.one_mul]
    omega
  obtain ⟨h1, h2, h3⟩ := splitAtIdx_spec inds (cuts n b) 0 (cuts_sorted n b)
  have hcl : (cuts n b).length + 1 = (n + b - 1) / b := by
    unfold cuts
    simp only [List.length_tail, List.length_map, List.length_range]
    omega
  refine ⟨splitAtIdx inds 0 (cuts n b), by rw [h1]; rfl, by rw [h2, hcl], ?_, ?_, ?_⟩
  · intro i p hip
    obtain ⟨s, hs1, hs2⟩ := h3 i p hip
    have hs : s = i * b := by
      cases i with
      | zero => simpa using hs1.symm
      | succ i =>
        rw [List.getElem?_cons_succ, cuts_get] at hs1
        split_ifs at hs1
        exact (Option.some.inj hs1).symm
    subst hs
    rw [h2, hcl]
    have hi : i < (n + b - 1) / b := by
      have := (List.getElem?_eq_some_iff.1 hip).1
      omega
    rw [cuts_get] at hs2
    split_ifs with hi'
    · rw [if_pos hi'] at hs2
      simp only at hs2
      rw [hs2, List.length_take, List.length_drop, hlen]
      have e1 : (i + 1) * b = i * b + b := by ring
      have e2 : (i + 1) * b ≤ ((n + b - 1) / b - 1) * b := Nat.mul_le_mul_right _ (by omega)
      omega
    · rw [if_neg hi'] at hs2
      simp only at hs2
      have hie : i = (n + b - 1) / b - 1 := by omega
      rw [hs2, List.length_drop, hlen]
      have e3 : (n + b - 1) / b * b = ((n + b - 1) / b - 1) * b + b := by
        rw [Nat.sub_mul, Nat.one_mul]
        have : b ≤ (n + b - 1) / b * b := Nat.le_mul_of_pos_left b hk1
        omega
      rw [hie]
      refine ⟨rfl, by omega, by omega⟩
  · unfold iterbatches arraySplitAt
    simp
  · unfold iterbatches arraySplitAt
    simp only [Bool.false_or, Option.some.injEq]
    congr 1
    apply List.filter_congr
    intro p _
    simp only [decide_eq_decide]
    exact ⟨fun h => h.symm, fun h => h.symm⟩

/-- **C53.** `iterbatches` with a number of batches: exactly `k` batches partition the shuffled indices and their sizes differ by at most one. -/
theorem C53_iterbatches_number {n k : ℕ} (hk : 1 ≤ k) {inds : List ℕ} (hp : inds.Perm (List.range n)) (arrays : List (List α)) :
    ∃ parts : List (List ℕ), parts.flatten = inds ∧ parts.length = k ∧
      (∀ (i : ℕ) (p : List ℕ), parts[i]? = some p → p.length = n / k + if i < n % k then 1 else 0) ∧
      iterbatches arrays n (some k) none true inds = parts.map (fun p => arrays.map (fun a => reindex a p)) := by
  have hlen : inds.length = n := by rw [hp.length_eq, List.length_range]
  obtain ⟨h1, h2, h3⟩ := splitAtIdx_spec inds (evenCuts n k) 0 (evenCuts_sorted n k)
  have hcl : (evenCuts n k).length + 1 = k := by
    unfold evenCuts
    simp
    omega
  have hget : ∀ i, (evenCuts n k)[i]? = if i < k - 1 then some ((i + 1) * (n / k) + min (i + 1) (n % k)) else none := by
    intro i
    unfold evenCuts
    rw [List.getElem?_map]
    split_ifs with h
    · rw [List.getElem?_range h]; rfl
    · rw [List.getElem?_eq_none (by simpa using h)]; rfl
  have hdm := Nat.div_add_mod n k
  have hml := Nat.mod_lt n (show k > 0 by omega)
  refine ⟨splitAtIdx inds 0 (evenCuts n k), by rw [h1]; rfl, by rw [h2, hcl], ?_, ?_⟩
  · intro i p hip
    obtain ⟨s, hs1, hs2⟩ := h3 i p hip
    have hi : i < k := by
      have := (List.getElem?_eq_some_iff.1 hip).1
      omega
    have hs : s = i * (n / k) + min i (n % k) := by
      cases i with
      | zero => simpa using hs1.symm
      | succ i =>
        rw [List.getElem?_cons_succ, hget] at hs1
        split_ifs at hs1
        exact (Option.some.inj hs1).symm
    have e1 : (i + 1) * (n / k) = i * (n / k) + n / k := by ring
    have e2 : (i + 1) * (n / k) ≤ k * (n / k) := Nat.mul_le_mul_right _ (by omega)
    rw [hget] at hs2
    by_cases hi' : i < k - 1
    · rw [if_pos hi'] at hs2
      simp only at hs2
      rw [hs2, List.length_take, List.length_drop, hlen, hs]
      clear hs2 hs1 hs hget h1 h2 h3 hcl hip
      generalize n / k = q at *
      generalize n % k = r at *
      generalize (i + 1) * q = u at *
      generalize i * q = w at *
      generalize k * q = z at *
      split_ifs <;> omega
    · rw [if_neg hi'] at hs2
      simp only at hs2
      have : k = i + 1 := by omega
      rw [hs2, List.length_drop, hlen, hs]
      have e3 : k * (n / k) = (i + 1) * (n / k) := by
        conv_lhs => rw [this]
        rw [← this]
      clear hs2 hs1 hs hget h1 h2 h3 hcl hip
      generalize n / k = q at *
      generalize n % k = r at *
      generalize (i + 1) * q = u at *
      generalize i * q = w at *
      generalize k * q = z at *
      split_ifs <;> omega
  · unfold iterbatches arraySplitAt
    simp

/-- **C53, defect.** With a number of batches and `include_final_partial_batch=False` nothing at all is yielded: sizes are compared with `batch_size`, which is `None`. -/
theorem C53_iterbatches_nothing (arrays : List (List α)) (n k : ℕ) (inds : List ℕ) : iterbatches arrays n (some k) none false inds = [] := by
  unfold iterbatches
  simp

/-- **C53.** Reading a batch: entry `i` of every array is the sample of the index drawn for it. -/
theorem C53_aligned {arrays : List (List α)} {n : ℕ} (hw : ∀ a ∈ arrays, a.length = n) {p : List ℕ} (hp : ∀ i ∈ p, i < n) (k : ℕ) (a : List α) (ha : arrays[k]? = some a) (i : ℕ) :
    ((arrays.map (fun a => reindex a p))[k]?).bind (fun col => col[i]?) = p[i]?.bind (fun s => a[s]?) := by
  rw [List.getElem?_map, ha]
  simp only [Option.map_some, Option.bind_some]
  exact reindex_get (by intro j hj; rw [hw a (List.mem_of_getElem? ha)]; exact hp j hj) i

/-- **C53.** A new dataset: its size is the number of samples, reading starts at the first, and the columns are the given ones, with `shuffle`
all reordered by the one permutation. -/
theorem C53_fresh {cols : List (List α)} {n : ℕ} (hw : ∀ c ∈ cols, c.length = n) (hne : cols ≠ []) (sh : Bool) {perm : List ℕ}
    (hp : perm.Perm (List.range n)) :
    (mk cols sh perm).n = n ∧ (mk cols sh perm).nextId = 0 ∧ (mk cols sh perm).shuffle = sh ∧ WF (mk cols sh perm) ∧
      ∀ (k : ℕ) (c : List α), cols[k]? = some c → ∃ c', (mk cols sh perm).cols[k]? = some c' ∧ c'.Perm c ∧
        ∀ i : ℕ, c'[i]? = if sh = true then (perm[i]?).bind (fun s : ℕ => c[s]?) else c[i]? := by
  have hn : (cols.headD []).length = n := by
    cases cols with
    | nil => exact absurd rfl hne
    | cons c cs => exact hw c List.mem_cons_self
  have hpi : ∀ c ∈ cols, ∀ i ∈ perm, i < c.length := by
    intro c hc i hi
    rw [hw c hc]
    simpa using hp.mem_iff.1 hi
  cases sh with
  | false =>
    refine ⟨hn, rfl, rfl, ?_, ?_⟩
    · intro c hc
      exact (hw c hc).trans hn.symm
    · intro k c hc
      exact ⟨c, hc, List.Perm.refl _, fun i => rfl⟩
  | true =>
    refine ⟨hn, rfl, rfl, ?_, ?_⟩
    · refine shuffle_wf (fun c hc => (hw c hc).trans hn.symm) ?_
      show perm.Perm (List.range (cols.headD []).length)
      rw [hn]; exact hp
    · intro k c hc
      have hm := List.mem_of_getElem? hc
      refine ⟨reindex c perm, ?_, ?_, ?_⟩
      · show (cols.map fun c => reindex c perm)[k]? = _
        rw [List.getElem?_map, hc]; rfl
      · exact reindex_perm (by rw [hw c hm]; exact hp)
      · intro i
        rw [reindex_get (hpi c hm)]; rfl

/-- **C53.** `subset`: the first `k` samples (all, if there are fewer) as a new dataset. -/
theorem C53_subset {d : Data α} (hw : WF d) (hne : d.cols ≠ []) (k : ℕ) (sh : Bool) {perm : List ℕ} (hp : perm.Perm (List.range (min k d.n))) :
    (subset d k sh perm).n = min k d.n ∧ (subset d k sh perm).nextId = 0 ∧ (subset d k sh perm).shuffle = sh ∧ WF (subset d k sh perm) ∧
      ∀ (j : ℕ) (c : List α), d.cols[j]? = some c → ∃ c', (subset d k sh perm).cols[j]? = some c' ∧ c'.Perm (c.take k) ∧
        (sh = false → c' = c.take k) := by
  have h1 : ∀ c ∈ d.cols.map (fun c => c.take k), c.length = min k d.n := by
    intro c hc
    obtain ⟨c0, h0, rfl⟩ := List.mem_map.1 hc
    rw [List.length_take, hw c0 h0]
  obtain ⟨a, b, c, e, f⟩ := C53_fresh h1 (by simpa using hne) sh hp
  refine ⟨a, b, c, e, fun j c0 hc0 => ?_⟩
  obtain ⟨c', g1, g2, g3⟩ := f j (c0.take k) (by rw [List.getElem?_map, hc0]; rfl)
  refine ⟨c', g1, g2, ?_⟩
  intro hs
  subst hs
  exact List.ext_getElem? g3

/-- **C53.** At the end of the data `next_batch` starts over: the batch holds the first samples, of the reordered columns if the dataset shuffles,
and reading goes on behind them. -/
theorem C53_starts_over (d : Data α) (b : ℕ) (perm : List ℕ) (h : d.n ≤ d.nextId) :
    (nextBatch d b perm).1 = (if d.shuffle then d.cols.map (fun c => (reindex c perm).take (min b d.n)) else d.cols.map (fun c => c.take (min b d.n))) ∧
    (nextBatch d b perm).2.nextId = min b d.n ∧ (nextBatch d b perm).2.n = d.n ∧ (nextBatch d b perm).2.shuffle = d.shuffle ∧
    (nextBatch d b perm).2.cols = if d.shuffle then d.cols.map (fun c => reindex c perm) else d.cols := by
  unfold nextBatch
  rw [if_pos h]
  cases hs : d.shuffle <;> simp [shuffleData, Function.comp_def]

example : (nextBatch (α := ℕ) ⟨[[1, 2, 3]], true, 3, 3⟩ 2 [2, 0, 1]).1 = [[3, 1]] := by decide
example : (mk [[1, 2, 3], [4, 5, 6]] true [2, 0, 1]).cols = [[3, 1, 2], [6, 4, 5]] := by decide

end

/-! ### Concrete cases -/

def exD : Data ℕ := mk [[10, 11, 12, 13, 14], [20, 21, 22, 23, 24]] true [4, 2, 0, 1, 3]

example : WF exD ∧ exD.nextId = 0 ∧ ([1, 0, 3, 2, 4] : List ℕ).Perm (List.range exD.n) := by
  refine ⟨?_, rfl, by decide⟩
  intro c hc
  have : exD.cols = [[14, 12, 10, 11, 13], [24, 22, 20, 21, 23]] := by decide
  rw [this] at hc
  simp only [List.mem_cons, List.not_mem_nil, or_false] at hc
  rcases hc with rfl | rfl <;> rfl
example : (iterateOnce exD 2 [1, 0, 3, 2, 4] []).1 = [[[12, 14], [22, 24]], [[11, 10], [21, 20]]] := by decide
/-- Breaking out after one batch: the next pass over the five samples yields one batch instead of two. -/
example : (iterateOnce { (nextBatch exD 2 []).2 with shuffle := false } 2 [] []).1 = [[[10, 11], [20, 21]]] := by decide
example : iterbatches [[10, 11, 12, 13, 14]] 5 none (some 2) true [1, 0, 3, 2, 4] = [[[11, 10]], [[13, 12]], [[14]]] := by decide
example : iterbatches [[10, 11, 12, 13, 14]] 5 (some 3) none true [1, 0, 3, 2, 4] = [[[11, 10]], [[13, 12]], [[14]]] := by decide
example : (calls 2 [] 3 exD).1 = [[[14, 12], [24, 22]], [[10, 11], [20, 21]], [[13], [23]]] := by decide

end Neorl.Dataset

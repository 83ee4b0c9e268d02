import Verif.Replay
import Verif.Props.SegTree
import Mathlib.Order.WithBot

/-!
# Prioritised replay buffer

Model of `neorl/rl/baselines/shared/buffers.py`, class `PrioritizedReplayBuffer` (lines 146-264).
-/

set_option linter.unusedSectionVars false
set_option linter.unusedVariables false

namespace Neorl.PER

open Neorl.Replay (Buf Inv)
open Neorl.SegTree (Heap setItems reduce findPrefix prefixSum lastWrite)

variable {α K : Type} [Field K] [LinearOrder K] [IsStrictOrderedRing K]

/-- State of the prioritised buffer, lines 157-167. -/
structure PBuf (α K : Type) where
  buf : Buf α
  sum : SegTree.Tree K
  mn : SegTree.Tree (WithTop K)
  maxp : K

/-- The loop `it_capacity = 1; while it_capacity < size: it_capacity *= 2`, lines 161-163; the capacity is `2 ^ h`.  `fuel` rounds
(`capLoop_spec`: `size` rounds are enough). -/
def capLoop (size : ℕ) : ℕ → ℕ → ℕ
  | 0, h => h
  | n + 1, h => if 2 ^ h < size then capLoop size n (h + 1) else h

/-- `__init__`, lines 147-167 (`alpha` enters through the parameter `pw p = p ** alpha` below). -/
def new (size : ℕ) : PBuf α K :=
  ⟨Replay.new size, SegTree.new (capLoop size size 0) 0, SegTree.new (capLoop size size 0) ⊤, 1⟩

/-- Write one priority to both trees, lines 181-182 and 200-201. -/
def setPrio (pw : K → K) (b : PBuf α K) (idx : ℕ) : Py (PBuf α K) :=
  match setItems (· + ·) b.sum [(idx, pw b.maxp)] with
  | .error e => .error e
  | .ok s =>
    match setItems min b.mn [(idx, ((pw b.maxp : K) : WithTop K))] with
    | .error e => .error e
    | .ok m => .ok { b with sum := s, mn := m }

/-- `add`, lines 169-182. -/
def add (pw : K → K) (b : PBuf α K) (x : α) : Py (PBuf α K) :=
  let idx := b.buf.next
  match Replay.add b.buf x with
  | .error e => .error e
  | .ok buf => setPrio pw { b with buf := buf } idx

/-- The loop of `extend`, lines 199-202; `fuel` rounds. -/
def prioLoop (pw : K → K) : ℕ → PBuf α K → ℕ → Py (PBuf α K)
  | 0, b, idx => if idx = b.buf.next then .ok b else .error .recursion
  | n + 1, b, idx =>
    if idx = b.buf.next then .ok b
    else
      match setPrio pw b idx with
      | .error e => .error e
      | .ok b' => prioLoop pw n b' ((idx + 1) % b.buf.maxsize)

/-- `extend`, lines 184-202. -/
def extend (pw : K → K) (b : PBuf α K) (xs : List α) : Py (PBuf α K) :=
  let idx := b.buf.next
  match Replay.extend b.buf xs with
  | .error e => .error e
  | .ok buf => prioLoop pw buf.maxsize { b with buf := buf } idx

/-- `update_priorities`, lines 246-264, on the zipped list of indices and priorities.  `np.min` of an empty array raises
`ValueError`. -/
def update (pw : K → K) (b : PBuf α K) (w : List (ℕ × K)) : Py (PBuf α K) :=
  if w = [] then .error .valueError
  else if ∀ p ∈ w, 0 < p.2 then
    if ∀ p ∈ w, p.1 < b.buf.storage.length then
      match setItems (· + ·) b.sum (w.map (fun p => (p.1, pw p.2))) with
      | .error e => .error e
      | .ok s =>
        match setItems min b.mn (w.map (fun p => (p.1, ((pw p.2 : K) : WithTop K)))) with
        | .error e => .error e
        | .ok m => .ok { b with sum := s, mn := m, maxp := w.foldl (fun a p => max a p.2) b.maxp }
    else .error .assertion
  else .error .assertion

/-- `_sample_proportional`, lines 204-210; `us` are the uniform draws in `[0,1)`, `eps` the tolerance `1e-5` of the search. -/
def sampleProportional (eps : K) (b : PBuf α K) (us : List K) : Py (List ℕ) :=
  match reduce (· + ·) b.sum 0 (some ((b.buf.storage.length : ℤ) - 1)) with
  | .error e => .error e
  | .ok total => findPrefix eps b.sum (us.map (· * total))

/-- Importance weights, lines 239-242: `pb p = p ** (-beta)`.  An infinite minimum (empty buffer) is replaced by 0; `sample` then
raises anyway. -/
def weights (pb : K → K) (b : PBuf α K) (pmin : WithTop K) (total : K) (idxs : List ℕ) : List K :=
  let n : K := (b.buf.storage.length : K)
  let maxw := pb (WithTop.untopD 0 pmin / total * n)
  idxs.map (fun i => pb (b.sum.leaf i / total * n) / maxw)

/-- `sample`, lines 212-244. -/
def sample (eps : K) (pb : K → K) (beta : K) (b : PBuf α K) (us : List K) : Py (List α × List K × List ℕ) :=
  if 0 < beta then
    match sampleProportional eps b us with
    | .error e => .error e
    | .ok idxs =>
      match reduce min b.mn 0 none, reduce (· + ·) b.sum 0 none with
      | .ok pmin, .ok total =>
        match Replay.encodeSample b.buf idxs with
        | .error e => .error e
        | .ok xs => .ok (xs, weights pb b pmin total idxs, idxs)
      | .error e, _ => .error e
      | _, .error e => .error e
  else .error .assertion

/-- A public mutation. -/
inductive Op (α K : Type)
  | add (x : α)
  | extend (xs : List α)
  | update (w : List (ℕ × K))

/-- One public mutation. -/
def step (pw : K → K) (b : PBuf α K) : Op α K → Py (PBuf α K)
  | .add x => add pw b x
  | .extend xs => extend pw b xs
  | .update w => update pw b w

/-- A history of public mutations. -/
def run (pw : K → K) (b : PBuf α K) : List (Op α K) → Py (PBuf α K)
  | [] => .ok b
  | o :: os =>
    match step pw b o with
    | .error e => .error e
    | .ok b' => run pw b' os

/-! ### Lemmas -/

theorem capLoop_spec (size : ℕ) : ∀ (n h : ℕ), size ≤ 2 ^ (h + n) → (h = 0 ∨ 2 ^ (h - 1) < size) →
    size ≤ 2 ^ capLoop size n h ∧ (capLoop size n h = 0 ∨ 2 ^ (capLoop size n h - 1) < size) := by
  intro n
  induction n with
  | zero => intro h h1 h2; simpa [capLoop] using ⟨h1, h2⟩
  | succ n ih =>
    intro h h1 h2
    simp only [capLoop]
    split_ifs with hc
    · exact ih (h + 1) (by rw [show h + 1 + n = h + (n + 1) by omega]; exact h1) (Or.inr (by simpa using hc))
    · exact ⟨not_lt.1 hc, h2⟩

theorem lastWrite_not_mem {β : Type} {w : List (ℕ × β)} {i : ℕ} {d : β} (h : ∀ p ∈ w, p.1 ≠ i) : lastWrite w i d = d := by
  unfold lastWrite
  have : w.reverse.lookup i = none := by
    rw [List.lookup_eq_none_iff]
    intro p hp
    simpa using fun hh => h p (by simpa using hp) hh.symm
  rw [this]; rfl

theorem lastWrite_mem {β : Type} (w : List (ℕ × β)) (i : ℕ) (d : β) : lastWrite w i d = d ∨ (i, lastWrite w i d) ∈ w := by
  unfold lastWrite
  cases h : w.reverse.lookup i with
  | none => left; rfl
  | some y =>
    right
    have := List.lookup_eq_some_iff.1 h
    obtain ⟨l1, l2, h1, _⟩ := this
    have hm : (i, y) ∈ w.reverse := by rw [h1]; simp
    simpa using hm

theorem lastWrite_map {β γ : Type} (f : β → γ) (w : List (ℕ × β)) (i : ℕ) (d : β) :
    lastWrite (w.map (fun p => (p.1, f p.2))) i (f d) = f (lastWrite w i d) := by
  unfold lastWrite
  rw [← List.map_reverse]
  generalize w.reverse = l
  induction l with
  | nil => simp
  | cons p l ih =>
    obtain ⟨j, y⟩ := p
    simp only [List.map_cons, List.lookup_cons]
    cases h : (i == j) with
    | true => simp
    | false => simpa using ih

/-- Invariant of the priority trees.  The first `len` leaves of the sum tree are the positive priorities of the stored
transitions, the others are neutral; the min tree holds the same values. -/
structure TInv (len : ℕ) (s : SegTree.Tree K) (m : SegTree.Tree (WithTop K)) : Prop where
  heapS : Heap (· + ·) s
  heapM : Heap min m
  same : m.cap = s.cap
  le : len ≤ s.cap
  pos : ∀ i, i < len → 0 < s.leaf i ∧ m.leaf i = ((s.leaf i : K) : WithTop K)
  zero : ∀ i, len ≤ i → i < s.cap → s.leaf i = 0 ∧ m.leaf i = ⊤

theorem write_both {len : ℕ} {s : SegTree.Tree K} {m : SegTree.Tree (WithTop K)} (h : TInv len s m) {w : List (ℕ × K)} (hw : w ≠ [])
    {len' : ℕ} (hl : len ≤ len') (hl' : len' ≤ s.cap) (hr : ∀ p ∈ w, p.1 < len') (hp : ∀ p ∈ w, 0 < p.2)
    (hcov : ∀ i, len ≤ i → i < len' → ∃ p ∈ w, p.1 = i) :
    ∃ s' m', setItems (· + ·) s w = .ok s' ∧ setItems min m (w.map (fun p => (p.1, ((p.2 : K) : WithTop K)))) = .ok m' ∧
      TInv len' s' m' ∧ s'.cap = s.cap ∧ ∀ i, i < s.cap → s'.leaf i = lastWrite w i (s.leaf i) := by
  have hrs : ∀ p ∈ w, p.1 < s.cap := fun p hp' => lt_of_lt_of_le (hr p hp') hl'
  obtain ⟨s', a1, a2, a3, a4⟩ := SegTree.C35_write h.heapS hw hrs
  obtain ⟨m', b1, b2, b3, b4⟩ := SegTree.C35_write h.heapM (w := w.map (fun p => (p.1, ((p.2 : K) : WithTop K))))
    (by simpa using hw) (by
      intro p hp'
      obtain ⟨q, hq, rfl⟩ := List.mem_map.1 hp'
      rw [h.same]; exact hrs q hq)
  refine ⟨s', m', a1, b1, ⟨a2, b2, by rw [a3, b3, h.same], by rw [a3]; exact hl', ?_, ?_⟩, a3, a4⟩
  · intro i hi
    have hi' : i < s.cap := by omega
    rw [a4 i hi', b4 i (by rw [h.same]; exact hi')]
    by_cases hlen : i < len
    · obtain ⟨c1, c2⟩ := h.pos i hlen
      rw [c2]
      refine ⟨?_, lastWrite_map (fun x : K => ((x : K) : WithTop K)) w i (s.leaf i)⟩
      rcases lastWrite_mem w i (s.leaf i) with e | e
      · rw [e]; exact c1
      · exact hp _ e
    · obtain ⟨p, hpm, rfl⟩ := hcov i (by omega) hi
      have hmem : ∀ d : K, (p.1, lastWrite w p.1 d) ∈ w ∧ ∀ d', lastWrite w p.1 d = lastWrite w p.1 d' := by
        intro d
        have hsome : ∃ y, w.reverse.lookup p.1 = some y := by
          cases hh : w.reverse.lookup p.1 with
          | some y => exact ⟨y, rfl⟩
          | none =>
            rw [List.lookup_eq_none_iff] at hh
            have := hh p (by simpa using hpm)
            simp at this
        obtain ⟨y, hy⟩ := hsome
        obtain ⟨l1, l2, h1, _⟩ := List.lookup_eq_some_iff.1 hy
        have hm : (p.1, y) ∈ w.reverse := by rw [h1]; simp
        unfold lastWrite
        rw [hy]
        exact ⟨by simpa using hm, fun _ => rfl⟩
      refine ⟨hp _ (hmem _).1, ?_⟩
      have : lastWrite (w.map (fun p => (p.1, ((p.2 : K) : WithTop K)))) p.1 (m.leaf p.1) =
          lastWrite (w.map (fun p => (p.1, ((p.2 : K) : WithTop K)))) p.1 ((s.leaf p.1 : K) : WithTop K) := by
        have hsome : ∃ y, (w.map (fun p => (p.1, ((p.2 : K) : WithTop K)))).reverse.lookup p.1 = some y := by
          cases hh : (w.map (fun p => (p.1, ((p.2 : K) : WithTop K)))).reverse.lookup p.1 with
          | some y => exact ⟨y, rfl⟩
          | none =>
            rw [List.lookup_eq_none_iff] at hh
            have := hh (p.1, ((p.2 : K) : WithTop K)) (by simp only [List.mem_reverse, List.mem_map]; exact ⟨p, hpm, rfl⟩)
            simp at this
        obtain ⟨y, hy⟩ := hsome
        unfold lastWrite
        rw [hy]; rfl
      rw [this]
      exact lastWrite_map (fun x : K => ((x : K) : WithTop K)) w p.1 (s.leaf p.1)
  · intro i hi hi'
    rw [a3] at hi'
    rw [a4 i hi', b4 i (by rw [h.same]; exact hi')]
    rw [lastWrite_not_mem (fun p hp' => by have := hr p hp'; omega), lastWrite_not_mem]
    · exact h.zero i (by omega) hi'
    · intro p hp'
      obtain ⟨q, hq, rfl⟩ := List.mem_map.1 hp'
      have := hr q hq
      simp only; omega

/-- Invariant of the prioritised buffer after the submissions `xs`. -/
structure PInv (size : ℕ) (b : PBuf α K) (xs : List α) : Prop where
  ring : Inv size b.buf xs
  trees : TInv b.buf.storage.length b.sum b.mn
  maxpos : 0 < b.maxp
  room : size ≤ b.sum.cap

theorem pinv_new {size : ℕ} (hs : 0 < size) : PInv size (new size : PBuf α K) [] := by
  have hcap : size ≤ 2 ^ capLoop size size 0 :=
    (capLoop_spec size size 0 (by rw [Nat.zero_add]; exact Nat.lt_two_pow_self.le) (Or.inl rfl)).1
  refine ⟨Replay.inv_new hs, ⟨?_, ?_, rfl, ?_, ?_, ?_⟩, one_pos, hcap⟩
  · exact (SegTree.C35_new (by simp) _).1
  · exact (SegTree.C35_new (by simp) _).1
  · simp [new, Replay.new]
  · intro i hi; simp [new, Replay.new] at hi
  · intro i _ _; exact ⟨rfl, rfl⟩

theorem setPrio_spec {pw : K → K} (hpw : ∀ p, 0 < p → 0 < pw p) {b : PBuf α K} (hm : 0 < b.maxp) {len len' idx : ℕ}
    (h : TInv len b.sum b.mn) (hl : len ≤ len') (hl' : len' ≤ b.sum.cap) (hi : idx < len')
    (hcov : ∀ i, len ≤ i → i < len' → idx = i) :
    ∃ b', setPrio pw b idx = .ok b' ∧ b'.buf = b.buf ∧ b'.maxp = b.maxp ∧ TInv len' b'.sum b'.mn ∧ b'.sum.cap = b.sum.cap ∧
      ∀ i, i < b.sum.cap → b'.sum.leaf i = if i = idx then pw b.maxp else b.sum.leaf i := by
  obtain ⟨s', m', a1, a2, a3, a4, a5⟩ := write_both h (w := [(idx, pw b.maxp)]) (by simp) hl hl' (by simpa using hi)
    (by simpa using hpw _ hm) (fun i h1 h2 => ⟨(idx, pw b.maxp), by simp, hcov i h1 h2⟩)
  simp only [List.map_cons, List.map_nil] at a2
  refine ⟨{ b with sum := s', mn := m' }, by simp only [setPrio, a1, a2], rfl, rfl, a3, a4, ?_⟩
  intro i hi
  simp only [a5 i hi, lastWrite, List.reverse_cons, List.reverse_nil, List.nil_append, List.lookup_cons, List.lookup_nil]
  by_cases he : i = idx
  · simp [he]
  · have : (i == idx) = false := by simpa using he
    simp [this, he]

theorem prioLoop_spec {pw : K → K} (hpw : ∀ p, 0 < p → 0 < pw p) {size nx len n : ℕ} (hs : 0 < size) (hn : n < size)
    (hlen : len ≤ size) (hpart : len < size → nx = len) (hnx : nx < size) : ∀ (k j fuel : ℕ) (b : PBuf α K), j + k = n → k ≤ fuel →
    b.buf.next = (nx + n) % size → b.buf.maxsize = size → 0 < b.maxp → size ≤ b.sum.cap →
    TInv (min (len + j) size) b.sum b.mn →
    ∃ b', prioLoop pw fuel b ((nx + j) % size) = .ok b' ∧ b'.buf = b.buf ∧ b'.maxp = b.maxp ∧
      TInv (min (len + n) size) b'.sum b'.mn ∧ b'.sum.cap = b.sum.cap ∧
      (∀ t, j ≤ t → t < n → b'.sum.leaf ((nx + t) % size) = pw b.maxp) ∧
      ∀ i, i < b.sum.cap → (∀ t, j ≤ t → t < n → i ≠ (nx + t) % size) → b'.sum.leaf i = b.sum.leaf i := by
  intro k
  induction k with
  | zero =>
    intro j fuel b hj _ hb hms hm hroom ht
    have : j = n := by omega
    subst this
    refine ⟨b, ?_, rfl, rfl, ht, rfl, ?_, fun _ _ _ => rfl⟩
    · cases fuel <;> simp [prioLoop, hb]
    · intro t h1 h2; omega
  | succ k ih =>
    intro j fuel b hj hf hb hms hm hroom ht
    obtain ⟨fuel, rfl⟩ : ∃ f, fuel = f + 1 := ⟨fuel - 1, by omega⟩
    have hmodlt : (nx + j) % size < size := Nat.mod_lt _ hs
    have hne : (nx + j) % size ≠ (nx + n) % size := by
      intro hcon
      have hdvd : size ∣ (nx + n) - (nx + j) := (Nat.modEq_iff_dvd' (by omega)).1 hcon
      have := Nat.le_of_dvd (by omega) hdvd
      omega
    have hidx : len + j < size → (nx + j) % size = len + j := by
      intro h
      rw [hpart (by omega), Nat.mod_eq_of_lt h]
    obtain ⟨b1, c1, c2, c3, c4, c5, c6⟩ := setPrio_spec hpw hm ht (len' := min (len + (j + 1)) size)
      (idx := (nx + j) % size) (by omega) (by omega)
      (by
        by_cases h : len + j < size
        · rw [hidx h]; omega
        · omega)
      (by
        intro i h1 h2
        rw [hidx (by omega)]; omega)
    obtain ⟨b2, d1, d2, d3, d4, d5, d6, d7⟩ := ih (j + 1) fuel b1 (by omega) (by omega) (by rw [c2, hb]) (by rw [c2, hms])
      (by rw [c3]; exact hm) (by rw [c5]; exact hroom) c4
    refine ⟨b2, ?_, d2.trans c2, d3.trans c3, d4, d5.trans c5, ?_, ?_⟩
    · simp only [prioLoop]
      rw [if_neg (by rw [hb]; exact hne)]
      simp only [c1, hms]
      rw [Nat.mod_add_mod]
      exact d1
    · intro t h1 h2
      rcases Nat.lt_or_ge j t with h | h
      · rw [d6 t h h2, c3]
      · have : t = j := by omega
        subst this
        rw [d7 _ (by omega), c6 _ (by omega), if_pos rfl]
        intro t' h1' h2' hcon
        have hdvd : size ∣ (nx + t') - (nx + t) := (Nat.modEq_iff_dvd' (by omega)).1 hcon
        have := Nat.le_of_dvd (by omega) hdvd
        omega
    · intro i hi ho
      rw [d7 i (by omega) (fun t h1 h2 => ho t (by omega) h2), c6 i hi, if_neg (ho j le_rfl (by omega))]

theorem replay_extend_next {ys : List α} {b b' : Buf α} (h : Replay.extend b ys = .ok b') (hlt : b.next < b.maxsize) :
    b'.next = (b.next + ys.length) % b.maxsize ∧ b'.maxsize = b.maxsize := by
  induction ys generalizing b with
  | nil =>
    simp only [Replay.extend] at h
    cases h
    exact ⟨by simp [Nat.mod_eq_of_lt hlt], rfl⟩
  | cons y ys ih =>
    simp only [Replay.extend] at h
    split at h
    · cases h
    · rename_i b1 h1
      unfold Replay.add at h1
      rw [if_neg (by omega)] at h1
      simp only [Except.ok.injEq] at h1
      obtain ⟨g1, g2⟩ := ih h (by rw [← h1]; exact Nat.mod_lt _ (by omega))
      rw [← h1] at g1 g2
      simp only at g1 g2
      refine ⟨?_, g2⟩
      rw [g1, Nat.mod_add_mod, List.length_cons]
      congr 1; omega

theorem add_pinv {pw : K → K} (hpw : ∀ p, 0 < p → 0 < pw p) {size : ℕ} (hs : 0 < size) {b : PBuf α K} {xs : List α}
    (h : PInv size b xs) (x : α) :
    ∃ b', add pw b x = .ok b' ∧ PInv size b' (xs ++ [x]) ∧ b'.maxp = b.maxp ∧ b'.sum.cap = b.sum.cap ∧
      ∀ i, i < b.sum.cap → b'.sum.leaf i = if i = b.buf.next then pw b.maxp else b.sum.leaf i := by
  obtain ⟨hr, ht, hm, hroom⟩ := h
  obtain ⟨buf, h1, h2⟩ := Replay.add_inv hs hr x
  have hl1 := hr.len
  have hl2 := h2.len
  have hlt := hr.lt
  have hpart := hr.part
  simp only [List.length_append, List.length_singleton] at hl2
  obtain ⟨b', c1, c2, c3, c4, c5, c6⟩ := setPrio_spec (b := { b with buf := buf }) hpw hm ht
    (len' := buf.storage.length) (idx := b.buf.next) (by omega) (by simp only; omega)
    (by
      by_cases hc : b.buf.storage.length < size
      · rw [hpart hc]; omega
      · omega)
    (by
      intro i e1 e2
      rw [hpart (by omega)]; omega)
  refine ⟨b', by simp only [add, h1, c1], ⟨?_, ?_, ?_, ?_⟩, c3, c5, c6⟩
  · rw [c2]; exact h2
  · rw [c2]; exact c4
  · rw [c3]; exact hm
  · rw [c5]; exact hroom

theorem extend_pinv {pw : K → K} (hpw : ∀ p, 0 < p → 0 < pw p) {size : ℕ} (hs : 0 < size) {b : PBuf α K} {xs ys : List α}
    (h : PInv size b xs) (hy : ys.length < size) :
    ∃ b', extend pw b ys = .ok b' ∧ PInv size b' (xs ++ ys) ∧ b'.maxp = b.maxp ∧ b'.sum.cap = b.sum.cap ∧
      (∀ t, t < ys.length → b'.sum.leaf ((b.buf.next + t) % size) = pw b.maxp) ∧
      ∀ i, i < b.sum.cap → (∀ t, t < ys.length → i ≠ (b.buf.next + t) % size) → b'.sum.leaf i = b.sum.leaf i := by
  obtain ⟨hr, ht, hm, hroom⟩ := h
  obtain ⟨buf, h1, h2⟩ := Replay.extend_inv hs hr (ys := ys)
  have hl1 := hr.len
  have hl2 := h2.len
  have hlt := hr.lt
  have hpart := hr.part
  obtain ⟨n1, n2⟩ := replay_extend_next h1 (by rw [hr.size]; exact hlt)
  rw [hr.size] at n1 n2
  simp only [List.length_append] at hl2
  obtain ⟨b', c1, c2, c3, c4, c5, c6, c7⟩ := prioLoop_spec hpw (size := size) (nx := b.buf.next) (len := b.buf.storage.length)
    (n := ys.length) hs hy (by omega) hpart hlt ys.length 0 size { b with buf := buf } (by omega) (by omega) n1 n2 hm hroom
    (by rw [Nat.add_zero, min_eq_left (by omega)]; exact ht)
  have hmod : (b.buf.next + 0) % size = b.buf.next := by rw [Nat.add_zero, Nat.mod_eq_of_lt hlt]
  rw [hmod] at c1
  refine ⟨b', by simp only [extend, h1, n2, c1], ⟨?_, ?_, ?_, ?_⟩, c3, c5,
    fun t ht => c6 t (Nat.zero_le _) ht, fun i hi ho => c7 i hi (fun t _ ht => ho t ht)⟩
  · rw [c2]; exact h2
  · rw [c2]
    have : min (b.buf.storage.length + ys.length) size = buf.storage.length := by omega
    rw [← this]; exact c4
  · rw [c3]; exact hm
  · rw [c5]; exact hroom

theorem foldl_max_ge (w : List (ℕ × K)) (a : K) : a ≤ w.foldl (fun a p => max a p.2) a ∧
    ∀ p ∈ w, p.2 ≤ w.foldl (fun a p => max a p.2) a := by
  induction w generalizing a with
  | nil => simp
  | cons q w ih =>
    simp only [List.foldl_cons]
    obtain ⟨h1, h2⟩ := ih (max a q.2)
    refine ⟨(le_max_left _ _).trans h1, ?_⟩
    intro p hp
    rcases List.mem_cons.1 hp with rfl | hp
    · exact (le_max_right _ _).trans h1
    · exact h2 p hp

theorem update_pinv {pw : K → K} (hpw : ∀ p, 0 < p → 0 < pw p) {size : ℕ} {b b' : PBuf α K} {xs : List α} {w : List (ℕ × K)}
    (h : PInv size b xs) (hu : update pw b w = .ok b') :
    PInv size b' xs ∧ b'.buf = b.buf ∧ b'.maxp = w.foldl (fun a p => max a p.2) b.maxp ∧ b'.sum.cap = b.sum.cap ∧
      ∀ i, i < b.sum.cap → b'.sum.leaf i = lastWrite (w.map (fun p => (p.1, pw p.2))) i (b.sum.leaf i) := by
  obtain ⟨hr, ht, hm, hroom⟩ := h
  unfold update at hu
  split_ifs at hu with h1 h2 h3
  obtain ⟨s', m', a1, a2, a3, a4, a5⟩ := write_both ht (w := w.map (fun p => (p.1, pw p.2))) (by simpa using h1) le_rfl ht.le
    (by intro p hp; obtain ⟨q, hq, rfl⟩ := List.mem_map.1 hp; exact h3 q hq)
    (by intro p hp; obtain ⟨q, hq, rfl⟩ := List.mem_map.1 hp; exact hpw _ (h2 q hq))
    (by intro i e1 e2; omega)
  rw [List.map_map] at a2
  have a2' : setItems min b.mn (w.map (fun p => (p.1, ((pw p.2 : K) : WithTop K)))) = .ok m' := a2
  simp only [a1, a2', Except.ok.injEq] at hu
  subst hu
  exact ⟨⟨hr, a3, lt_of_lt_of_le hm (foldl_max_ge w b.maxp).1, by simp only [a4]; exact hroom⟩, rfl, rfl, a4, a5⟩

/-- Specification: the largest priority ever given, starting from 1. -/
def maxPrio : List (Op α K) → K → K
  | [], a => a
  | .update w :: os, a => maxPrio os (w.foldl (fun a p => max a p.2) a)
  | _ :: os, a => maxPrio os a

/-- Specification: the submitted transitions. -/
def Op.items : Op α K → List α
  | .add x => [x]
  | .extend xs => xs
  | .update _ => []

theorem run_pinv {pw : K → K} (hpw : ∀ p, 0 < p → 0 < pw p) {size : ℕ} (hs : 0 < size) {ops : List (Op α K)}
    {b b' : PBuf α K} {xs : List α} (h : PInv size b xs) (he : ∀ ys, Op.extend ys ∈ ops → ys.length < size)
    (hr : run pw b ops = .ok b') : PInv size b' (xs ++ ops.flatMap Op.items) ∧ b'.maxp = maxPrio ops b.maxp := by
  induction ops generalizing b xs with
  | nil => simp only [run] at hr; cases hr; exact ⟨by simpa using h, rfl⟩
  | cons o ops ih =>
    simp only [run] at hr
    split at hr
    · cases hr
    · rename_i b1 h1
      cases o with
      | add x =>
        obtain ⟨b2, e1, e2, e3, _⟩ := add_pinv hpw hs h x
        simp only [step, e1, Except.ok.injEq] at h1
        subst h1
        have := ih e2 (fun ys hy => he ys (by simp [hy])) hr
        rw [e3] at this
        simpa [List.flatMap_cons, Op.items, maxPrio] using this
      | extend ys =>
        obtain ⟨b2, e1, e2, e3, _⟩ := extend_pinv hpw hs h (he ys (by simp))
        simp only [step, e1, Except.ok.injEq] at h1
        subst h1
        have := ih e2 (fun ys hy => he ys (by simp [hy])) hr
        rw [e3] at this
        simpa [List.flatMap_cons, Op.items, maxPrio] using this
      | update w =>
        simp only [step] at h1
        obtain ⟨e1, _, e3, _⟩ := update_pinv hpw h h1
        have := ih e1 (fun ys hy => he ys (by simp [hy])) hr
        rw [e3] at this
        simpa [List.flatMap_cons, Op.items, maxPrio] using this

/-- Range sum from the left end. -/
theorem reduce_sum {t : SegTree.Tree K} (hh : Heap (· + ·) t) {n : ℕ} (h1 : 0 < n) (h2 : n ≤ t.cap) :
    reduce (· + ·) t 0 (some (n : ℤ)) = .ok (prefixSum t n) := by
  have := SegTree.C35_reduce (fun a b c : K => add_assoc a b c) hh (start := 0) (stop := n) h1 h2
  rw [show ((0 : ℕ) : ℤ) = 0 from rfl] at this
  rw [this, SegTree.rangeFold_add]
  congr 1
  unfold prefixSum
  apply Finset.sum_congr
  · congr 1; omega
  · intro i _; simp

theorem reduce_total {t : SegTree.Tree K} (hh : Heap (· + ·) t) : reduce (· + ·) t 0 none = .ok (prefixSum t t.cap) := by
  rw [(SegTree.C35_reduce_conventions _ t 0).1]
  exact reduce_sum hh (Nat.two_pow_pos t.h) le_rfl

theorem rangeFold_min_le {β : Type} [LinearOrder β] (f : ℕ → β) (s n : ℕ) :
    (∀ i, i ≤ n → SegTree.rangeFold min f s n ≤ f (s + i)) ∧ ∃ i, i ≤ n ∧ SegTree.rangeFold min f s n = f (s + i) := by
  induction n with
  | zero => exact ⟨fun i hi => by rw [Nat.le_zero.1 hi]; rfl, 0, le_rfl, rfl⟩
  | succ n ih =>
    obtain ⟨h1, j, h2, h3⟩ := ih
    refine ⟨?_, ?_⟩
    · intro i hi
      rcases Nat.lt_or_ge n i with h | h
      · have : i = n + 1 := by omega
        subst this
        exact min_le_right _ _
      · exact (min_le_left _ _).trans (h1 i h)
    · rcases min_choice (SegTree.rangeFold min f s n) (f (s + n + 1)) with h | h
      · exact ⟨j, by omega, by simp only [SegTree.rangeFold]; rw [h, h3]⟩
      · exact ⟨n + 1, le_rfl, by simp only [SegTree.rangeFold]; rw [h]; rfl⟩

end Neorl.PER

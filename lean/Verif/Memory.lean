import Verif.ER

/-!
# The experience memory inside PESA

Model of what `neorl/hybrid/pesa.py`, `pesa2.py` and `pesax.py` do with the memory of `Verif/ER.lean`: samples `(x, obj, method)`, added in
blocks, sampled with priorities, and the best one read after every generation.
-/

set_option linter.unusedSectionVars false
set_option linter.unusedVariables false

namespace Neorl.ER

section
variable {K : Type} [Field K] [LinearOrder K] [IsStrictOrderedRing K]

/-- The third component of a sample: the method that produced it (`neorl/hybrid/pesa.py` lines 249, 437-441 and the same lines of `pesa2.py`,
`pesax.py`). -/
inductive Tag
  | na | sanext | sabest | es | pso | gwo | de | woa | xnes
  deriving DecidableEq

/-- A sample `(x, obj, method)`, `neorl/hybrid/pesacore/er.py` line 78. -/
abbrev Sample (K : Type) := List K × K × Tag

/-- The key of both sorts of `er.py`: `lambda e: e[1]`. -/
def objOf (e : Sample K) : K := e.2.1

/-- `[(x, o, m) for x, o, m in zip(xvec, obj, method)]` with `method = [tag] * len(xvec)`. -/
def tagged (t : Tag) (l : List (List K × K)) : List (Sample K) := l.map fun p => (p.1, p.2, t)

/-- Several `add` calls in a row. -/
def addAll (m : Mem (Sample K)) : List (List (Sample K)) → Py (Mem (Sample K))
  | [] => .ok m
  | b :: bs =>
    match add m b with
    | .error e => .error e
    | .ok m' => addAll m' bs

/-- `sample(batch_size=1, mode='greedy')[0]`, `er.py` lines 135-138; the memory comes back sorted. -/
def greedyOne (m : Mem (Sample K)) : Py (Mem (Sample K) × Sample K) :=
  let r := sampleGreedy objOf m 1
  match r.2.head? with
  | none => .error .indexError
  | some e => .ok (r.1, e)

/-! ### Lemmas -/

/-- The ring has not wrapped: at most `n` samples, appended at the end while there is room. -/
def NW (m : Mem (Sample K)) (n : ℕ) : Prop := m.storage.length ≤ n ∧ (m.storage.length < m.size → m.next = m.storage.length)

theorem NW.mono {m : Mem (Sample K)} {n n' : ℕ} (h : NW m n) (hn : n ≤ n') : NW m n' := ⟨h.1.trans hn, h.2⟩

theorem addOne_ok {m m' : Mem (Sample K)} {x : Sample K} (h : addOne m x = .ok m') :
    m'.size = m.size ∧ (∀ e ∈ m'.storage, e = x ∨ e ∈ m.storage) ∧ m'.storage ≠ [] ∧ m.storage.length ≤ m'.storage.length := by
  unfold addOne at h
  split at h
  · rename_i hx
    cases h
    exact ⟨rfl, fun e he => Or.inr he, List.ne_nil_of_mem hx, le_rfl⟩
  · simp only at h
    split at h
    · cases h
    · cases h
      refine ⟨rfl, ?_, ?_, ?_⟩
      · intro e he
        simp only at he
        split at he
        · rcases List.mem_append.1 he with he | he
          · exact Or.inr he
          · exact Or.inl (List.mem_singleton.1 he)
        · rcases List.mem_or_eq_of_mem_set he with he | he
          · exact Or.inr he
          · exact Or.inl he
      · simp only
        split
        · simp
        · rename_i hc
          intro h0
          have := congrArg List.length h0
          simp at this
          rw [this] at hc
          simp at hc
      · simp only
        split <;> simp

theorem addOne_keep {m m' : Mem (Sample K)} {x : Sample K} {n : ℕ} (hn : NW m n) (hs : n + 1 ≤ m.size) (h : addOne m x = .ok m') :
    NW m' (n + 1) ∧ (∀ e ∈ m.storage, e ∈ m'.storage) ∧ x ∈ m'.storage := by
  obtain ⟨h1, h2⟩ := hn
  unfold addOne at h
  split at h
  · rename_i hx
    cases h
    exact ⟨⟨by omega, h2⟩, fun e he => he, hx⟩
  · have hnx := h2 (by omega)
    simp only at h
    rw [if_neg (by omega), if_pos (by omega)] at h
    cases h
    refine ⟨⟨by simp; omega, ?_⟩, fun e he => by simp [he], by simp⟩
    simp only [List.length_append, List.length_singleton]
    intro hlt
    rw [hnx, Nat.mod_eq_of_lt hlt]

theorem add_ok {xs : List (Sample K)} {m m' : Mem (Sample K)} (h : add m xs = .ok m') :
    m'.size = m.size ∧ (∀ e ∈ m'.storage, e ∈ xs ∨ e ∈ m.storage) ∧ (xs ≠ [] ∨ m.storage ≠ [] → m'.storage ≠ []) ∧
    m.storage.length ≤ m'.storage.length := by
  induction xs generalizing m with
  | nil => cases h; exact ⟨rfl, fun e he => Or.inr he, by simp, le_rfl⟩
  | cons x xs ih =>
    simp only [add] at h
    split at h
    · cases h
    · rename_i m1 h1
      obtain ⟨a1, a2, a3, a4⟩ := addOne_ok h1
      obtain ⟨b1, b2, b3, b4⟩ := ih h
      refine ⟨b1.trans a1, ?_, fun _ => b3 (Or.inr a3), a4.trans b4⟩
      intro e he
      rcases b2 e he with he | he
      · exact Or.inl (by simp [he])
      · rcases a2 e he with he | he
        · exact Or.inl (by simp [he])
        · exact Or.inr he

theorem add_keep {xs : List (Sample K)} {m m' : Mem (Sample K)} {n : ℕ} (hn : NW m n) (hs : n + xs.length ≤ m.size) (h : add m xs = .ok m') :
    NW m' (n + xs.length) ∧ (∀ e ∈ m.storage, e ∈ m'.storage) ∧ ∀ e ∈ xs, e ∈ m'.storage := by
  induction xs generalizing m n with
  | nil => cases h; exact ⟨hn, fun e he => he, by simp⟩
  | cons x xs ih =>
    simp only [add] at h
    split at h
    · cases h
    · rename_i m1 h1
      simp only [List.length_cons] at hs
      obtain ⟨a1, a2, a3⟩ := addOne_keep hn (by omega) h1
      obtain ⟨b1, b2, b3⟩ := ih a1 (by rw [(addOne_ok h1).1]; omega) h
      refine ⟨b1.mono (by simp; omega), fun e he => b2 e (a2 e he), ?_⟩
      intro e he
      rcases List.mem_cons.1 he with rfl | he
      · exact b2 _ a3
      · exact b3 e he

theorem addAll_ok {bs : List (List (Sample K))} {m m' : Mem (Sample K)} (h : addAll m bs = .ok m') :
    m'.size = m.size ∧ (∀ e ∈ m'.storage, (∃ b ∈ bs, e ∈ b) ∨ e ∈ m.storage) ∧ (m.storage ≠ [] → m'.storage ≠ []) ∧
    m.storage.length ≤ m'.storage.length := by
  induction bs generalizing m with
  | nil => cases h; exact ⟨rfl, fun e he => Or.inr he, fun h => h, le_rfl⟩
  | cons b bs ih =>
    simp only [addAll] at h
    split at h
    · cases h
    · rename_i m1 h1
      obtain ⟨a1, a2, a3, a4⟩ := add_ok h1
      obtain ⟨b1, b2, b3, b4⟩ := ih h
      refine ⟨b1.trans a1, ?_, fun h0 => b3 (a3 (Or.inr h0)), a4.trans b4⟩
      intro e he
      rcases b2 e he with ⟨c, hc, he⟩ | he
      · exact Or.inl ⟨c, by simp [hc], he⟩
      · rcases a2 e he with he | he
        · exact Or.inl ⟨b, by simp, he⟩
        · exact Or.inr he

theorem addAll_keep {bs : List (List (Sample K))} {m m' : Mem (Sample K)} {n : ℕ} (hn : NW m n) (hs : n + (bs.map List.length).sum ≤ m.size)
    (h : addAll m bs = .ok m') :
    NW m' (n + (bs.map List.length).sum) ∧ (∀ e ∈ m.storage, e ∈ m'.storage) ∧ ∀ b ∈ bs, ∀ e ∈ b, e ∈ m'.storage := by
  induction bs generalizing m n with
  | nil => cases h; exact ⟨hn, fun e he => he, by simp⟩
  | cons b bs ih =>
    simp only [addAll] at h
    split at h
    · cases h
    · rename_i m1 h1
      simp only [List.map_cons, List.sum_cons] at hs
      obtain ⟨a1, a2, a3⟩ := add_keep hn (by omega) h1
      obtain ⟨b1, b2, b3⟩ := ih a1 (by rw [(add_ok h1).1]; omega) h
      refine ⟨b1.mono (by simp; omega), fun e he => b2 e (a2 e he), ?_⟩
      intro c hc e he
      rcases List.mem_cons.1 hc with rfl | hc
      · exact b2 e (a3 e he)
      · exact b3 c hc e he

theorem addOne_total {m : Mem (Sample K)} (h : m.size ≠ 0) (x : Sample K) : ∃ m', addOne m x = .ok m' := by
  unfold addOne
  split
  · exact ⟨_, rfl⟩
  · exact ⟨_, rfl⟩

theorem add_total {m : Mem (Sample K)} (h : m.size ≠ 0) (xs : List (Sample K)) : ∃ m', add m xs = .ok m' := by
  induction xs generalizing m with
  | nil => exact ⟨m, rfl⟩
  | cons x xs ih =>
    obtain ⟨m1, h1⟩ := addOne_total h x
    obtain ⟨m2, h2⟩ := ih (m := m1) (by rw [(addOne_ok h1).1]; exact h)
    exact ⟨m2, by simp only [add, h1, h2]⟩

theorem addAll_total {m : Mem (Sample K)} (h : m.size ≠ 0) (bs : List (List (Sample K))) : ∃ m', addAll m bs = .ok m' := by
  induction bs generalizing m with
  | nil => exact ⟨m, rfl⟩
  | cons b bs ih =>
    obtain ⟨m1, h1⟩ := add_total h b
    obtain ⟨m2, h2⟩ := ih (m := m1) (by rw [(add_ok h1).1]; exact h)
    exact ⟨m2, by simp only [addAll, h1, h2]⟩

theorem NW.sort {m : Mem (Sample K)} {n : ℕ} (h : NW m n) : NW (sortMem objOf m) n := by
  unfold NW sortMem at *
  simpa using h

theorem mem_sortMem {m : Mem (Sample K)} {e : Sample K} : e ∈ (sortMem objOf m).storage ↔ e ∈ m.storage := by
  simp [sortMem]

theorem greedyOne_ok {m m' : Mem (Sample K)} {e : Sample K} (h : greedyOne m = .ok (m', e)) :
    m' = sortMem objOf m ∧ e ∈ m.storage ∧ ∀ b ∈ m.storage, objOf b ≤ objOf e := by
  unfold greedyOne sampleGreedy at h
  simp only at h
  split at h
  · cases h
  · rename_i a ha
    cases h
    have : (sortDesc objOf m.storage).head? = some e := by
      simpa [sortMem, List.head?_take] using ha
    exact ⟨rfl, sortDesc_head_max objOf this⟩

theorem greedyOne_total {m : Mem (Sample K)} (h : m.storage ≠ []) : ∃ e, greedyOne m = .ok (sortMem objOf m, e) := by
  unfold greedyOne sampleGreedy
  simp only
  split
  · rename_i ha
    simp only [sortMem, List.head?_take] at ha
    have hl : (sortDesc objOf m.storage).length ≠ 0 := by simpa using h
    cases hs : sortDesc objOf m.storage with
    | nil => rw [hs] at hl; simp at hl
    | cons a l => rw [hs] at ha; simp at ha
  · rename_i a ha
    exact ⟨a, rfl⟩

theorem gather_ok {β : Type} {st : List β} {is : List ℕ} {xs : List β} (h : gather st is = .ok xs) :
    xs.length = is.length ∧ ∀ x ∈ xs, x ∈ st := by
  induction is generalizing xs with
  | nil => cases h; simp
  | cons i is ih =>
    simp only [gather] at h
    split at h
    · rename_i x xs' hx hxs
      cases h
      obtain ⟨a1, a2⟩ := ih hxs
      refine ⟨by simp [a1], ?_⟩
      intro y hy
      rcases List.mem_cons.1 hy with rfl | hy
      · exact List.mem_of_getElem? hx
      · exact a2 y hy
    · cases h
    · cases h

theorem gather_total {β : Type} {st : List β} {is : List ℕ} (h : ∀ i ∈ is, i < st.length) : ∃ xs, gather st is = .ok xs := by
  induction is with
  | nil => exact ⟨[], rfl⟩
  | cons i is ih =>
    obtain ⟨xs, hxs⟩ := ih fun j hj => h j (by simp [hj])
    have := h i (by simp)
    exact ⟨st[i] :: xs, by simp [gather, hxs, this]⟩

theorem samplePrior_ok {pw : K → K} {m m' : Mem (Sample K)} {is : List ℕ} {xs : List (Sample K)}
    (h : samplePrior objOf pw m is = .ok (m', xs)) :
    m' = sortMem objOf m ∧ xs.length = is.length ∧ ∀ x ∈ xs, x ∈ m.storage := by
  unfold samplePrior at h
  simp only at h
  split at h
  · cases h
  · split at h
    · cases h
    · rename_i ys hys
      cases h
      obtain ⟨a1, a2⟩ := gather_ok hys
      exact ⟨rfl, a1, fun x hx => mem_sortMem.1 (a2 x hx)⟩

end

end Neorl.ER

import Verif.Py
import Mathlib.Data.List.Sort

/-!
# Python's stable sort

`list.sort(key=..., reverse=True)`, `list.sort(key=...)` and `sorted` of Python are stable sorts; the model is a structural insertion
sort, which computes the same (unique) stable sorted permutation.
-/

set_option linter.unusedSectionVars false
set_option linter.unusedVariables false

namespace Neorl

section
variable {β : Type} {K : Type} [LinearOrder K]

/-- `l.sort(key=key, reverse=True)` (stable: equal keys keep their order). -/
def sortDesc (key : β → K) (l : List β) : List β := l.insertionSort (fun a b => key b ≤ key a)

/-- `l.sort(key=key)` (stable). -/
def sortAsc (key : β → K) (l : List β) : List β := l.insertionSort (fun a b => key a ≤ key b)

private instance (key : β → K) : Std.Total (fun a b => key b ≤ key a) := ⟨fun a b => le_total (key b) (key a)⟩
private instance (key : β → K) : IsTrans β (fun a b => key b ≤ key a) := ⟨fun _ _ _ h1 h2 => h2.trans h1⟩
private instance (key : β → K) : Std.Total (fun a b => key a ≤ key b) := ⟨fun a b => le_total (key a) (key b)⟩
private instance (key : β → K) : IsTrans β (fun a b => key a ≤ key b) := ⟨fun _ _ _ h1 h2 => h1.trans h2⟩

theorem sortDesc_perm (key : β → K) (l : List β) : (sortDesc key l).Perm l := List.perm_insertionSort _ _
theorem sortAsc_perm (key : β → K) (l : List β) : (sortAsc key l).Perm l := List.perm_insertionSort _ _

theorem sortDesc_sorted (key : β → K) (l : List β) : (sortDesc key l).Pairwise (fun a b => key b ≤ key a) :=
  List.pairwise_insertionSort _ _
theorem sortAsc_sorted (key : β → K) (l : List β) : (sortAsc key l).Pairwise (fun a b => key a ≤ key b) :=
  List.pairwise_insertionSort _ _

@[simp] theorem length_sortDesc (key : β → K) (l : List β) : (sortDesc key l).length = l.length := (sortDesc_perm key l).length_eq
@[simp] theorem length_sortAsc (key : β → K) (l : List β) : (sortAsc key l).length = l.length := (sortAsc_perm key l).length_eq
@[simp] theorem mem_sortDesc {key : β → K} {l : List β} {x : β} : x ∈ sortDesc key l ↔ x ∈ l := (sortDesc_perm key l).mem_iff
@[simp] theorem mem_sortAsc {key : β → K} {l : List β} {x : β} : x ∈ sortAsc key l ↔ x ∈ l := (sortAsc_perm key l).mem_iff

private theorem filter_orderedInsert (r : β → β → Prop) [DecidableRel r] (p : β → Bool) (a : β) (l : List β)
    (h : ∀ b ∈ l, p a = true → p b = true → r a b) :
    (l.orderedInsert r a).filter p = if p a then a :: l.filter p else l.filter p := by
  induction l with
  | nil => simp [List.filter_cons]
  | cons b l ih =>
    simp only [List.orderedInsert]
    split_ifs with h1 h2 h2
    · simp [List.filter_cons, h2]
    · simp [List.filter_cons, h2]
    · have hb : p b = false := by
        by_contra hcon
        exact h1 (h b (by simp) h2 (by simpa using hcon))
      rw [List.filter_cons, hb, ih (fun c hc => h c (by simp [hc]))]
      simp [h2, hb]
    · rw [List.filter_cons, ih (fun c hc => h c (by simp [hc]))]
      simp [h2, List.filter_cons]

/-- Stability: entries with equal keys keep their order. -/
theorem sortDesc_stable (key : β → K) (l : List β) (k : K) :
    (sortDesc key l).filter (fun x => decide (key x = k)) = l.filter (fun x => decide (key x = k)) := by
  induction l with
  | nil => rfl
  | cons a l ih =>
    show (List.orderedInsert (fun a b => key b ≤ key a) a (sortDesc key l)).filter _ = _
    rw [filter_orderedInsert, List.filter_cons, ih]
    intro b _ h1 h2
    simp only [decide_eq_true_eq] at h1 h2
    rw [h1, h2]

theorem sortAsc_stable (key : β → K) (l : List β) (k : K) :
    (sortAsc key l).filter (fun x => decide (key x = k)) = l.filter (fun x => decide (key x = k)) := by
  induction l with
  | nil => rfl
  | cons a l ih =>
    show (List.orderedInsert (fun a b => key a ≤ key b) a (sortAsc key l)).filter _ = _
    rw [filter_orderedInsert, List.filter_cons, ih]
    intro b _ h1 h2
    simp only [decide_eq_true_eq] at h1 h2
    rw [h1, h2]

/-- The first `k` of a descending sort are at least as large as the rest. -/
theorem sortDesc_take_drop (key : β → K) (l : List β) (k : ℕ) {a b : β} (ha : a ∈ (sortDesc key l).take k)
    (hb : b ∈ (sortDesc key l).drop k) : key b ≤ key a := by
  have h := sortDesc_sorted key l
  rw [← List.take_append_drop k (sortDesc key l), List.pairwise_append] at h
  exact h.2.2 a ha b hb

theorem sortAsc_take_drop (key : β → K) (l : List β) (k : ℕ) {a b : β} (ha : a ∈ (sortAsc key l).take k)
    (hb : b ∈ (sortAsc key l).drop k) : key a ≤ key b := by
  have h := sortAsc_sorted key l
  rw [← List.take_append_drop k (sortAsc key l), List.pairwise_append] at h
  exact h.2.2 a ha b hb

/-- The head of a descending sort is a maximum. -/
theorem sortDesc_head_max (key : β → K) {l : List β} {a : β} (h : (sortDesc key l).head? = some a) :
    a ∈ l ∧ ∀ b ∈ l, key b ≤ key a := by
  have hs := sortDesc_sorted key l
  cases hl : sortDesc key l with
  | nil => rw [hl] at h; simp at h
  | cons c t =>
    rw [hl] at h hs
    simp at h
    subst h
    refine ⟨mem_sortDesc.1 (by rw [hl]; simp), ?_⟩
    intro b hb
    have hb' : b ∈ sortDesc key l := mem_sortDesc.2 hb
    rw [hl] at hb'
    rcases List.mem_cons.1 hb' with rfl | hb'
    · exact le_rfl
    · exact (List.pairwise_cons.1 hs).1 b hb'

theorem sortAsc_head_min (key : β → K) {l : List β} {a : β} (h : (sortAsc key l).head? = some a) :
    a ∈ l ∧ ∀ b ∈ l, key a ≤ key b := by
  have hs := sortAsc_sorted key l
  cases hl : sortAsc key l with
  | nil => rw [hl] at h; simp at h
  | cons c t =>
    rw [hl] at h hs
    simp at h
    subst h
    refine ⟨mem_sortAsc.1 (by rw [hl]; simp), ?_⟩
    intro b hb
    have hb' : b ∈ sortAsc key l := mem_sortAsc.2 hb
    rw [hl] at hb'
    rcases List.mem_cons.1 hb' with rfl | hb'
    · exact le_rfl
    · exact (List.pairwise_cons.1 hs).1 b hb'

/-- In a sorted list with at least `N` entries of key at most `v`, the first `N` entries have key at most `v`. -/
theorem sorted_take_small {key : β → K} {l : List β} (hs : l.Pairwise (fun a b => key a ≤ key b)) {N : ℕ} {v : K}
    (hc : N ≤ l.countP (fun p => decide (key p ≤ v))) : ∀ w ∈ l.take N, key w ≤ v := by
  intro w hw
  obtain ⟨k, hk⟩ := List.mem_iff_getElem?.1 hw
  rw [List.getElem?_take] at hk
  split_ifs at hk with hkN
  by_contra hcon
  have hkl : k < l.length := (List.getElem?_eq_some_iff.1 hk).1
  have h0 : (l.drop k).countP (fun p => decide (key p ≤ v)) = 0 := by
    rw [List.countP_eq_zero]
    intro a ha
    simp only [decide_eq_true_eq, not_le]
    have hwa : key w ≤ key a := by
      obtain ⟨j, hj⟩ := List.mem_iff_getElem?.1 ha
      rw [List.getElem?_drop] at hj
      have hjl := (List.getElem?_eq_some_iff.1 hj)
      have hkk := (List.getElem?_eq_some_iff.1 hk)
      obtain ⟨hjl, ej⟩ := hjl
      obtain ⟨hkl', ek⟩ := hkk
      rcases Nat.eq_zero_or_pos j with hj0 | hj0
      · subst hj0; simp at ej; rw [← ej, ← ek]
      · rw [← ej, ← ek]
        exact List.pairwise_iff_getElem.1 hs k (k + j) hkl' hjl (by omega)
    exact lt_of_lt_of_le (not_le.1 hcon) hwa
  have h1 : l.countP (fun p => decide (key p ≤ v)) = (l.take k).countP (fun p => decide (key p ≤ v)) := by
    conv_lhs => rw [← List.take_append_drop k l, List.countP_append, h0]
    simp
  have h2 : (l.take k).countP (fun p => decide (key p ≤ v)) ≤ k := List.countP_le_length.trans (by simp)
  omega

end
end Neorl

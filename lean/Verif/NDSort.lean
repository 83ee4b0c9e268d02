import Verif.Py
import Mathlib.Data.List.Basic
import Mathlib.Order.Basic
import Mathlib.Order.Lattice
import Mathlib.Tactic.Ring
import Mathlib.Tactic.Linarith
import Mathlib.Data.List.Nodup
import Mathlib.Data.List.Range
import Mathlib.Data.List.Perm.Basic
import Mathlib.Data.List.Perm.Subperm

/-!
# Pareto dominance and the standard non-dominated sort

Model of `isDominated` and `sortNondominated`, `neorl/multi/tools.py` lines 35-115.  A population is the list of the fitness vectors of its
individuals (in dictionary order); individuals are the indices.  The dictionary keys are unique, so `map_fit_ind` holds one individual per key.
-/

set_option linter.unusedSectionVars false
set_option linter.unusedVariables false

namespace Neorl.ND

section
variable {K : Type} [LinearOrder K]

/-- `isDominated`, lines 44-51, from a given value of `not_equal`. -/
def isDominatedGo : Bool → List K → List K → Bool
  | ne, a :: as, b :: bs => if a > b then false else if a < b then isDominatedGo true as bs else isDominatedGo ne as bs
  | ne, _, _ => ne

/-- `isDominated(wvalues1, wvalues2)`: `w2` dominates `w1`. -/
def isDominated (w1 w2 : List K) : Bool := isDominatedGo false w1 w2

/-- The fitness vector of individual `i`. -/
def val (vals : List (List K)) (i : ℕ) : List K := vals.getD i []

/-- One pass of the inner loop, lines 84-90, on the two default dictionaries. -/
def pairStep (vals : List (List K)) (i : ℕ) (s : (ℕ → ℤ) × (ℕ → List ℕ)) (j : ℕ) : (ℕ → ℤ) × (ℕ → List ℕ) :=
  if isDominated (val vals j) (val vals i) then (Function.update s.1 j (s.1 j + 1), Function.update s.2 i (s.2 i ++ [j]))
  else if isDominated (val vals i) (val vals j) then (Function.update s.1 i (s.1 i + 1), Function.update s.2 j (s.2 j ++ [i]))
  else s

/-- Lines 83-92: `m` rows of the outer loop; the last component is `current_front`. -/
def rows (vals : List (List K)) : ℕ → ((ℕ → ℤ) × (ℕ → List ℕ)) × List ℕ
  | 0 => ((fun _ => 0, fun _ => []), [])
  | m + 1 =>
    let s := rows vals m
    let t := (List.range' (m + 1) (vals.length - 1 - m)).foldl (pairStep vals m) s.1
    (t, if t.1 m = 0 then s.2 ++ [m] else s.2)

/-- Lines 107-111 for one dominated individual. -/
def dec (s : (ℕ → ℤ) × List ℕ) (d : ℕ) : (ℕ → ℤ) × List ℕ :=
  let c := s.1 d - 1
  (Function.update s.1 d c, if c = 0 then s.2 ++ [d] else s.2)

/-- Lines 105-111: one more front. -/
def nextFront (adj : ℕ → List ℕ) (cnt : ℕ → ℤ) (cur : List ℕ) : (ℕ → ℤ) × List ℕ :=
  cur.foldl (fun s p => (adj p).foldl dec s) (cnt, [])

/-- The `while` loop, lines 103-113.  Running out of fuel is the error `recursion`; `C28_sort` shows that it does not happen. -/
def loop (adj : ℕ → List ℕ) (N : ℕ) : ℕ → (ℕ → ℤ) → List ℕ → List (List ℕ) → ℕ → Py (List (List ℕ))
  | fuel, cnt, cur, fronts, sorted =>
    if sorted < N then
      match fuel with
      | 0 => .error .recursion
      | fuel + 1 =>
        let t := nextFront adj cnt cur
        loop adj N fuel t.1 t.2 (fronts ++ [t.2]) (sorted + t.2.length)
    else .ok fronts

/-- `sortNondominated(pop, k)`, lines 53-115. -/
def sortNondominated (vals : List (List K)) (k : ℕ) : Py (List (List ℕ)) :=
  if k = 0 then .ok [] else
  let s := rows vals vals.length
  loop s.1.2 (min vals.length k) (vals.length + 1) s.1.1 s.2 [s.2] s.2.length

/-- `sortNondominated(pop, k, first_front_only=True)`. -/
def firstFront (vals : List (List K)) (k : ℕ) : List (List ℕ) :=
  if k = 0 then [] else [(rows vals vals.length).2]

/-! ### Specification -/

/-- Specification: `a` Pareto-dominates `b` (maximisation): nowhere smaller, somewhere greater. -/
def Dominates (a b : List K) : Prop := (∀ p ∈ a.zip b, p.2 ≤ p.1) ∧ ∃ p ∈ a.zip b, p.2 < p.1

/-- Individual `i` dominates individual `j`. -/
def Dom (vals : List (List K)) (i j : ℕ) : Prop := i < vals.length ∧ j < vals.length ∧ Dominates (val vals i) (val vals j)

/-- There is a chain of `r` individuals, each dominating the next, the last one dominating `i`. -/
def HasChain (vals : List (List K)) : ℕ → ℕ → Prop
  | 0, i => i < vals.length
  | r + 1, i => ∃ j, Dom vals j i ∧ HasChain vals r j

/-- The longest chain of dominating individuals above `i` has length `r`. -/
def Rank (vals : List (List K)) (i r : ℕ) : Prop := HasChain vals r i ∧ ¬ HasChain vals (r + 1) i

/-- All fitness vectors have the same length. -/
def SameLen (vals : List (List K)) : Prop := ∃ m, ∀ v ∈ vals, v.length = m

/-- Specification of the result of a non-dominated sort truncated at `k`: front `r` lists, without repetition, exactly the individuals of
rank `r`; there are enough fronts for `min k n` individuals, and one front less would not do. -/
structure FrontsSpec (vals : List (List K)) (k : ℕ) (fronts : List (List ℕ)) : Prop where
  mem : ∀ (r : ℕ) (f : List ℕ), fronts[r]? = some f → ∀ i, i ∈ f ↔ Rank vals i r
  nodup : ∀ f ∈ fronts, f.Nodup
  enough : min vals.length k ≤ fronts.flatten.length
  least : ∀ R, 1 ≤ R → R < fronts.length → (fronts.take R).flatten.length < min vals.length k

/-! ### Dominance -/

theorem isDominatedGo_iff (ne : Bool) (a b : List K) :
    isDominatedGo ne a b = true ↔ (∀ p ∈ b.zip a, p.2 ≤ p.1) ∧ (ne = true ∨ ∃ p ∈ b.zip a, p.2 < p.1) := by
  induction a generalizing ne b with
  | nil => cases b <;> simp [isDominatedGo]
  | cons x a ih =>
    cases b with
    | nil => simp [isDominatedGo]
    | cons y b =>
      simp only [isDominatedGo, List.zip_cons_cons, List.forall_mem_cons, List.exists_mem_cons_iff]
      by_cases h1 : x > y
      · rw [if_pos h1]
        simp [not_le.2 h1]
      · rw [if_neg h1]
        have h1 := not_lt.1 h1
        by_cases h2 : x < y
        · rw [if_pos h2, ih]
          simp [h1, h2]
        · rw [if_neg h2, ih]
          simp [h1, h2]

theorem isDominated_iff (a b : List K) : isDominated a b = true ↔ Dominates b a := by
  unfold isDominated Dominates
  rw [isDominatedGo_iff]
  simp

instance (a b : List K) : Decidable (Dominates a b) := decidable_of_iff _ (isDominated_iff b a)

theorem zip_getElem {a b : List K} {p : K × K} : p ∈ a.zip b ↔ ∃ i : ℕ, a[i]? = some p.1 ∧ b[i]? = some p.2 := by
  rw [List.mem_iff_getElem?]
  constructor
  · rintro ⟨i, h⟩
    exact ⟨i, List.getElem?_zip_eq_some.1 h⟩
  · rintro ⟨i, h⟩
    exact ⟨i, List.getElem?_zip_eq_some.2 h⟩

theorem Dominates.irrefl (a : List K) : ¬ Dominates a a := by
  rintro ⟨_, p, hp, hlt⟩
  obtain ⟨i, h1, h2⟩ := zip_getElem.1 hp
  rw [h1] at h2
  have := Option.some.inj h2
  rw [this] at hlt
  exact lt_irrefl _ hlt

theorem Dominates.asymm {a b : List K} (h : Dominates a b) : ¬ Dominates b a := by
  rintro ⟨h1, _⟩
  obtain ⟨p, hp, hlt⟩ := h.2
  obtain ⟨i, e1, e2⟩ := zip_getElem.1 hp
  have := h1 (p.2, p.1) (zip_getElem.2 ⟨i, e2, e1⟩)
  exact absurd hlt (not_lt.2 this)

theorem Dominates.trans {a b c : List K} (hab : a.length = b.length) (hbc : b.length = c.length) (h1 : Dominates a b) (h2 : Dominates b c) :
    Dominates a c := by
  refine ⟨?_, ?_⟩
  · intro p hp
    obtain ⟨i, e1, e2⟩ := zip_getElem.1 hp
    have hi : i < b.length := by have := (List.getElem?_eq_some_iff.1 e1).1; omega
    have e3 := List.getElem?_eq_getElem hi
    exact (h2.1 (b[i], p.2) (zip_getElem.2 ⟨i, e3, e2⟩)).trans (h1.1 (p.1, b[i]) (zip_getElem.2 ⟨i, e1, e3⟩))
  · obtain ⟨p, hp, hlt⟩ := h1.2
    obtain ⟨i, e1, e2⟩ := zip_getElem.1 hp
    have hi : i < c.length := by have := (List.getElem?_eq_some_iff.1 e2).1; omega
    have e3 := List.getElem?_eq_getElem hi
    exact ⟨(p.1, c[i]), zip_getElem.2 ⟨i, e1, e3⟩, lt_of_le_of_lt (h2.1 (p.2, c[i]) (zip_getElem.2 ⟨i, e2, e3⟩)) hlt⟩

theorem val_mem {vals : List (List K)} {i : ℕ} (h : i < vals.length) : val vals i ∈ vals := by
  unfold val
  rw [List.getD_eq_getElem?_getD, List.getElem?_eq_getElem h]
  exact List.getElem_mem h

theorem Dom.trans {vals : List (List K)} (hl : SameLen vals) {i j l : ℕ} (h1 : Dom vals i j) (h2 : Dom vals j l) : Dom vals i l := by
  obtain ⟨m, hm⟩ := hl
  refine ⟨h1.1, h2.2.1, h1.2.2.trans ?_ ?_ h2.2.2⟩
  · rw [hm _ (val_mem h1.1), hm _ (val_mem h1.2.1)]
  · rw [hm _ (val_mem h2.1), hm _ (val_mem h2.2.1)]

theorem Dom.irrefl (vals : List (List K)) (i : ℕ) : ¬ Dom vals i i := fun h => Dominates.irrefl _ h.2.2

theorem HasChain.lt {vals : List (List K)} {r i : ℕ} (h : HasChain vals r i) : i < vals.length := by
  cases r with
  | zero => exact h
  | succ r => obtain ⟨j, hj, _⟩ := h; exact hj.2.1

theorem HasChain.pred {vals : List (List K)} {r i : ℕ} (h : HasChain vals (r + 1) i) : HasChain vals r i := by
  induction r generalizing i with
  | zero => exact h.lt
  | succ r ih =>
    obtain ⟨j, hj, hc⟩ := h
    exact ⟨j, hj, ih hc⟩

theorem HasChain.mono {vals : List (List K)} {r s i : ℕ} (h : HasChain vals r i) (hs : s ≤ r) : HasChain vals s i := by
  induction r with
  | zero => have : s = 0 := by omega
            rw [this]; exact h
  | succ r ih =>
    rcases Nat.lt_or_ge s (r + 1) with h' | h'
    · exact ih h.pred (by omega)
    · have : s = r + 1 := by omega
      rw [this]; exact h

/-- A chain visits distinct individuals, so it is no longer than the population. -/
theorem HasChain.exists_list {vals : List (List K)} (hl : SameLen vals) {r i : ℕ} (h : HasChain vals r i) :
    ∃ l : List ℕ, l.length = r ∧ l.Nodup ∧ (∀ j ∈ l, Dom vals j i) := by
  induction r generalizing i with
  | zero => exact ⟨[], rfl, by simp, by simp⟩
  | succ r ih =>
    obtain ⟨j, hj, hc⟩ := h
    obtain ⟨l, h1, h2, h3⟩ := ih hc
    refine ⟨j :: l, by simp [h1], List.nodup_cons.2 ⟨fun hm => Dom.irrefl _ _ (h3 j hm), h2⟩, ?_⟩
    intro q hq
    rcases List.mem_cons.1 hq with rfl | hq
    · exact hj
    · exact (h3 q hq).trans hl hj

theorem HasChain.lt_length {vals : List (List K)} (hl : SameLen vals) {r i : ℕ} (h : HasChain vals r i) : r < vals.length := by
  obtain ⟨l, h1, h2, h3⟩ := h.exists_list hl
  have hn : (i :: l).Nodup := List.nodup_cons.2 ⟨fun hm => Dom.irrefl _ _ (h3 i hm), h2⟩
  have hsub : (i :: l) ⊆ List.range vals.length := by
    intro q hq
    rcases List.mem_cons.1 hq with rfl | hq
    · exact List.mem_range.2 h.lt
    · exact List.mem_range.2 (h3 q hq).1
  have := (List.subperm_of_subset hn hsub).length_le
  simp only [List.length_cons, List.length_range] at this
  omega

theorem rank_exists {vals : List (List K)} (hl : SameLen vals) {i : ℕ} (hi : i < vals.length) : ∃ r, Rank vals i r := by
  classical
  have hex : ∃ r, ¬ HasChain vals r i := ⟨vals.length, fun h => absurd (h.lt_length hl) (by omega)⟩
  have h1 := Nat.find_spec hex
  have h0 : Nat.find hex ≠ 0 := by
    intro e
    rw [e] at h1
    exact h1 hi
  obtain ⟨r, hr⟩ := Nat.exists_eq_succ_of_ne_zero h0
  refine ⟨r, ?_, by rw [← Nat.succ_eq_add_one, ← hr]; exact h1⟩
  by_contra hcon
  exact absurd (Nat.find_min' hex hcon) (by omega)

theorem Rank.unique {vals : List (List K)} {i r s : ℕ} (h1 : Rank vals i r) (h2 : Rank vals i s) : r = s := by
  rcases Nat.lt_trichotomy r s with h | h | h
  · exact absurd (h2.1.mono (show r + 1 ≤ s by omega)) h1.2
  · exact h
  · exact absurd (h1.1.mono (show s + 1 ≤ r by omega)) h2.2

theorem Rank.lt {vals : List (List K)} {i r : ℕ} (h : Rank vals i r) : i < vals.length := h.1.lt

theorem Rank.lt_of_dom {vals : List (List K)} {i j r s : ℕ} (hd : Dom vals i j) (hi : Rank vals i r) (hj : Rank vals j s) : r < s := by
  by_contra hcon
  exact hj.2 ⟨i, hd, hi.1.mono (by omega)⟩

theorem rank_zero_iff {vals : List (List K)} {i : ℕ} : Rank vals i 0 ↔ i < vals.length ∧ ∀ j, ¬ Dom vals j i := by
  constructor
  · intro h
    exact ⟨h.1, fun j hj => h.2 ⟨j, hj, hj.1⟩⟩
  · rintro ⟨h1, h2⟩
    exact ⟨h1, fun ⟨j, hj, _⟩ => h2 j hj⟩

/-- An individual of rank `r + 1` is one dominated by an individual of rank `r` and by none of greater rank. -/
theorem rank_succ_iff {vals : List (List K)} (hl : SameLen vals) {i r : ℕ} :
    Rank vals i (r + 1) ↔ (∃ j, Dom vals j i ∧ Rank vals j r) ∧ ∀ j s, Dom vals j i → Rank vals j s → s ≤ r := by
  constructor
  · intro h
    obtain ⟨j, hj, hc⟩ := h.1
    refine ⟨⟨j, hj, hc, fun hc' => h.2 ⟨j, hj, hc'⟩⟩, ?_⟩
    intro q s hq hs
    have := hs.lt_of_dom hq h
    omega
  · rintro ⟨⟨j, hj, hc⟩, h2⟩
    refine ⟨⟨j, hj, hc.1⟩, ?_⟩
    rintro ⟨q, hq, hqc⟩
    obtain ⟨s, hs⟩ := rank_exists hl hq.1
    have h3 := h2 q s hq hs
    exact hs.2 (hqc.mono (by omega))

/-- Ranks have no gaps. -/
theorem rank_gap {vals : List (List K)} (hl : SameLen vals) {i r s : ℕ} (h : Rank vals i r) (hs : s ≤ r) : ∃ j, Rank vals j s := by
  induction r generalizing i with
  | zero => have : s = 0 := by omega
            rw [this]; exact ⟨i, h⟩
  | succ r ih =>
    rcases Nat.lt_or_ge s (r + 1) with h' | h'
    · obtain ⟨⟨j, _, hj⟩, _⟩ := (rank_succ_iff hl).1 h
      exact ih hj (by omega)
    · have : s = r + 1 := by omega
      rw [this]; exact ⟨i, h⟩

/-! ### The first loop -/

/-- Boolean form of `Dom`. -/
def domB (vals : List (List K)) (i j : ℕ) : Bool := isDominated (val vals j) (val vals i)

theorem domB_iff {vals : List (List K)} {i j : ℕ} (hi : i < vals.length) (hj : j < vals.length) : domB vals i j = true ↔ Dom vals i j := by
  unfold domB Dom
  rw [isDominated_iff]
  simp [hi, hj]

theorem domB_irrefl (vals : List (List K)) (i : ℕ) : domB vals i i = false := by
  by_contra h
  rw [Bool.not_eq_false] at h
  exact Dominates.irrefl _ ((isDominated_iff _ _).1 h)

theorem domB_asymm {vals : List (List K)} {i j : ℕ} (h : domB vals i j = true) : domB vals j i = false := by
  by_contra h'
  rw [Bool.not_eq_false] at h'
  exact ((isDominated_iff _ _).1 h).asymm ((isDominated_iff _ _).1 h')

theorem pairStep_fold (vals : List (List K)) (i : ℕ) (js : List ℕ) (hn : js.Nodup) (hi : i ∉ js) (s : (ℕ → ℤ) × (ℕ → List ℕ)) :
    (∀ d, (js.foldl (pairStep vals i) s).1 d =
      s.1 d + (if d ∈ js ∧ domB vals i d = true then 1 else 0) + (if d = i then (js.countP (fun j => domB vals j i) : ℤ) else 0)) ∧
    (∀ p, (js.foldl (pairStep vals i) s).2 p =
      s.2 p ++ (if p = i then js.filter (fun j => domB vals i j) else if p ∈ js ∧ domB vals p i = true then [i] else [])) := by
  induction js generalizing s with
  | nil => simp
  | cons j js ih =>
    have hj : j ∉ js := (List.nodup_cons.1 hn).1
    have hij : i ≠ j := fun h => hi (by simp [h])
    obtain ⟨h1, h2⟩ := ih (List.nodup_cons.1 hn).2 (fun h => hi (by simp [h])) (pairStep vals i s j)
    simp only [List.foldl_cons]
    have hstep : pairStep vals i s j = if domB vals i j then (Function.update s.1 j (s.1 j + 1), Function.update s.2 i (s.2 i ++ [j]))
      else if domB vals j i then (Function.update s.1 i (s.1 i + 1), Function.update s.2 j (s.2 j ++ [i])) else s := rfl
    constructor
    · intro d
      rw [h1 d, hstep]
      by_cases hd1 : domB vals i j = true
      · have hd2 := domB_asymm hd1
        rw [if_pos hd1]
        dsimp only
        by_cases hdj : d = j
        · subst hdj
          simp [hj, hd1, hij.symm]
        · rw [Function.update_of_ne hdj]
          simp [hdj, hd2]
      · rw [if_neg hd1]
        by_cases hd2 : domB vals j i = true
        · rw [if_pos hd2]
          dsimp only
          by_cases hdi : d = i
          · subst hdi
            rw [Function.update_self]
            simp [hi, hd2]
            have hi' : ¬ (d ∈ js) := fun h => hi (by simp [h])
            simp [hi']
            ring
          · rw [Function.update_of_ne hdi]
            by_cases hdj : d = j
            · subst hdj; simp [hj, hd1, hdi]
            · simp [hdj, hdi]
        · rw [if_neg hd2]
          by_cases hdj : d = j
          · subst hdj; simp [hj, hd1, hij.symm]
          · simp [hdj, hd2]
    · intro p
      rw [h2 p, hstep]
      by_cases hd1 : domB vals i j = true
      · have hd2 := domB_asymm hd1
        rw [if_pos hd1]
        dsimp only
        by_cases hpi : p = i
        · subst hpi
          simp [hd1]
        · rw [Function.update_of_ne hpi]
          by_cases hpj : p = j
          · subst hpj; simp [hpi, hj, hd2]
          · simp [hpi, hpj]
      · rw [if_neg hd1]
        by_cases hd2 : domB vals j i = true
        · rw [if_pos hd2]
          dsimp only
          by_cases hpj : p = j
          · subst hpj
            rw [Function.update_self]
            simp [hij.symm, hj, hd2]
          · rw [Function.update_of_ne hpj]
            by_cases hpi : p = i
            · subst hpi; simp [hd1]
            · simp [hpi, hpj]
        · rw [if_neg hd2]
          by_cases hpi : p = i
          · subst hpi; simp [hd1]
          · by_cases hpj : p = j
            · subst hpj; simp [hpi, hj, hd2]
            · simp [hpi, hpj]

theorem range_split {n m : ℕ} (h : m < n) : List.range n = List.range m ++ m :: List.range' (m + 1) (n - 1 - m) := by
  rw [List.range_eq_range', List.range_eq_range']
  conv_lhs => rw [show n = m + ((n - 1 - m) + 1) by omega]
  rw [← List.range'_append_1, Nat.zero_add, List.range'_succ]

theorem rows_spec (vals : List (List K)) (m : ℕ) (hm : m ≤ vals.length) :
    (∀ d < vals.length, (rows vals m).1.1 d = if d < m then ((List.range vals.length).countP (fun p => domB vals p d) : ℤ)
      else ((List.range m).countP (fun p => domB vals p d) : ℤ)) ∧
    (∀ p < vals.length, (rows vals m).1.2 p = if p < m then (List.range vals.length).filter (fun d => domB vals p d)
      else (List.range m).filter (fun d => domB vals p d)) ∧
    (rows vals m).2 = (List.range m).filter (fun d => decide ((List.range vals.length).countP (fun p => domB vals p d) = 0)) := by
  induction m with
  | zero => simp [rows]
  | succ m ih =>
    obtain ⟨h1, h2, h3⟩ := ih (by omega)
    have hmn : m < vals.length := by omega
    obtain ⟨f1, f2⟩ := pairStep_fold vals m (List.range' (m + 1) (vals.length - 1 - m)) List.nodup_range'
      (by rw [List.mem_range'_1]; omega) (rows vals m).1
    have hcnt : ∀ d < vals.length, (rows vals (m + 1)).1.1 d = if d < m + 1 then ((List.range vals.length).countP (fun p => domB vals p d) : ℤ)
      else ((List.range (m + 1)).countP (fun p => domB vals p d) : ℤ) := by
      intro d hd
      simp only [rows]
      rw [f1 d, h1 d hd]
      rcases Nat.lt_trichotomy d m with h | h | h
      · have hnm : ¬ (d ∈ List.range' (m + 1) (vals.length - 1 - m)) := by rw [List.mem_range'_1]; omega
        simp [h, show d < m + 1 by omega, hnm, show d ≠ m by omega]
      · subst h
        have hnm : ¬ (d ∈ List.range' (d + 1) (vals.length - 1 - d)) := by rw [List.mem_range'_1]; omega
        rw [if_neg (lt_irrefl _), if_neg (by simp [hnm]), if_pos rfl, if_pos (Nat.lt_succ_self d), range_split hmn, List.countP_append,
          List.countP_cons, domB_irrefl]
        push_cast
        ring
      · have hmem : d ∈ List.range' (m + 1) (vals.length - 1 - m) := by rw [List.mem_range'_1]; omega
        rw [if_neg (show ¬ d < m by omega), if_neg (show ¬ d = m by omega), if_neg (show ¬ d < m + 1 by omega), List.range_succ, List.countP_append, List.countP_cons, List.countP_nil]
        by_cases hdom : domB vals m d = true
        · simp [hmem, hdom]
        · simp [hdom]
    refine ⟨hcnt, ?_, ?_⟩
    · intro p hp
      simp only [rows]
      rw [f2 p, h2 p hp]
      rcases Nat.lt_trichotomy p m with h | h | h
      · have hnm : ¬ (p ∈ List.range' (m + 1) (vals.length - 1 - m)) := by rw [List.mem_range'_1]; omega
        simp [h, show p < m + 1 by omega, hnm, show p ≠ m by omega]
      · subst h
        rw [if_neg (lt_irrefl _), if_pos rfl, if_pos (Nat.lt_succ_self p), range_split hmn, List.filter_append, List.filter_cons, domB_irrefl]
        simp
      · have hmem : p ∈ List.range' (m + 1) (vals.length - 1 - m) := by rw [List.mem_range'_1]; omega
        rw [if_neg (show ¬ p < m by omega), if_neg (show ¬ p = m by omega), if_neg (show ¬ p < m + 1 by omega), List.range_succ, List.filter_append, List.filter_cons, List.filter_nil]
        by_cases hdom : domB vals p m = true
        · simp [hmem, hdom]
        · simp [hdom]
    · have hm' := hcnt m hmn
      rw [if_pos (Nat.lt_succ_self m)] at hm'
      have e : (rows vals (m + 1)).2 = if (rows vals (m + 1)).1.1 m = 0 then (rows vals m).2 ++ [m] else (rows vals m).2 := rfl
      rw [e, hm', h3, List.range_succ, List.filter_append, List.filter_cons, List.filter_nil]
      by_cases hz : (List.range vals.length).countP (fun p => domB vals p m) = 0
      · rw [hz]; simp
      · rw [if_neg (by exact_mod_cast hz)]; simp [hz]

/-! ### The second loop -/

theorem dec_fold (E : List ℕ) (s : (ℕ → ℤ) × List ℕ) (hs : s.2.Nodup) (hle : ∀ d ∈ E, (E.count d : ℤ) ≤ s.1 d) (hz : ∀ d ∈ s.2, s.1 d = 0) :
    (∀ d, (E.foldl dec s).1 d = s.1 d - E.count d) ∧ (E.foldl dec s).2.Nodup ∧
    (∀ d, d ∈ (E.foldl dec s).2 ↔ d ∈ s.2 ∨ (d ∈ E ∧ s.1 d = E.count d)) := by
  induction E generalizing s with
  | nil => simp [hs]
  | cons e E ih =>
    simp only [List.foldl_cons]
    have hdec1 : ∀ d, (dec s e).1 d = if d = e then s.1 e - 1 else s.1 d := by
      intro d
      simp only [dec]
      by_cases h : d = e
      · subst h; simp
      · simp [h]
    have he : ((e :: E).count e : ℤ) ≤ s.1 e := hle e (by simp)
    have hce : (e :: E).count e = E.count e + 1 := by simp
    have hes : e ∉ s.2 := by
      intro h
      have := hz e h
      rw [this, hce] at he
      push_cast at he
      have : (0 : ℤ) ≤ E.count e := by positivity
      omega
    have hs' : (dec s e).2.Nodup := by
      simp only [dec]
      split
      · exact List.nodup_append.2 ⟨hs, by simp, by intro a ha b hb; simp at hb; subst hb; intro h; subst h; exact hes ha⟩
      · exact hs
    have hle' : ∀ d ∈ E, (E.count d : ℤ) ≤ (dec s e).1 d := by
      intro d hd
      rw [hdec1 d]
      have h1 := hle d (by simp [hd])
      by_cases h : d = e
      · subst h; rw [if_pos rfl]; rw [hce] at h1; push_cast at h1; linarith
      · rw [if_neg h]; rw [List.count_cons_of_ne (Ne.symm h)] at h1; exact h1
    have hz' : ∀ d ∈ (dec s e).2, (dec s e).1 d = 0 := by
      intro d hd
      rw [hdec1 d]
      simp only [dec] at hd
      by_cases hc : s.1 e - 1 = 0
      · rw [if_pos hc] at hd
        rcases List.mem_append.1 hd with hd | hd
        · rw [if_neg (fun (h : d = e) => hes (h ▸ hd))]; exact hz d hd
        · simp only [List.mem_singleton] at hd
          rw [if_pos hd, hc]
      · rw [if_neg hc] at hd
        rw [if_neg (fun (h : d = e) => hes (h ▸ hd))]; exact hz d hd
    obtain ⟨i1, i2, i3⟩ := ih (dec s e) hs' hle' hz'
    refine ⟨?_, i2, ?_⟩
    · intro d
      rw [i1 d, hdec1 d]
      by_cases h : d = e
      · subst h; rw [if_pos rfl, hce]; push_cast; ring
      · rw [if_neg h, List.count_cons_of_ne (Ne.symm h)]
    · intro d
      rw [i3 d, hdec1 d]
      have hmem : d ∈ (dec s e).2 ↔ d ∈ s.2 ∨ (d = e ∧ s.1 e = 1) := by
        simp only [dec]
        by_cases hc : s.1 e - 1 = 0
        · rw [if_pos hc, List.mem_append, List.mem_singleton]
          have : s.1 e = 1 := by linarith
          simp [this]
        · rw [if_neg hc]
          have : ¬ s.1 e = 1 := fun h => hc (by linarith)
          simp [this]
      rw [hmem]
      by_cases h : d = e
      · subst h
        rw [if_pos rfl, hce]
        push_cast
        constructor
        · rintro ((h | ⟨_, h⟩) | ⟨hm, h⟩)
          · exact Or.inl h
          · right
            refine ⟨by simp, ?_⟩
            have h0 : (E.count d : ℤ) = 0 := by
              rw [h, hce] at he
              push_cast at he
              have : (0 : ℤ) ≤ E.count d := by positivity
              linarith
            rw [h, h0]; norm_num
          · right; exact ⟨by simp, by linarith⟩
        · rintro (h | ⟨_, h⟩)
          · exact Or.inl (Or.inl h)
          · by_cases hm : d ∈ E
            · right; exact ⟨hm, by linarith⟩
            · left; right
              refine ⟨rfl, ?_⟩
              rw [h, List.count_eq_zero_of_not_mem hm]
              norm_num
      · rw [if_neg h, List.count_cons_of_ne (Ne.symm h)]
        simp [h]

theorem foldl_flatMap' {α β γ : Type} (f : γ → β → γ) (g : α → List β) (l : List α) (s : γ) :
    l.foldl (fun s a => (g a).foldl f s) s = (l.flatMap g).foldl f s := by
  induction l generalizing s with
  | nil => rfl
  | cons a l ih => simp only [List.foldl_cons, List.flatMap_cons, List.foldl_append, ih]

theorem countP_add {α : Type} (l : List α) (p q t : α → Bool) (h : ∀ a ∈ l, (p a).toNat = (q a).toNat + (t a).toNat) :
    l.countP p = l.countP q + l.countP t := by
  induction l with
  | nil => rfl
  | cons a l ih =>
    have h1 := h a (by simp)
    have h2 := ih (fun b hb => h b (by simp [hb]))
    rw [List.countP_cons, List.countP_cons, List.countP_cons, h2]
    cases hp : p a <;> cases hq : q a <;> cases ht : t a <;> simp [hp, hq, ht] at h1 ⊢ <;> omega

/-- The next front, and the counts of the dominators not yet placed. -/
theorem nextFront_spec {vals : List (List K)} (hl : SameLen vals) (adj : ℕ → List ℕ) (cnt : ℕ → ℤ) (cur : List ℕ) (r : ℕ)
    (hadj : ∀ p < vals.length, adj p = (List.range vals.length).filter (fun d => domB vals p d))
    (hcnt : ∀ d < vals.length, ∀ P : ℕ → Bool, (∀ p, P p = true ↔ ∃ s, r ≤ s ∧ Rank vals p s) →
      cnt d = ((List.range vals.length).countP (fun p => domB vals p d && P p) : ℤ))
    (hcur : ∀ i, i ∈ cur ↔ Rank vals i r) (hn : cur.Nodup) :
    (∀ d < vals.length, ∀ P : ℕ → Bool, (∀ p, P p = true ↔ ∃ s, r + 1 ≤ s ∧ Rank vals p s) →
      (nextFront adj cnt cur).1 d = ((List.range vals.length).countP (fun p => domB vals p d && P p) : ℤ)) ∧
    (∀ i, i ∈ (nextFront adj cnt cur).2 ↔ Rank vals i (r + 1)) ∧ (nextFront adj cnt cur).2.Nodup := by
  classical
  have hcl : ∀ p ∈ cur, p < vals.length := fun p hp => ((hcur p).1 hp).lt
  have hfold : nextFront adj cnt cur = (cur.flatMap adj).foldl dec (cnt, []) := foldl_flatMap' _ _ _ _
  -- every individual of the current front which dominates `d` contributes one event
  have hcount : ∀ d < vals.length, (cur.flatMap adj).count d = cur.countP (fun p => domB vals p d) := by
    intro d hd
    have key : ∀ l : List ℕ, (∀ p ∈ l, p < vals.length) → (l.flatMap adj).count d = l.countP (fun p => domB vals p d) := by
      intro l
      induction l with
      | nil => intro _; rfl
      | cons p l ih =>
        intro hl'
        rw [List.flatMap_cons, List.count_append, List.countP_cons, ih (fun q hq => hl' q (by simp [hq])), hadj p (hl' p (by simp)), Nat.add_comm]
        congr 1
        by_cases h : domB vals p d = true
        · rw [if_pos h, List.count_filter h]
          exact List.count_eq_one_of_mem List.nodup_range (List.mem_range.2 hd)
        · rw [if_neg h]
          exact List.count_eq_zero_of_not_mem (by simp [h])
    exact key cur hcl
  have hmemE : ∀ d, d ∈ cur.flatMap adj ↔ d < vals.length ∧ ∃ p ∈ cur, domB vals p d = true := by
    intro d
    rw [List.mem_flatMap]
    constructor
    · rintro ⟨p, hp, hd⟩
      rw [hadj p (hcl p hp)] at hd
      simp only [List.mem_filter, List.mem_range] at hd
      exact ⟨hd.1, p, hp, hd.2⟩
    · rintro ⟨hd, p, hp, h⟩
      refine ⟨p, hp, ?_⟩
      rw [hadj p (hcl p hp)]
      simp [hd, h]
  have hperm : cur.Perm ((List.range vals.length).filter (fun p => decide (Rank vals p r))) := by
    rw [List.perm_ext_iff_of_nodup hn (List.nodup_range.filter _)]
    intro p
    rw [hcur p]
    simp only [List.mem_filter, List.mem_range, decide_eq_true_eq]
    exact ⟨fun h => ⟨h.lt, h⟩, fun h => h.2⟩
  -- splitting the count
  have hsplit : ∀ d < vals.length, ∀ P P' : ℕ → Bool, (∀ p, P p = true ↔ ∃ s, r ≤ s ∧ Rank vals p s) →
      (∀ p, P' p = true ↔ ∃ s, r + 1 ≤ s ∧ Rank vals p s) →
      (List.range vals.length).countP (fun p => domB vals p d && P p) =
        (List.range vals.length).countP (fun p => domB vals p d && P' p) + cur.countP (fun p => domB vals p d) := by
    intro d hd P P' hP hP'
    rw [hperm.countP_eq, List.countP_filter]
    apply countP_add
    intro p _
    by_cases h : domB vals p d = true
    · by_cases h1 : Rank vals p r
      · have e1 : P p = true := (hP p).2 ⟨r, le_refl _, h1⟩
        have e2 : P' p = false := by
          rw [← Bool.not_eq_true]
          intro e
          obtain ⟨s, hs, hr⟩ := (hP' p).1 e
          have := hr.unique h1
          omega
        simp [h, h1, e1, e2]
      · have e : P p = P' p := by
          rw [Bool.eq_iff_iff, hP, hP']
          constructor
          · rintro ⟨s, hs, hr⟩
            refine ⟨s, ?_, hr⟩
            rcases Nat.lt_or_ge r s with h' | h'
            · omega
            · have : s = r := by omega
              exact absurd (this ▸ hr) h1
          · rintro ⟨s, hs, hr⟩
            exact ⟨s, by omega, hr⟩
        simp [h, h1, e]
    · simp [h]
  let P : ℕ → Bool := fun p => decide (∃ s, r ≤ s ∧ Rank vals p s)
  let P' : ℕ → Bool := fun p => decide (∃ s, r + 1 ≤ s ∧ Rank vals p s)
  have hP : ∀ p, P p = true ↔ ∃ s, r ≤ s ∧ Rank vals p s := fun p => decide_eq_true_iff
  have hP' : ∀ p, P' p = true ↔ ∃ s, r + 1 ≤ s ∧ Rank vals p s := fun p => decide_eq_true_iff
  have hle : ∀ d ∈ cur.flatMap adj, ((cur.flatMap adj).count d : ℤ) ≤ cnt d := by
    intro d hd
    have hd' := ((hmemE d).1 hd).1
    rw [hcount d hd', hcnt d hd' P hP, hsplit d hd' P P' hP hP']
    push_cast
    have : (0 : ℤ) ≤ ((List.range vals.length).countP (fun p => domB vals p d && P' p) : ℤ) := by positivity
    linarith
  obtain ⟨f1, f2, f3⟩ := dec_fold (cur.flatMap adj) (cnt, []) (by simp) hle (by simp)
  dsimp only at f1 f3
  rw [hfold]
  refine ⟨?_, ?_, f2⟩
  · intro d hd Q hQ
    rw [f1 d, hcount d hd, hcnt d hd P hP, hsplit d hd P Q hP hQ]
    push_cast
    ring
  · intro i
    rw [f3 i, rank_succ_iff hl]
    simp only [List.not_mem_nil, false_or]
    constructor
    · rintro ⟨h1, h2⟩
      obtain ⟨hi, p, hp, hd⟩ := (hmemE i).1 h1
      refine ⟨⟨p, (domB_iff (hcl p hp) hi).1 hd, (hcur p).1 hp⟩, ?_⟩
      intro j s hj hs
      by_contra hcon
      rw [hcount i hi, hcnt i hi P hP, hsplit i hi P P' hP hP'] at h2
      push_cast at h2
      have h0 : (List.range vals.length).countP (fun p => domB vals p i && P' p) = 0 := by omega
      rw [List.countP_eq_zero] at h0
      apply h0 j (List.mem_range.2 hj.1)
      rw [(domB_iff hj.1 hi).2 hj, (hP' j).2 ⟨s, by omega, hs⟩]
      rfl
    · rintro ⟨⟨j, hj, hr⟩, h2⟩
      have hi := hj.2.1
      refine ⟨(hmemE i).2 ⟨hi, j, (hcur j).2 hr, (domB_iff hj.1 hi).2 hj⟩, ?_⟩
      rw [hcount i hi, hcnt i hi P hP, hsplit i hi P P' hP hP']
      have h0 : (List.range vals.length).countP (fun p => domB vals p i && P' p) = 0 := by
        rw [List.countP_eq_zero]
        intro p hp hcon
        rw [Bool.and_eq_true] at hcon
        obtain ⟨s, hs, hr'⟩ := (hP' p).1 hcon.2
        have := h2 p s ((domB_iff (List.mem_range.1 hp) hi).1 hcon.1) hr'
        omega
      rw [h0]
      push_cast
      ring

/-- Invariant of the `while` loop: `fronts` are the first `r + 1` fronts, `cur` is the last of them. -/
structure LoopInv (vals : List (List K)) (N : ℕ) (cnt : ℕ → ℤ) (cur : List ℕ) (fronts : List (List ℕ)) (r : ℕ) : Prop where
  cnt : ∀ d < vals.length, ∀ P : ℕ → Bool, (∀ p, P p = true ↔ ∃ s, r ≤ s ∧ Rank vals p s) →
      cnt d = ((List.range vals.length).countP (fun p => domB vals p d && P p) : ℤ)
  cur : fronts[r]? = some cur
  len : fronts.length = r + 1
  mem : ∀ (r : ℕ) (f : List ℕ), fronts[r]? = some f → ∀ i, i ∈ f ↔ Rank vals i r
  nodup : ∀ f ∈ fronts, f.Nodup
  least : ∀ R, 1 ≤ R → R < fronts.length → (fronts.take R).flatten.length < N

theorem fronts_flatten_nodup {vals : List (List K)} {fronts : List (List ℕ)}
    (hm : ∀ (r : ℕ) (f : List ℕ), fronts[r]? = some f → ∀ i, i ∈ f ↔ Rank vals i r) (hn : ∀ f ∈ fronts, f.Nodup) : fronts.flatten.Nodup := by
  rw [List.nodup_flatten]
  refine ⟨hn, ?_⟩
  rw [List.pairwise_iff_getElem]
  intro a b ha hb hab i hia hib
  have h1 := (hm a _ (List.getElem?_eq_getElem ha) i).1 hia
  have h2 := (hm b _ (List.getElem?_eq_getElem hb) i).1 hib
  have := h1.unique h2
  omega

theorem mem_flatten_iff {vals : List (List K)} {fronts : List (List ℕ)}
    (hm : ∀ (r : ℕ) (f : List ℕ), fronts[r]? = some f → ∀ i, i ∈ f ↔ Rank vals i r) (i : ℕ) :
    i ∈ fronts.flatten ↔ ∃ r < fronts.length, Rank vals i r := by
  rw [List.mem_flatten]
  constructor
  · rintro ⟨f, hf, hi⟩
    obtain ⟨r, hr, rfl⟩ := List.getElem_of_mem hf
    exact ⟨r, hr, (hm r _ (List.getElem?_eq_getElem hr) i).1 hi⟩
  · rintro ⟨r, hr, h⟩
    exact ⟨fronts[r], List.getElem_mem hr, (hm r _ (List.getElem?_eq_getElem hr) i).2 h⟩

theorem loop_spec {vals : List (List K)} (hl : SameLen vals) (adj : ℕ → List ℕ) (k : ℕ)
    (hadj : ∀ p < vals.length, adj p = (List.range vals.length).filter (fun d => domB vals p d)) (fuel : ℕ) :
    ∀ (cnt : ℕ → ℤ) (cur : List ℕ) (fronts : List (List ℕ)) (r : ℕ), LoopInv vals (min vals.length k) cnt cur fronts r →
      vals.length ≤ fuel + fronts.flatten.length →
      ∃ out, loop adj (min vals.length k) fuel cnt cur fronts fronts.flatten.length = .ok out ∧ FrontsSpec vals k out := by
  induction fuel with
  | zero =>
    intro cnt cur fronts r inv hf
    refine ⟨fronts, ?_, inv.mem, inv.nodup, by omega, inv.least⟩
    unfold loop
    rw [if_neg (by omega)]
  | succ fuel ih =>
    intro cnt cur fronts r inv hf
    unfold loop
    by_cases hN : fronts.flatten.length < min vals.length k
    · rw [if_pos hN]
      dsimp only
      have hcm : ∀ i, i ∈ cur ↔ Rank vals i r := inv.mem r cur inv.cur
      have hcn : cur.Nodup := inv.nodup cur (List.mem_of_getElem? inv.cur)
      obtain ⟨g1, g2, g3⟩ := nextFront_spec hl adj cnt cur r hadj inv.cnt hcm hcn
      have hflat : (fronts ++ [(nextFront adj cnt cur).2]).flatten.length = fronts.flatten.length + (nextFront adj cnt cur).2.length := by simp
      rw [← hflat]
      -- the new front is not empty
      have hne : 1 ≤ (nextFront adj cnt cur).2.length := by
        have hex : ∃ i < vals.length, i ∉ fronts.flatten := by
          by_contra hcon
          push Not at hcon
          have := (List.subperm_of_subset List.nodup_range (fun i hi => hcon i (List.mem_range.1 hi))).length_le
          rw [List.length_range] at this
          omega
        obtain ⟨i, hi, hnot⟩ := hex
        obtain ⟨s, hs⟩ := rank_exists hl hi
        have hsr : r + 1 ≤ s := by
          by_contra hcon
          exact hnot ((mem_flatten_iff inv.mem i).2 ⟨s, by rw [inv.len]; omega, hs⟩)
        obtain ⟨j, hj⟩ := rank_gap hl hs hsr
        exact List.length_pos_of_mem ((g2 j).2 hj)
      refine ih _ _ _ (r + 1) ⟨g1, ?_, by simp [inv.len], ?_, ?_, ?_⟩ (by rw [hflat]; omega)
      · rw [List.getElem?_append_right (by rw [inv.len]), inv.len]; simp
      · intro q f hq
        rcases Nat.lt_trichotomy q fronts.length with h | h | h
        · rw [List.getElem?_append_left h] at hq
          exact inv.mem q f hq
        · rw [List.getElem?_append_right (by omega), h] at hq
          simp at hq
          subst hq
          rw [h, inv.len]
          exact g2
        · rw [List.getElem?_eq_none (by simp; omega)] at hq
          cases hq
      · intro f hf'
        rcases List.mem_append.1 hf' with h | h
        · exact inv.nodup f h
        · simp at h; subst h; exact g3
      · intro R hR1 hR
        rw [List.length_append, List.length_singleton] at hR
        rw [List.take_append_of_le_length (by omega)]
        rcases Nat.lt_or_ge R fronts.length with h | h
        · exact inv.least R hR1 h
        · rw [List.take_of_length_le (by omega)]; exact hN
    · rw [if_neg hN]
      exact ⟨fronts, rfl, inv.mem, inv.nodup, by omega, inv.least⟩

theorem rows_done (vals : List (List K)) :
    (∀ d < vals.length, (rows vals vals.length).1.1 d = ((List.range vals.length).countP (fun p => domB vals p d) : ℤ)) ∧
    (∀ p < vals.length, (rows vals vals.length).1.2 p = (List.range vals.length).filter (fun d => domB vals p d)) ∧
    (∀ i, i ∈ (rows vals vals.length).2 ↔ Rank vals i 0) ∧ (rows vals vals.length).2.Nodup := by
  obtain ⟨h1, h2, h3⟩ := rows_spec vals vals.length (le_refl _)
  refine ⟨fun d hd => by rw [h1 d hd, if_pos hd], fun p hp => by rw [h2 p hp, if_pos hp], ?_, ?_⟩
  · intro i
    rw [h3, rank_zero_iff]
    simp only [List.mem_filter, List.mem_range, decide_eq_true_eq, List.countP_eq_zero]
    constructor
    · rintro ⟨hi, h⟩
      exact ⟨hi, fun j hj => h j hj.1 ((domB_iff hj.1 hi).2 hj)⟩
    · rintro ⟨hi, h⟩
      exact ⟨hi, fun j hj hd => h j ((domB_iff hj hi).1 hd)⟩
  · rw [h3]
    exact List.nodup_range.filter _

theorem sortNondominated_spec {vals : List (List K)} (hl : SameLen vals) {k : ℕ} (hk : k ≠ 0) :
    ∃ out, sortNondominated vals k = .ok out ∧ FrontsSpec vals k out := by
  obtain ⟨h1, h2, h3, h4⟩ := rows_done vals
  unfold sortNondominated
  rw [if_neg hk]
  have := loop_spec hl (rows vals vals.length).1.2 k h2 (vals.length + 1) (rows vals vals.length).1.1 (rows vals vals.length).2
    [(rows vals vals.length).2] 0 ⟨?_, by simp, by simp, ?_, ?_, ?_⟩ (by omega)
  · simpa using this
  · intro d hd P hP
    rw [h1 d hd]
    congr 1
    apply List.countP_congr
    intro p hp
    have : P p = true := (hP p).2 (by
      obtain ⟨s, hs⟩ := rank_exists hl (List.mem_range.1 hp)
      exact ⟨s, Nat.zero_le _, hs⟩)
    simp [this]
  · intro r f hf
    cases r with
    | zero => simp at hf; subst hf; exact h3
    | succ r => simp at hf
  · intro f hf
    simp at hf; subst hf; exact h4
  · intro R hR1 hR2
    simp at hR2
    omega

/-- Two results meeting the specification agree front by front. -/
theorem FrontsSpec.agree {vals : List (List K)} {k : ℕ} {f g : List (List ℕ)} (hf : FrontsSpec vals k f) (hg : FrontsSpec vals k g)
    (hf0 : f ≠ []) (hg0 : g ≠ []) : f.length = g.length ∧ List.Forall₂ List.Perm f g := by
  have hp : ∀ (r : ℕ) (a b : List ℕ), f[r]? = some a → g[r]? = some b → a.Perm b := by
    intro r a b ha hb
    rw [List.perm_ext_iff_of_nodup (hf.nodup a (List.mem_of_getElem? ha)) (hg.nodup b (List.mem_of_getElem? hb))]
    intro i
    rw [hf.mem r a ha, hg.mem r b hb]
  have hlen : ∀ (u v : List (List ℕ)), (∀ (r : ℕ) (a b : List ℕ), u[r]? = some a → v[r]? = some b → a.Perm b) → FrontsSpec vals k u →
      FrontsSpec vals k v → u ≠ [] → u.length < v.length → False := by
    intro u v hp hu hv hu0 hlt
    have h1 := hv.least u.length (List.length_pos_iff.2 hu0) hlt
    have h2 := hu.enough
    have h3 : ∀ (u v : List (List ℕ)), (∀ (r : ℕ) (a b : List ℕ), u[r]? = some a → v[r]? = some b → a.Perm b) → u.length ≤ v.length →
        u.flatten.length = (v.take u.length).flatten.length := by
      intro u
      induction u with
      | nil => intro v _ _; simp
      | cons a u ih =>
        intro v hp hle
        cases v with
        | nil => simp at hle
        | cons b v =>
          have e1 := (hp 0 a b rfl rfl).length_eq
          have e2 := ih v (fun r x y hx hy => hp (r + 1) x y hx hy) (by simpa using hle)
          simp only [List.flatten_cons, List.length_append, List.length_cons, List.take_succ_cons, e1, e2]
    have h4 := h3 u v hp (le_of_lt hlt)
    omega
  have hL : f.length = g.length := by
    rcases Nat.lt_trichotomy f.length g.length with h | h | h
    · exact (hlen f g hp hf hg hf0 h).elim
    · exact h
    · exact (hlen g f (fun r a b ha hb => (hp r b a hb ha).symm) hg hf hg0 h).elim
  refine ⟨hL, List.forall₂_iff_get.2 ⟨hL, ?_⟩⟩
  intro i h1 h2
  exact hp i _ _ (by simp) (by simp)

end
end Neorl.ND

import Verif.NDSort
import Verif.Sort
import Mathlib.Data.List.Lex
import Mathlib.Data.List.Dedup
import Mathlib.Algebra.Order.Field.Basic
import Mathlib.Algebra.Order.Ring.Rat
import Mathlib.Tactic.FieldSimp

/-!
# The divide-and-conquer non-dominated sort

Model of `sortLogNondominated` and its helpers, `neorl/multi/tools.py` lines 130-364.  The dictionary `front` is a function from fitness vectors
to front numbers.  `stairs` is not stored, it is always the list of the negated second objectives of `fstairs`; `bisect_right` (standard
library) on that ascending list is the length of the longest prefix whose entries do not exceed the argument.
-/

set_option linter.unusedSectionVars false
set_option linter.unusedVariables false

namespace Neorl.ND

section
variable {K : Type} [Field K] [LinearOrder K] [IsStrictOrderedRing K]

/-- The dictionary `front`. -/
abbrev Front (K : Type) := List K → ℕ

/-- `itemgetter(obj)`. -/
def key (obj : ℕ) (f : List K) : K := f.getD obj 0

/-- `median(seq, itemgetter(obj))`, lines 130-141. -/
def median (obj : ℕ) (l : List (List K)) : K :=
  let s := sortAsc (key obj) l
  if l.length % 2 = 1 then key obj (s.getD ((l.length - 1) / 2) [])
  else (key obj (s.getD ((l.length - 1) / 2) []) + key obj (s.getD (l.length / 2) [])) / 2

/-- `splitA`, lines 216-243. -/
def splitA (l : List (List K)) (obj : ℕ) : List (List K) × List (List K) :=
  let m := median obj l
  let bestA := l.filter (fun f => m ≤ key obj f)
  let worstA := l.filter (fun f => key obj f < m)
  let bestB := l.filter (fun f => m < key obj f)
  let worstB := l.filter (fun f => key obj f ≤ m)
  if ((bestA.length : ℤ) - worstA.length).natAbs ≤ ((bestB.length : ℤ) - worstB.length).natAbs then (bestA, worstA) else (bestB, worstB)

/-- `splitB`, lines 296-334: `(best1, best2, worst1, worst2)`. -/
def splitB (best worst : List (List K)) (obj : ℕ) : (List (List K) × List (List K)) × (List (List K) × List (List K)) :=
  let m := median obj (if best.length > worst.length then best else worst)
  let best1A := best.filter (fun f => m ≤ key obj f)
  let best2A := best.filter (fun f => key obj f < m)
  let best1B := best.filter (fun f => m < key obj f)
  let best2B := best.filter (fun f => key obj f ≤ m)
  let worst1A := worst.filter (fun f => m ≤ key obj f)
  let worst2A := worst.filter (fun f => key obj f < m)
  let worst1B := worst.filter (fun f => m < key obj f)
  let worst2B := worst.filter (fun f => key obj f ≤ m)
  if ((best1A.length : ℤ) - best2A.length + worst1A.length - worst2A.length).natAbs ≤
      ((best1B.length : ℤ) - best2B.length + worst1B.length - worst2B.length).natAbs then ((best1A, best2A), (worst1A, worst2A))
  else ((best1B, best2B), (worst1B, worst2B))

/-- `front[max(l, key=front.__getitem__)]`. -/
def maxFront (front : Front K) (l : List (List K)) : ℕ := (l.map front).foldr max 0

/-- `fstairs[:idx]` for `idx = bisect_right(stairs, -fit[1])`. -/
def before (st : List (List K)) (fit : List K) : List (List K) := st.takeWhile (fun t => -(key 1 t) ≤ -(key 1 fit))

/-- `fstairs[idx:]`. -/
def after (st : List (List K)) (fit : List K) : List (List K) := st.dropWhile (fun t => -(key 1 t) ≤ -(key 1 fit))

/-- Lines 253-255 and 362-364. -/
def bump (front : Front K) (st : List (List K)) (fit : List K) : Front K :=
  if before st fit = [] then front else Function.update front fit (max (front fit) (maxFront front (before st fit) + 1))

/-- One pass of the loop of `sweepA`, lines 251-262. -/
def sweepAStep (s : List (List K) × Front K) (fit : List K) : List (List K) × Front K :=
  let front := bump s.2 s.1 fit
  (before s.1 fit ++ fit :: (after s.1 fit).eraseP (fun t => front t = front fit), front)

/-- `sweepA`, lines 245-263 (not called on an empty list). -/
def sweepA : List (List K) → Front K → Front K
  | [], front => front
  | s :: rest, front => (rest.foldl sweepAStep ([s], front)).2

/-- Lines 347-358: a new stair. -/
def insertStair (front : Front K) (st : List (List K)) (b : List K) : List (List K) :=
  match st.find? (fun t => front t = front b) with
  | some t =>
    if key 1 t > key 1 b then st
    else
      let st' := st.eraseP (fun t => front t = front b)
      before st' b ++ b :: after st' b
  | none => before st b ++ b :: after st b

/-- The `while` loop, lines 346-359: the remaining best ones and the stairs. -/
def absorb (front : Front K) (h : List K) : List (List K) → List (List K) → List (List K) × List (List K)
  | [], st => ([], st)
  | b :: bs, st => if h.take 2 ≤ b.take 2 then absorb front h bs (insertStair front st b) else (b :: bs, st)

/-- The loop of `sweepB`, lines 345-364. -/
def sweepBLoop : List (List K) → List (List K) → List (List K) → Front K → Front K
  | [], _, _, front => front
  | h :: hs, best, st, front =>
    let a := absorb front h best st
    sweepBLoop hs a.1 a.2 (bump front a.2 h)

/-- `sweepB`, lines 336-364. -/
def sweepB (best worst : List (List K)) (front : Front K) : Front K := sweepBLoop worst best [] front

/-- Lines 278-281: the direct comparison. -/
def direct (best worst : List (List K)) (obj : ℕ) (front : Front K) : Front K :=
  worst.foldl (fun front h => best.foldl (fun front l =>
    if isDominated (h.take (obj + 1)) (l.take (obj + 1)) = true ∨ h.take (obj + 1) = l.take (obj + 1) then
      Function.update front h (max (front h) (front l + 1)) else front) front) front

/-- `sortNDHelperB`, lines 265-294.  The two comparisons of least and greatest keys are written with quantifiers (both lists are non-empty). -/
def helperB : ℕ → List (List K) → List (List K) → ℕ → Front K → Py (Front K)
  | fuel, best, worst, obj, front =>
    if worst.length = 0 ∨ best.length = 0 then .ok front
    else if best.length = 1 ∨ worst.length = 1 then .ok (direct best worst obj front)
    else if obj = 1 then .ok (sweepB best worst front)
    else match fuel with
      | 0 => .error .recursion
      | fuel + 1 =>
        if ∀ l ∈ best, ∀ h ∈ worst, key obj l ≥ key obj h then helperB fuel best worst (obj - 1) front
        else if ∃ l ∈ best, ∃ h ∈ worst, key obj l ≥ key obj h then
          match helperB fuel (splitB best worst obj).1.1 (splitB best worst obj).2.1 obj front with
          | .error e => .error e
          | .ok front1 =>
            match helperB fuel (splitB best worst obj).1.1 (splitB best worst obj).2.2 (obj - 1) front1 with
            | .error e => .error e
            | .ok front2 => helperB fuel (splitB best worst obj).1.2 (splitB best worst obj).2.2 obj front2
        else .ok front

/-- `sortNDHelperA`, lines 193-214. -/
def helperA : ℕ → List (List K) → ℕ → Front K → Py (Front K)
  | fuel, l, obj, front =>
    if l.length < 2 then .ok front
    else if l.length = 2 then
      let s1 := l.getD 0 []
      let s2 := l.getD 1 []
      if isDominated (s2.take (obj + 1)) (s1.take (obj + 1)) = true then .ok (Function.update front s2 (max (front s2) (front s1 + 1)))
      else .ok front
    else if obj = 1 then .ok (sweepA l front)
    else match fuel with
      | 0 => .error .recursion
      | fuel + 1 =>
        if ∀ f ∈ l, key obj f = key obj (l.getD 0 []) then helperA fuel l (obj - 1) front
        else
          match helperA fuel (splitA l obj).1 obj front with
          | .error e => .error e
          | .ok front1 =>
            match helperB fuel (splitA l obj).1 (splitA l obj).2 (obj - 1) front1 with
            | .error e => .error e
            | .ok front2 => helperA fuel (splitA l obj).2 obj front2

/-- The different fitness vectors in descending lexicographic order, lines 163-175. -/
def fitnesses (vals : List (List K)) : List (List K) := sortDesc id vals.dedup

/-- The individuals with a given fitness vector, `unique_fits[fit]`. -/
def group (vals : List (List K)) (fit : List K) : List ℕ := (List.range vals.length).filter (fun i => val vals i = fit)

/-- Lines 178-183: the front with index `r`. -/
def frontAt (vals : List (List K)) (front : Front K) (r : ℕ) : List ℕ :=
  ((fitnesses vals).filter (fun f => front f = r)).flatMap (group vals)

/-- Lines 187-191: the shortest prefix with at least `k` individuals. -/
def cut (k : ℕ) : ℕ → List (List ℕ) → List (List ℕ)
  | _, [] => []
  | count, f :: fs => if count + f.length ≥ k then [f] else f :: cut k (count + f.length) fs

/-- `sortLogNondominated(pop, k)`, lines 143-191. -/
def sortLog (vals : List (List K)) (k : ℕ) : Py (List (List ℕ)) :=
  if k = 0 then .ok []
  else if vals = [] then .error .indexError
  else
    let obj := (val vals 0).length - 1
    match helperA (obj + (fitnesses vals).length) (fitnesses vals) obj (fun _ => 0) with
    | .error e => .error e
    | .ok front => .ok (cut k 0 ((List.range (maxFront front (fitnesses vals) + 1)).map (frontAt vals front)))

/-! ### Weak and strict dominance on the first `m + 1` objectives -/

/-- `a` is at least as good as `b` on the objectives `0 .. m`. -/
def W (m : ℕ) (a b : List K) : Prop := ∀ i ≤ m, key i b ≤ key i a

/-- ... and different on one of them. -/
def D (m : ℕ) (a b : List K) : Prop := W m a b ∧ ∃ i ≤ m, key i b ≠ key i a

/-- What `sortNDHelperA` does to the front numbers. -/
def LevA (m : ℕ) (S : List (List K)) (g g' : Front K) : Prop :=
  (∀ s, s ∉ S → g' s = g s) ∧
  ∀ s ∈ S, g s ≤ g' s ∧ (∀ t ∈ S, D m t s → g' t < g' s) ∧ (g' s = g s ∨ ∃ t ∈ S, D m t s ∧ g' s = g' t + 1)

/-- What `sortNDHelperB` does to the front numbers. -/
def LevB (m : ℕ) (L H : List (List K)) (g g' : Front K) : Prop :=
  (∀ s, s ∉ H → g' s = g s) ∧
  ∀ h ∈ H, g h ≤ g' h ∧ (∀ l ∈ L, W m l h → g l < g' h) ∧ (g' h = g h ∨ ∃ l ∈ L, W m l h ∧ g' h = g l + 1)

theorem key_take {m i : ℕ} (h : i ≤ m) (a : List K) : key i (a.take (m + 1)) = key i a := by
  unfold key
  rw [List.getD_eq_getElem?_getD, List.getD_eq_getElem?_getD, List.getElem?_take_of_lt (by omega)]

theorem key_getElem? {a : List K} {i : ℕ} (h : i < a.length) : a[i]? = some (key i a) := by
  unfold key
  rw [List.getD_eq_getElem?_getD, List.getElem?_eq_getElem h]
  rfl

theorem dominates_key {a b : List K} {m : ℕ} (ha : a.length = m + 1) (hb : b.length = m + 1) : Dominates a b ↔ D m a b := by
  constructor
  · rintro ⟨h1, p, hp, hlt⟩
    refine ⟨?_, ?_⟩
    · intro i hi
      exact h1 (key i a, key i b) (zip_getElem.2 ⟨i, key_getElem? (by omega), key_getElem? (by omega)⟩)
    · obtain ⟨i, e1, e2⟩ := zip_getElem.1 hp
      have hi := (List.getElem?_eq_some_iff.1 e1).1
      refine ⟨i, by omega, ?_⟩
      rw [key_getElem? hi] at e1
      rw [key_getElem? (by omega)] at e2
      rw [Option.some.inj e1, Option.some.inj e2]
      exact ne_of_lt hlt
  · rintro ⟨h1, i, hi, hne⟩
    refine ⟨?_, (key i a, key i b), zip_getElem.2 ⟨i, key_getElem? (by omega), key_getElem? (by omega)⟩, lt_of_le_of_ne (h1 i hi) hne⟩
    intro p hp
    obtain ⟨j, e1, e2⟩ := zip_getElem.1 hp
    have hj := (List.getElem?_eq_some_iff.1 e1).1
    rw [key_getElem? hj] at e1
    rw [key_getElem? (by omega)] at e2
    rw [← Option.some.inj e1, ← Option.some.inj e2]
    exact h1 j (by omega)

theorem isDominated_take {a b : List K} {m : ℕ} (ha : m < a.length) (hb : m < b.length) :
    isDominated (b.take (m + 1)) (a.take (m + 1)) = true ↔ D m a b := by
  rw [isDominated_iff, dominates_key (m := m) (by rw [List.length_take]; omega) (by rw [List.length_take]; omega)]
  unfold D W
  constructor
  · rintro ⟨h1, i, hi, h2⟩
    refine ⟨fun j hj => by have := h1 j hj; rwa [key_take hj, key_take hj] at this, i, hi, by rwa [key_take hi, key_take hi] at h2⟩
  · rintro ⟨h1, i, hi, h2⟩
    exact ⟨fun j hj => by rw [key_take hj, key_take hj]; exact h1 j hj, i, hi, by rwa [key_take hi, key_take hi]⟩

theorem take_eq_iff {a b : List K} {m : ℕ} (ha : m < a.length) (hb : m < b.length) :
    b.take (m + 1) = a.take (m + 1) ↔ ∀ i ≤ m, key i b = key i a := by
  constructor
  · intro h i hi
    rw [← key_take hi b, h, key_take hi]
  · intro h
    apply List.ext_getElem?
    intro i
    rcases Nat.lt_or_ge i (m + 1) with h' | h'
    · rw [List.getElem?_take_of_lt h', List.getElem?_take_of_lt h', key_getElem? (by omega), key_getElem? (by omega), h i (by omega)]
    · rw [List.getElem?_eq_none (by rw [List.length_take]; omega), List.getElem?_eq_none (by rw [List.length_take]; omega)]

theorem direct_test {a b : List K} {m : ℕ} (ha : m < a.length) (hb : m < b.length) :
    (isDominated (b.take (m + 1)) (a.take (m + 1)) = true ∨ b.take (m + 1) = a.take (m + 1)) ↔ W m a b := by
  rw [isDominated_take ha hb, take_eq_iff ha hb]
  constructor
  · rintro (h | h)
    · exact h.1
    · exact fun i hi => le_of_eq (h i hi)
  · intro h
    by_cases hc : ∃ i ≤ m, key i b ≠ key i a
    · exact Or.inl ⟨h, hc⟩
    · push Not at hc
      exact Or.inr hc

theorem W_succ {m : ℕ} {a b : List K} : W (m + 1) a b ↔ W m a b ∧ key (m + 1) b ≤ key (m + 1) a := by
  constructor
  · intro h
    exact ⟨fun i hi => h i (by omega), h _ (le_refl _)⟩
  · rintro ⟨h1, h2⟩ i hi
    rcases Nat.lt_or_ge i (m + 1) with h | h
    · exact h1 i (by omega)
    · have : i = m + 1 := by omega
      rw [this]; exact h2

theorem cons_le_cons {a b : K} {l m : List K} : a :: l ≤ b :: m ↔ a < b ∨ (a = b ∧ l ≤ m) := by
  rw [← not_lt, ← not_lt, List.cons_lt_cons_iff]
  constructor
  · intro h
    push Not at h
    rcases lt_or_eq_of_le h.1 with h' | h'
    · exact Or.inl h'
    · exact Or.inr ⟨h', not_lt.2 (h.2 h'.symm)⟩
  · rintro (h | ⟨h1, h2⟩) (h' | h')
    · exact lt_asymm h h'
    · exact absurd h'.1 (ne_of_gt h)
    · exact absurd h1 (ne_of_gt h')
    · exact h2 h'.2

/-- Lexicographic order against weak dominance. -/
theorem lex_W {a b : List K} (hl : a.length = b.length) (h : a ≤ b) {m : ℕ} (hm : m < a.length) (hw : W m a b) : ∀ i ≤ m, key i b = key i a := by
  induction m generalizing a b with
  | zero =>
    intro i hi
    have hi0 : i = 0 := by omega
    subst hi0
    cases a with
    | nil => simp at hm
    | cons x a =>
      cases b with
      | nil => simp at hl
      | cons y b =>
        have := hw 0 (le_refl _)
        simp only [key, List.getD_cons_zero] at this ⊢
        rcases cons_le_cons.1 h with h | h
        · exact absurd h (not_lt.2 this)
        · exact h.1.symm
  | succ m ih =>
    intro i hi
    cases a with
    | nil => simp at hm
    | cons x a =>
      cases b with
      | nil => simp at hl
      | cons y b =>
        have h0 := hw 0 (Nat.zero_le _)
        simp only [key, List.getD_cons_zero] at h0
        rcases cons_le_cons.1 h with h | ⟨h1, h2⟩
        · exact absurd h (not_lt.2 h0)
        · have := ih (a := a) (b := b) (by simpa using hl) h2 (by simpa using hm) (fun j hj => by
            have := hw (j + 1) (by omega)
            simpa only [key, List.getD_cons_succ] using this)
          cases i with
          | zero => simp only [key, List.getD_cons_zero]; exact h1.symm
          | succ i =>
            have := this i (by omega)
            simpa only [key, List.getD_cons_succ] using this

theorem lex_two {a b : List K} (ha : 2 ≤ a.length) (hb : 2 ≤ b.length) :
    a.take 2 ≤ b.take 2 ↔ key 0 a < key 0 b ∨ (key 0 a = key 0 b ∧ key 1 a ≤ key 1 b) := by
  match a, b, ha, hb with
  | x :: y :: a, x' :: y' :: b, _, _ =>
    simp only [List.take_succ_cons, List.take_zero, key, List.getD_cons_zero, List.getD_cons_succ]
    rw [cons_le_cons, cons_le_cons]
    constructor
    · rintro (h | ⟨h1, h2 | h2⟩)
      · exact Or.inl h
      · exact Or.inr ⟨h1, le_of_lt h2⟩
      · exact Or.inr ⟨h1, le_of_eq h2.1⟩
    · rintro (h | ⟨h1, h2⟩)
      · exact Or.inl h
      · rcases lt_or_eq_of_le h2 with h | h
        · exact Or.inr ⟨h1, Or.inl h⟩
        · exact Or.inr ⟨h1, Or.inr ⟨h, le_refl _⟩⟩

theorem lex_take_two {a b : List K} (ha : 2 ≤ a.length) (hb : 2 ≤ b.length) (h : a ≤ b) : a.take 2 ≤ b.take 2 := by
  rw [lex_two ha hb]
  match a, b, ha, hb, h with
  | x :: y :: a, x' :: y' :: b, _, _, h =>
    simp only [key, List.getD_cons_zero, List.getD_cons_succ]
    rcases cons_le_cons.1 h with h | ⟨h1, h2⟩
    · exact Or.inl h
    · rcases cons_le_cons.1 h2 with h | ⟨h3, _⟩
      · exact Or.inr ⟨h1, le_of_lt h⟩
      · exact Or.inr ⟨h1, le_of_eq h3⟩

theorem W_one {a b : List K} : W 1 a b ↔ key 0 b ≤ key 0 a ∧ key 1 b ≤ key 1 a := by
  rw [show (1 : ℕ) = 0 + 1 from rfl, W_succ]
  unfold W
  constructor
  · rintro ⟨h1, h2⟩; exact ⟨h1 0 (le_refl _), h2⟩
  · rintro ⟨h1, h2⟩; exact ⟨fun i hi => by rw [show i = 0 by omega]; exact h1, h2⟩

theorem W_one_lex {l h : List K} (hl : 2 ≤ l.length) (hh : 2 ≤ h.length) : W 1 l h ↔ h.take 2 ≤ l.take 2 ∧ key 1 h ≤ key 1 l := by
  rw [W_one, lex_two hh hl]
  constructor
  · rintro ⟨h1, h2⟩
    refine ⟨?_, h2⟩
    rcases lt_or_eq_of_le h1 with h | h
    · exact Or.inl h
    · exact Or.inr ⟨h, h2⟩
  · rintro ⟨h1 | h1, h2⟩
    · exact ⟨le_of_lt h1, h2⟩
    · exact ⟨le_of_eq h1.1, h2⟩

/-! ### Splitting -/

theorem median_bounds (obj : ℕ) {l : List (List K)} (hne : l ≠ []) : (∃ x ∈ l, median obj l ≤ key obj x) ∧ ∃ x ∈ l, key obj x ≤ median obj l := by
  have hp := sortAsc_perm (key obj) l
  have hs := sortAsc_sorted (key obj) l
  have hpos : 0 < l.length := List.length_pos_iff.2 hne
  have hget : ∀ i < l.length, ∃ x, (sortAsc (key obj) l).getD i [] = x ∧ (sortAsc (key obj) l)[i]? = some x ∧ x ∈ l := by
    intro i hi
    have hi' : i < (sortAsc (key obj) l).length := by rw [hp.length_eq]; exact hi
    refine ⟨(sortAsc (key obj) l)[i], ?_, List.getElem?_eq_getElem hi', hp.mem_iff.1 (List.getElem_mem hi')⟩
    rw [List.getD_eq_getElem?_getD, List.getElem?_eq_getElem hi']
    rfl
  obtain ⟨x, e1, e2, hx⟩ := hget ((l.length - 1) / 2) (by omega)
  obtain ⟨y, e3, e4, hy⟩ := hget (l.length / 2) (by omega)
  unfold median
  simp only
  rw [e1, e3]
  by_cases hodd : l.length % 2 = 1
  · rw [if_pos hodd]
    exact ⟨⟨x, hx, le_refl _⟩, ⟨x, hx, le_refl _⟩⟩
  · rw [if_neg hodd]
    have hxy : key obj x ≤ key obj y := by
      rw [List.pairwise_iff_getElem] at hs
      obtain ⟨h1, h1'⟩ := List.getElem?_eq_some_iff.1 e2
      obtain ⟨h2, h2'⟩ := List.getElem?_eq_some_iff.1 e4
      have := hs _ _ h1 h2 (by omega)
      rwa [h1', h2'] at this
    refine ⟨⟨y, hy, ?_⟩, ⟨x, hx, ?_⟩⟩ <;> linarith

theorem filter_lengths {α : Type} (l : List α) (p q : α → Bool) (h : ∀ a ∈ l, q a = !p a) : (l.filter p).length + (l.filter q).length = l.length := by
  induction l with
  | nil => rfl
  | cons a l ih =>
    have h1 := ih (fun b hb => h b (by simp [hb]))
    have h2 := h a (by simp)
    rw [List.filter_cons, List.filter_cons, h2]
    cases p a <;> simp <;> omega

/-- What both splits provide: a cut of the key values, proper as soon as the values are not all equal. -/
structure IsSplit (obj : ℕ) (best worst b1 b2 w1 w2 : List (List K)) : Prop where
  memb : ∀ x, x ∈ best ↔ x ∈ b1 ∨ x ∈ b2
  memw : ∀ x, x ∈ worst ↔ x ∈ w1 ∨ x ∈ w2
  subb : b1.Sublist best ∧ b2.Sublist best
  subw : w1.Sublist worst ∧ w2.Sublist worst
  lt : ∀ x, x ∈ b1 ∨ x ∈ w1 → ∀ y, y ∈ b2 ∨ y ∈ w2 → key obj y < key obj x
  lens : b1.length + b2.length = best.length ∧ w1.length + w2.length = worst.length
  proper : (¬ ∀ x, x ∈ best ∨ x ∈ worst → ∀ y, y ∈ best ∨ y ∈ worst → key obj x = key obj y) → 1 ≤ b1.length + w1.length ∧ 1 ≤ b2.length + w2.length

theorem isSplit_aux (obj : ℕ) (best worst : List (List K)) (m : K) (h1 : ∃ x, (x ∈ best ∨ x ∈ worst) ∧ m ≤ key obj x)
    (h2 : ∃ x, (x ∈ best ∨ x ∈ worst) ∧ key obj x ≤ m) :
    (((((best.filter (fun f => decide (m ≤ key obj f))).length : ℤ) - (best.filter (fun f => decide (key obj f < m))).length +
        (worst.filter (fun f => decide (m ≤ key obj f))).length - (worst.filter (fun f => decide (key obj f < m))).length).natAbs ≤
      (((best.filter (fun f => decide (m < key obj f))).length : ℤ) - (best.filter (fun f => decide (key obj f ≤ m))).length +
        (worst.filter (fun f => decide (m < key obj f))).length - (worst.filter (fun f => decide (key obj f ≤ m))).length).natAbs) →
      IsSplit obj best worst (best.filter (fun f => decide (m ≤ key obj f))) (best.filter (fun f => decide (key obj f < m)))
        (worst.filter (fun f => decide (m ≤ key obj f))) (worst.filter (fun f => decide (key obj f < m)))) ∧
    (¬ ((((best.filter (fun f => decide (m ≤ key obj f))).length : ℤ) - (best.filter (fun f => decide (key obj f < m))).length +
        (worst.filter (fun f => decide (m ≤ key obj f))).length - (worst.filter (fun f => decide (key obj f < m))).length).natAbs ≤
      (((best.filter (fun f => decide (m < key obj f))).length : ℤ) - (best.filter (fun f => decide (key obj f ≤ m))).length +
        (worst.filter (fun f => decide (m < key obj f))).length - (worst.filter (fun f => decide (key obj f ≤ m))).length).natAbs) →
      IsSplit obj best worst (best.filter (fun f => decide (m < key obj f))) (best.filter (fun f => decide (key obj f ≤ m)))
        (worst.filter (fun f => decide (m < key obj f))) (worst.filter (fun f => decide (key obj f ≤ m)))) := by
  have lb1 := filter_lengths best (fun f => decide (m ≤ key obj f)) (fun f => decide (key obj f < m)) (fun f _ => by simp [← not_lt])
  have lb2 := filter_lengths best (fun f => decide (m < key obj f)) (fun f => decide (key obj f ≤ m)) (fun f _ => by simp [← not_lt])
  have lw1 := filter_lengths worst (fun f => decide (m ≤ key obj f)) (fun f => decide (key obj f < m)) (fun f _ => by simp [← not_lt])
  have lw2 := filter_lengths worst (fun f => decide (m < key obj f)) (fun f => decide (key obj f ≤ m)) (fun f _ => by simp [← not_lt])
  have pos : ∀ P : List K → Bool, (∃ x, (x ∈ best ∨ x ∈ worst) ∧ P x = true) → 1 ≤ (best.filter P).length + (worst.filter P).length := by
    rintro P ⟨x, hx | hx, hp⟩
    · have := List.length_pos_of_mem (List.mem_filter.2 ⟨hx, hp⟩); omega
    · have := List.length_pos_of_mem (List.mem_filter.2 ⟨hx, hp⟩); omega
  have p1 := pos (fun f => decide (m ≤ key obj f)) (by obtain ⟨x, hx, h⟩ := h1; exact ⟨x, hx, by simpa using h⟩)
  have p2 := pos (fun f => decide (key obj f ≤ m)) (by obtain ⟨x, hx, h⟩ := h2; exact ⟨x, hx, by simpa using h⟩)
  have p3 : (¬ ∀ x, x ∈ best ∨ x ∈ worst → ∀ y, y ∈ best ∨ y ∈ worst → key obj x = key obj y) →
      1 ≤ (best.filter (fun f => decide (key obj f < m))).length + (worst.filter (fun f => decide (key obj f < m))).length ∨
      1 ≤ (best.filter (fun f => decide (m < key obj f))).length + (worst.filter (fun f => decide (m < key obj f))).length := by
    intro hne
    by_contra hcon
    apply hne
    have hall : ∀ x, x ∈ best ∨ x ∈ worst → key obj x = m := by
      intro x hx
      rcases lt_trichotomy (key obj x) m with h | h | h
      · exact absurd (Or.inl (pos _ ⟨x, hx, by simpa using h⟩)) hcon
      · exact h
      · exact absurd (Or.inr (pos _ ⟨x, hx, by simpa using h⟩)) hcon
    intro x hx y hy
    rw [hall x hx, hall y hy]
  constructor
  · intro hb
    refine ⟨?_, ?_, ⟨List.filter_sublist, List.filter_sublist⟩, ⟨List.filter_sublist, List.filter_sublist⟩, ?_, ⟨lb1, lw1⟩, ?_⟩
    · intro x; simp only [List.mem_filter, decide_eq_true_eq]
      constructor
      · intro hx; rcases le_or_gt m (key obj x) with h | h
        · exact Or.inl ⟨hx, h⟩
        · exact Or.inr ⟨hx, h⟩
      · rintro (h | h) <;> exact h.1
    · intro x; simp only [List.mem_filter, decide_eq_true_eq]
      constructor
      · intro hx; rcases le_or_gt m (key obj x) with h | h
        · exact Or.inl ⟨hx, h⟩
        · exact Or.inr ⟨hx, h⟩
      · rintro (h | h) <;> exact h.1
    · intro x hx y hy
      simp only [List.mem_filter, decide_eq_true_eq] at hx hy
      have a : m ≤ key obj x := by rcases hx with h | h <;> exact h.2
      have b : key obj y < m := by rcases hy with h | h <;> exact h.2
      exact lt_of_lt_of_le b a
    · intro hne
      have := p3 hne
      omega
  · intro hb
    refine ⟨?_, ?_, ⟨List.filter_sublist, List.filter_sublist⟩, ⟨List.filter_sublist, List.filter_sublist⟩, ?_, ⟨lb2, lw2⟩, ?_⟩
    · intro x; simp only [List.mem_filter, decide_eq_true_eq]
      constructor
      · intro hx; rcases lt_or_ge m (key obj x) with h | h
        · exact Or.inl ⟨hx, h⟩
        · exact Or.inr ⟨hx, h⟩
      · rintro (h | h) <;> exact h.1
    · intro x; simp only [List.mem_filter, decide_eq_true_eq]
      constructor
      · intro hx; rcases lt_or_ge m (key obj x) with h | h
        · exact Or.inl ⟨hx, h⟩
        · exact Or.inr ⟨hx, h⟩
      · rintro (h | h) <;> exact h.1
    · intro x hx y hy
      simp only [List.mem_filter, decide_eq_true_eq] at hx hy
      have a : m < key obj x := by rcases hx with h | h <;> exact h.2
      have b : key obj y ≤ m := by rcases hy with h | h <;> exact h.2
      exact lt_of_le_of_lt b a
    · intro hne
      have := p3 hne
      omega

theorem splitB_spec (best worst : List (List K)) (obj : ℕ) (hne : best ≠ [] ∧ worst ≠ []) :
    IsSplit obj best worst (splitB best worst obj).1.1 (splitB best worst obj).1.2 (splitB best worst obj).2.1 (splitB best worst obj).2.2 := by
  have hm := median_bounds obj (l := if best.length > worst.length then best else worst) (by split; exacts [hne.1, hne.2])
  have hsub : ∀ x, x ∈ (if best.length > worst.length then best else worst) → x ∈ best ∨ x ∈ worst := by
    intro x hx
    split at hx
    · exact Or.inl hx
    · exact Or.inr hx
  have := isSplit_aux obj best worst (median obj (if best.length > worst.length then best else worst))
    (by obtain ⟨x, hx, h⟩ := hm.1; exact ⟨x, hsub x hx, h⟩) (by obtain ⟨x, hx, h⟩ := hm.2; exact ⟨x, hsub x hx, h⟩)
  unfold splitB
  dsimp only
  generalize median obj (if best.length > worst.length then best else worst) = m at this ⊢
  split
  · exact this.1 ‹_›
  · exact this.2 ‹_›

theorem splitA_spec (l : List (List K)) (obj : ℕ) (hne : l ≠ []) : IsSplit obj l [] (splitA l obj).1 (splitA l obj).2 [] [] := by
  have hm := median_bounds obj hne
  have := isSplit_aux obj l [] (median obj l) (by obtain ⟨x, hx, h⟩ := hm.1; exact ⟨x, Or.inl hx, h⟩)
    (by obtain ⟨x, hx, h⟩ := hm.2; exact ⟨x, Or.inl hx, h⟩)
  simp only [List.filter_nil, List.length_nil, Nat.cast_zero, add_zero, sub_zero] at this
  unfold splitA
  dsimp only
  split
  · exact this.1 ‹_›
  · exact this.2 ‹_›

/-! ### Stairs -/

/-- The stairs kept for the processed vectors `done`. -/
structure StInv (g : Front K) (done st : List (List K)) : Prop where
  sub : ∀ t ∈ st, t ∈ done
  cov : ∀ u ∈ done, ∃ t ∈ st, key 1 u ≤ key 1 t ∧ g u ≤ g t
  sorted : st.Pairwise (fun a b => key 1 b ≤ key 1 a)

theorem before_append_after (st : List (List K)) (f : List K) : before st f ++ after st f = st := List.takeWhile_append_dropWhile

theorem mem_before {st : List (List K)} (hs : st.Pairwise (fun a b => key 1 b ≤ key 1 a)) (f t : List K) :
    t ∈ before st f ↔ t ∈ st ∧ key 1 f ≤ key 1 t := by
  unfold before
  induction st with
  | nil => simp
  | cons a st ih =>
    rw [List.pairwise_cons] at hs
    rw [List.takeWhile_cons]
    by_cases h : -(key 1 a) ≤ -(key 1 f)
    · simp only [h, decide_true, if_true, List.mem_cons, ih hs.2]
      have h' : key 1 f ≤ key 1 a := neg_le_neg_iff.1 h
      constructor
      · rintro (rfl | h2)
        · exact ⟨Or.inl rfl, h'⟩
        · exact ⟨Or.inr h2.1, h2.2⟩
      · rintro ⟨rfl | h1, h2⟩
        · exact Or.inl rfl
        · exact Or.inr ⟨h1, h2⟩
    · simp only [h, decide_false, Bool.false_eq_true, if_false, List.not_mem_nil, false_iff]
      rintro ⟨h1, h2⟩
      have h' : key 1 a < key 1 f := by
        by_contra hc
        exact h (neg_le_neg (not_lt.1 hc))
      rcases List.mem_cons.1 h1 with rfl | h1
      · exact absurd h2 (not_le.2 h')
      · have := hs.1 t h1
        linarith

theorem mem_after {st : List (List K)} (hs : st.Pairwise (fun a b => key 1 b ≤ key 1 a)) (f t : List K) (ht : t ∈ after st f) :
    t ∈ st ∧ key 1 t < key 1 f := by
  have hmem : t ∈ st := by rw [← before_append_after st f]; exact List.mem_append_right _ ht
  refine ⟨hmem, ?_⟩
  by_contra hcon
  unfold after at ht
  induction st with
  | nil => simp at ht
  | cons a st ih =>
    rw [List.pairwise_cons] at hs
    rw [List.dropWhile_cons] at ht
    by_cases h : -(key 1 a) ≤ -(key 1 f)
    · simp only [h, decide_true, if_true] at ht
      exact ih hs.2 ht (List.dropWhile_subset _ ht)
    · apply h
      rcases List.mem_cons.1 hmem with rfl | hm
      · exact neg_le_neg (not_lt.1 hcon)
      · exact neg_le_neg ((not_lt.1 hcon).trans (hs.1 t hm))

theorem insert_sorted {st : List (List K)} (hs : st.Pairwise (fun a b => key 1 b ≤ key 1 a)) (f : List K) {X : List (List K)}
    (hX : X.Sublist (after st f)) : (before st f ++ f :: X).Pairwise (fun a b => key 1 b ≤ key 1 a) := by
  have h0 := hs
  rw [← before_append_after st f, List.pairwise_append] at h0
  rw [List.pairwise_append, List.pairwise_cons]
  refine ⟨h0.1, ⟨?_, h0.2.1.sublist hX⟩, ?_⟩
  · intro t ht
    exact le_of_lt (mem_after hs f t (hX.subset ht)).2
  · intro a ha b hb
    rcases List.mem_cons.1 hb with rfl | hb
    · exact ((mem_before hs _ a).1 ha).2
    · exact h0.2.2 a ha b (hX.subset hb)

theorem le_maxFront (g : Front K) {l : List (List K)} {t : List K} (h : t ∈ l) : g t ≤ maxFront g l := by
  unfold maxFront
  induction l with
  | nil => simp at h
  | cons a l ih =>
    simp only [List.map_cons, List.foldr_cons]
    rcases List.mem_cons.1 h with rfl | h
    · exact le_max_left _ _
    · exact (ih h).trans (le_max_right _ _)

theorem maxFront_mem (g : Front K) {l : List (List K)} (h : l ≠ []) : ∃ t ∈ l, maxFront g l = g t := by
  unfold maxFront
  induction l with
  | nil => exact absurd rfl h
  | cons a l ih =>
    simp only [List.map_cons, List.foldr_cons]
    by_cases hl : l = []
    · subst hl
      exact ⟨a, by simp, by simp⟩
    · obtain ⟨t, ht, e⟩ := ih hl
      rw [e]
      rcases le_total (g a) (g t) with h' | h'
      · exact ⟨t, by simp [ht], max_eq_right h'⟩
      · exact ⟨a, by simp, max_eq_left h'⟩

theorem bump_spec {g : Front K} {done st : List (List K)} (inv : StInv g done st) (f : List K) :
    (∀ s, s ≠ f → bump g st f s = g s) ∧ g f ≤ bump g st f f ∧ (∀ u ∈ done, key 1 f ≤ key 1 u → g u < bump g st f f) ∧
    (bump g st f f = g f ∨ ∃ u ∈ done, key 1 f ≤ key 1 u ∧ bump g st f f = g u + 1) := by
  have hcov : ∀ u ∈ done, key 1 f ≤ key 1 u → ∃ t ∈ before st f, g u ≤ g t := by
    intro u hu hk
    obtain ⟨t, ht, h1, h2⟩ := inv.cov u hu
    exact ⟨t, (mem_before inv.sorted f t).2 ⟨ht, hk.trans h1⟩, h2⟩
  unfold bump
  by_cases h : before st f = []
  · rw [if_pos h]
    refine ⟨fun _ _ => rfl, le_refl _, ?_, Or.inl rfl⟩
    intro u hu hk
    obtain ⟨t, ht, _⟩ := hcov u hu hk
    rw [h] at ht
    simp at ht
  · rw [if_neg h, Function.update_self]
    refine ⟨fun s hs => Function.update_of_ne hs _ _, le_max_left _ _, ?_, ?_⟩
    · intro u hu hk
      obtain ⟨t, ht, h2⟩ := hcov u hu hk
      have := le_maxFront g ht
      have := le_max_right (g f) (maxFront g (before st f) + 1)
      omega
    · obtain ⟨t, ht, e⟩ := maxFront_mem g h
      obtain ⟨h1, h2⟩ := (mem_before inv.sorted f t).1 ht
      rcases le_total (g f) (maxFront g (before st f) + 1) with h' | h'
      · exact Or.inr ⟨t, inv.sub t h1, h2, by rw [max_eq_right h', e]⟩
      · exact Or.inl (max_eq_left h')

theorem StInv.congr {g g' : Front K} {done st : List (List K)} (inv : StInv g done st) (h : ∀ u ∈ done, g' u = g u) : StInv g' done st := by
  refine ⟨inv.sub, ?_, inv.sorted⟩
  intro u hu
  obtain ⟨t, ht, h1, h2⟩ := inv.cov u hu
  exact ⟨t, ht, h1, by rw [h u hu, h t (inv.sub t ht)]; exact h2⟩

theorem sweepAStep_inv {g : Front K} {done st : List (List K)} (inv : StInv g done st) (f : List K) (hf : f ∉ done) :
    StInv (bump g st f) (done ++ [f]) (sweepAStep (st, g) f).1 := by
  have hg : ∀ u ∈ done, bump g st f u = g u := fun u hu => (bump_spec inv f).1 u (fun h => hf (h ▸ hu))
  have inv' := inv.congr hg
  simp only [sweepAStep]
  refine ⟨?_, ?_, insert_sorted inv.sorted f List.eraseP_sublist⟩
  · intro t ht
    rw [List.mem_append, List.mem_cons] at ht
    rcases ht with ht | rfl | ht
    · exact List.mem_append_left _ (inv.sub t ((mem_before inv.sorted f t).1 ht).1)
    · simp
    · exact List.mem_append_left _ (inv.sub t (mem_after inv.sorted f t (List.mem_of_mem_eraseP ht)).1)
  · intro u hu
    rw [List.mem_append, List.mem_singleton] at hu
    rcases hu with hu | rfl
    · obtain ⟨t, ht, h1, h2⟩ := inv'.cov u hu
      have ht' := ht
      rw [← before_append_after st f, List.mem_append] at ht'
      rcases ht' with hb | ha
      · exact ⟨t, List.mem_append_left _ hb, h1, h2⟩
      · by_cases hp : bump g st f t = bump g st f f
        · exact ⟨f, by simp, h1.trans (le_of_lt (mem_after inv.sorted f t ha).2), by rw [← hp]; exact h2⟩
        · exact ⟨t, List.mem_append_right _ (List.mem_cons_of_mem _ ((List.mem_eraseP_of_neg (by simpa using hp)).2 ha)), h1, h2⟩
    · exact ⟨u, by simp, le_refl _, le_refl _⟩

/-- The hypotheses under which the helpers work: vectors of length `n`, in descending lexicographic order. -/
structure Desc (n : ℕ) (l : List (List K)) : Prop where
  len : ∀ x ∈ l, x.length = n
  lex : l.Pairwise (fun a b => b ≤ a)
  nodup : l.Nodup

theorem Desc.sublist {n : ℕ} {l l' : List (List K)} (h : Desc n l) (hs : l'.Sublist l) : Desc n l' :=
  ⟨fun x hx => h.len x (hs.subset hx), h.lex.sublist hs, h.nodup.sublist hs⟩

/-- No two vectors agree on the first `m + 1` objectives. -/
def Apart (m : ℕ) (l : List (List K)) : Prop := l.Pairwise (fun a b => ∃ i ≤ m, key i a ≠ key i b)

theorem levA_snoc {g0 g g' : Front K} {done : List (List K)} {f : List K} {m : ℕ} (h : LevA m done g0 g) (hf : f ∉ done)
    (hself : ¬ D m f f) (hnot : ∀ t ∈ done, ¬ D m f t) (h1 : ∀ s, s ≠ f → g' s = g s) (h2 : g f ≤ g' f) (h3 : ∀ t ∈ done, D m t f → g t < g' f)
    (h4 : g' f = g f ∨ ∃ t ∈ done, D m t f ∧ g' f = g t + 1) : LevA m (done ++ [f]) g0 g' := by
  have hne : ∀ t ∈ done, t ≠ f := fun t ht e => hf (e ▸ ht)
  refine ⟨?_, ?_⟩
  · intro s hs
    rw [List.mem_append, List.mem_singleton] at hs
    push Not at hs
    rw [h1 s hs.2, h.1 s hs.1]
  · intro s hs
    rw [List.mem_append, List.mem_singleton] at hs
    rcases hs with hs | rfl
    · obtain ⟨a, b, c⟩ := h.2 s hs
      rw [h1 s (hne s hs)]
      refine ⟨a, ?_, ?_⟩
      · intro t ht hd
        rw [List.mem_append, List.mem_singleton] at ht
        rcases ht with ht | rfl
        · rw [h1 t (hne t ht)]; exact b t ht hd
        · exact absurd hd (hnot s hs)
      · rcases c with c | ⟨t, ht, hd, e⟩
        · exact Or.inl c
        · exact Or.inr ⟨t, List.mem_append_left _ ht, hd, by rw [h1 t (hne t ht)]; exact e⟩
    · refine ⟨by rw [← h.1 s hf]; exact h2, ?_, ?_⟩
      · intro t ht hd
        rw [List.mem_append, List.mem_singleton] at ht
        rcases ht with ht | rfl
        · rw [h1 t (hne t ht)]; exact h3 t ht hd
        · exact absurd hd hself
      · rcases h4 with c | ⟨t, ht, hd, e⟩
        · exact Or.inl (by rw [c, h.1 s hf])
        · exact Or.inr ⟨t, List.mem_append_left _ ht, hd, by rw [h1 t (hne t ht)]; exact e⟩

theorem D_irrefl (m : ℕ) (a : List K) : ¬ D m a a := fun h => by obtain ⟨_, i, _, hne⟩ := h; exact hne rfl

/-- In descending order a later vector does not dominate an earlier one. -/
theorem not_D_of_lex {a b : List K} (hl : a.length = b.length) (h : a ≤ b) {m : ℕ} (hm : m < a.length) : ¬ D m a b := by
  rintro ⟨hw, i, hi, hne⟩
  exact hne (lex_W hl h hm hw i hi)

theorem D_one_of_lex {a b : List K} {n : ℕ} (hn : 2 ≤ n) (ha : a.length = n) (hb : b.length = n) (h : a ≤ b) (hne : ∃ i ≤ 1, key i b ≠ key i a) :
    D 1 b a ↔ key 1 a ≤ key 1 b := by
  constructor
  · intro hd
    exact hd.1 1 (le_refl _)
  · intro hk
    refine ⟨(W_one_lex (by omega) (by omega)).2 ⟨lex_take_two (by omega) (by omega) h, hk⟩, ?_⟩
    obtain ⟨i, hi, h'⟩ := hne
    exact ⟨i, hi, fun e => h' e.symm⟩

theorem sweepA_fold {n : ℕ} (hn : 2 ≤ n) {g0 : Front K} (rest : List (List K)) :
    ∀ (done st : List (List K)) (g : Front K), StInv g done st → LevA 1 done g0 g → Desc n (done ++ rest) → Apart 1 (done ++ rest) →
      LevA 1 (done ++ rest) g0 (rest.foldl sweepAStep (st, g)).2 := by
  induction rest with
  | nil =>
    intro done st g inv hl hd ha
    rw [List.append_nil]
    exact hl
  | cons f rest ih =>
    intro done st g inv hl hd ha
    rw [List.foldl_cons]
    have hassoc : done ++ f :: rest = (done ++ [f]) ++ rest := by simp
    have hf : f ∉ done := by
      have := hd.nodup
      rw [List.nodup_append] at this
      intro h
      exact this.2.2 f h f (by simp) rfl
    have hlf := hd.len f (by simp)
    have hlen : ∀ t ∈ done, t.length = n := fun t ht => hd.len t (by simp [ht])
    have hlex : ∀ t ∈ done, f ≤ t := fun t ht => (List.pairwise_append.1 hd.lex).2.2 t ht f (by simp)
    have hap : ∀ t ∈ done, ∃ i ≤ 1, key i t ≠ key i f := fun t ht => (List.pairwise_append.1 ha).2.2 t ht f (by simp)
    obtain ⟨b1, b2, b3, b4⟩ := bump_spec inv f
    have hD : ∀ t ∈ done, (D 1 t f ↔ key 1 f ≤ key 1 t) := fun t ht => D_one_of_lex hn hlf (hlen t ht) (hlex t ht) (hap t ht)
    have hlev : LevA 1 (done ++ [f]) g0 (bump g st f) := by
      refine levA_snoc hl hf (D_irrefl 1 f) (fun t ht => not_D_of_lex (by rw [hlf, hlen t ht]) (hlex t ht) (by omega)) b1 b2 ?_ ?_
      · intro t ht hd'
        exact b3 t ht ((hD t ht).1 hd')
      · rcases b4 with c | ⟨u, hu, hk, e⟩
        · exact Or.inl c
        · exact Or.inr ⟨u, hu, (hD u hu).2 hk, e⟩
    have := ih (done ++ [f]) (sweepAStep (st, g) f).1 (bump g st f) (sweepAStep_inv inv f hf) hlev (hassoc ▸ hd) (hassoc ▸ ha)
    rw [hassoc]
    exact this

theorem sweepA_spec {n : ℕ} (hn : 2 ≤ n) (g : Front K) {l : List (List K)} (hd : Desc n l) (ha : Apart 1 l) : LevA 1 l g (sweepA l g) := by
  cases l with
  | nil => exact ⟨fun _ _ => rfl, by simp⟩
  | cons s rest =>
    refine sweepA_fold hn rest [s] [s] g ⟨by simp, ?_, by simp⟩ ⟨fun _ _ => rfl, ?_⟩ hd ha
    · intro u hu
      exact ⟨u, hu, le_refl _, le_refl _⟩
    · intro t ht
      refine ⟨le_refl _, ?_, Or.inl rfl⟩
      intro u hu hd'
      simp only [List.mem_singleton] at ht hu
      subst ht; subst hu
      exact absurd hd' (D_irrefl 1 _)

/-! ### Gluing the second helper -/

theorem levB_glueH {m : ℕ} {L H H1 H2 : List (List K)} {g g1 g2 : Front K} (h1 : LevB m L H1 g g1) (h2 : LevB m L H2 g1 g2)
    (hH : ∀ x, x ∈ H ↔ x ∈ H1 ∨ x ∈ H2) (hdis : ∀ x ∈ H1, x ∉ H2) (hL : ∀ l ∈ L, l ∉ H) : LevB m L H g g2 := by
  have hLg : ∀ l ∈ L, g1 l = g l := fun l hl => h1.1 l (fun h => hL l hl ((hH l).2 (Or.inl h)))
  refine ⟨?_, ?_⟩
  · intro s hs
    rw [hH] at hs
    push Not at hs
    rw [h2.1 s hs.2, h1.1 s hs.1]
  · intro h hh
    rcases (hH h).1 hh with hh | hh
    · rw [h2.1 h (hdis h hh)]
      exact h1.2 h hh
    · obtain ⟨a, b, c⟩ := h2.2 h hh
      have e : g1 h = g h := h1.1 h (fun h' => hdis h h' hh)
      rw [e] at a c
      refine ⟨a, fun l hl hw => by rw [← hLg l hl]; exact b l hl hw, ?_⟩
      rcases c with c | ⟨l, hl, hw, e⟩
      · exact Or.inl c
      · exact Or.inr ⟨l, hl, hw, by rw [← hLg l hl]; exact e⟩

theorem levB_glueL {m : ℕ} {L L1 L2 H : List (List K)} {g g1 g2 : Front K} (h1 : LevB m L1 H g g1) (h2 : LevB m L2 H g1 g2)
    (hLL : ∀ x, x ∈ L ↔ x ∈ L1 ∨ x ∈ L2) (hL : ∀ l ∈ L, l ∉ H) : LevB m L H g g2 := by
  have hLg : ∀ l ∈ L, g1 l = g l := fun l hl => h1.1 l (hL l hl)
  refine ⟨fun s hs => by rw [h2.1 s hs, h1.1 s hs], ?_⟩
  intro h hh
  obtain ⟨a1, b1, c1⟩ := h1.2 h hh
  obtain ⟨a2, b2, c2⟩ := h2.2 h hh
  refine ⟨a1.trans a2, ?_, ?_⟩
  · intro l hl hw
    rcases (hLL l).1 hl with h' | h'
    · exact lt_of_lt_of_le (b1 l h' hw) a2
    · rw [← hLg l hl]; exact b2 l h' hw
  · rcases c2 with c2 | ⟨l, hl, hw, e⟩
    · rcases c1 with c1 | ⟨l, hl, hw, e⟩
      · exact Or.inl (c2.trans c1)
      · exact Or.inr ⟨l, (hLL l).2 (Or.inl hl), hw, c2.trans e⟩
    · have hl' := (hLL l).2 (Or.inr hl)
      exact Or.inr ⟨l, hl', hw, by rw [← hLg l hl']; exact e⟩

theorem levB_congr {m m' : ℕ} {L H : List (List K)} {g g' : Front K} (h : LevB m L H g g') (hw : ∀ l ∈ L, ∀ x ∈ H, (W m l x ↔ W m' l x)) :
    LevB m' L H g g' := by
  refine ⟨h.1, ?_⟩
  intro x hx
  obtain ⟨a, b, c⟩ := h.2 x hx
  refine ⟨a, fun l hl h' => b l hl ((hw l hl x hx).2 h'), ?_⟩
  rcases c with c | ⟨l, hl, h', e⟩
  · exact Or.inl c
  · exact Or.inr ⟨l, hl, (hw l hl x hx).1 h', e⟩

theorem levB_none {m : ℕ} {L H : List (List K)} {g : Front K} (hw : ∀ l ∈ L, ∀ x ∈ H, ¬ W m l x) : LevB m L H g g :=
  ⟨fun _ _ => rfl, fun x hx => ⟨le_refl _, fun l hl h => absurd h (hw l hl x hx), Or.inl rfl⟩⟩

/-! ### The direct comparison -/

theorem direct_inner {m : ℕ} {h : List K} (hh : m < h.length) (best : List (List K)) :
    ∀ (g : Front K), (∀ l ∈ best, m < l.length) → h ∉ best → LevB m best [h] g (best.foldl (fun front l =>
      if isDominated (h.take (m + 1)) (l.take (m + 1)) = true ∨ h.take (m + 1) = l.take (m + 1) then
        Function.update front h (max (front h) (front l + 1)) else front) g) := by
  induction best with
  | nil => intro g _ _; exact levB_none (by simp)
  | cons l best ih =>
    intro g hlen hnot
    rw [List.foldl_cons]
    have hhl : h ≠ l := fun e => hnot (by simp [e])
    refine levB_glueL (L1 := [l]) (L2 := best) ?_ (ih _ (fun x hx => hlen x (by simp [hx])) (fun h' => hnot (by simp [h']))) (by simp) ?_
    · have hiff := direct_test (hlen l (by simp)) hh
      by_cases hw : W m l h
      · rw [if_pos (hiff.2 hw)]
        refine ⟨?_, ?_⟩
        · intro s hs
          exact Function.update_of_ne (by simpa using hs) _ _
        · intro x hx
          simp only [List.mem_singleton] at hx
          subst hx
          rw [Function.update_self]
          refine ⟨le_max_left _ _, ?_, ?_⟩
          · intro y hy _
            simp only [List.mem_singleton] at hy
            subst hy
            have := le_max_right (g x) (g y + 1)
            omega
          · rcases le_total (g x) (g l + 1) with h' | h'
            · exact Or.inr ⟨l, by simp, hw, max_eq_right h'⟩
            · exact Or.inl (max_eq_left h')
      · rw [if_neg (fun h' => hw (hiff.1 h'))]
        apply levB_none
        intro y hy x hx
        simp only [List.mem_singleton] at hx hy
        subst hx; subst hy
        exact hw
    · intro y hy hx
      simp only [List.mem_singleton] at hx
      subst hx
      exact hnot hy

theorem direct_spec {m : ℕ} {best : List (List K)} (worst : List (List K)) : ∀ (g : Front K), (∀ l ∈ best, m < l.length) →
    (∀ h ∈ worst, m < h.length) → worst.Nodup → (∀ l ∈ best, l ∉ worst) → LevB m best worst g (direct best worst m g) := by
  induction worst with
  | nil => intro g _ _ _ _; exact levB_none (by simp)
  | cons h worst ih =>
    intro g hb hw hn hdis
    rw [List.nodup_cons] at hn
    have := ih (best.foldl (fun front l =>
      if isDominated (h.take (m + 1)) (l.take (m + 1)) = true ∨ h.take (m + 1) = l.take (m + 1) then
        Function.update front h (max (front h) (front l + 1)) else front) g) hb (fun x hx => hw x (by simp [hx])) hn.2
        (fun l hl h' => hdis l hl (by simp [h']))
    have h1 := direct_inner (hw h (by simp)) best g hb (fun h' => hdis h h' (by simp))
    refine levB_glueH h1 this (by simp) ?_ hdis
    intro x hx hx'
    simp only [List.mem_singleton] at hx
    subst hx
    exact hn.1 hx'

/-! ### The second sweep -/

theorem find_first {st : List (List K)} (hs : st.Pairwise (fun a b => key 1 b ≤ key 1 a)) {p : List K → Bool} {t u : List K}
    (h : st.find? p = some t) (hu : u ∈ st) (hp : p u = true) : key 1 u ≤ key 1 t := by
  induction st with
  | nil => simp at hu
  | cons a st ih =>
    rw [List.pairwise_cons] at hs
    rw [List.find?_cons] at h
    cases hpa : p a with
    | true =>
      rw [hpa] at h
      have : a = t := Option.some.inj h
      subst this
      rcases List.mem_cons.1 hu with rfl | hu
      · exact le_refl _
      · exact hs.1 u hu
    | false =>
      rw [hpa] at h
      rcases List.mem_cons.1 hu with rfl | hu
      · rw [hp] at hpa; cases hpa
      · exact ih hs.2 h hu

theorem insertStair_inv {g : Front K} {done st : List (List K)} (inv : StInv g done st) (b : List K) :
    StInv g (done ++ [b]) (insertStair g st b) := by
  have put : ∀ st', st'.Sublist st → (∀ u ∈ st, u ∉ st' → key 1 u ≤ key 1 b ∧ g u = g b) →
      StInv g (done ++ [b]) (before st' b ++ b :: after st' b) := by
    intro st' hsub hrem
    have hs' := inv.sorted.sublist hsub
    have hmem : ∀ t, t ∈ before st' b ++ b :: after st' b ↔ t = b ∨ t ∈ st' := by
      intro t
      conv_rhs => rw [← before_append_after st' b]
      simp only [List.mem_append, List.mem_cons]
      tauto
    refine ⟨?_, ?_, insert_sorted hs' b (List.Sublist.refl _)⟩
    · intro t ht
      rcases (hmem t).1 ht with rfl | ht
      · simp
      · exact List.mem_append_left _ (inv.sub t (hsub.subset ht))
    · intro u hu
      rw [List.mem_append, List.mem_singleton] at hu
      rcases hu with hu | rfl
      · obtain ⟨t, ht, h1, h2⟩ := inv.cov u hu
        by_cases h' : t ∈ st'
        · exact ⟨t, (hmem t).2 (Or.inr h'), h1, h2⟩
        · obtain ⟨h3, h4⟩ := hrem t ht h'
          exact ⟨b, (hmem b).2 (Or.inl rfl), h1.trans h3, by rw [← h4]; exact h2⟩
      · exact ⟨u, (hmem u).2 (Or.inl rfl), le_refl _, le_refl _⟩
  unfold insertStair
  split
  · rename_i t ht
    have htm : t ∈ st := List.mem_of_find?_eq_some ht
    have hpt : g t = g b := by have := List.find?_some ht; simpa using this
    by_cases hgt : key 1 t > key 1 b
    · rw [if_pos hgt]
      refine ⟨fun t ht => List.mem_append_left _ (inv.sub t ht), ?_, inv.sorted⟩
      intro u hu
      rw [List.mem_append, List.mem_singleton] at hu
      rcases hu with hu | rfl
      · exact inv.cov u hu
      · exact ⟨t, htm, le_of_lt hgt, le_of_eq hpt.symm⟩
    · rw [if_neg hgt]
      apply put _ List.eraseP_sublist
      intro u hu hnot
      have hpu : g u = g b := by
        by_contra hcon
        exact hnot ((List.mem_eraseP_of_neg (by simpa using hcon)).2 hu)
      exact ⟨(find_first inv.sorted ht hu (by simpa using hpu)).trans (not_lt.1 hgt), hpu⟩
  · apply put _ (List.Sublist.refl _)
    intro u hu hnot
    exact absurd hu hnot

theorem absorb_spec {n : ℕ} (hn : 2 ≤ n) {g : Front K} {h : List K} (rest : List (List K)) :
    ∀ (done st : List (List K)), StInv g done st → (∀ x ∈ rest, x.length = n) → rest.Pairwise (fun a b => b ≤ a) →
      ∃ mid, rest = mid ++ (absorb g h rest st).1 ∧ (∀ b ∈ mid, h.take 2 ≤ b.take 2) ∧ (∀ b ∈ (absorb g h rest st).1, ¬ h.take 2 ≤ b.take 2) ∧
        StInv g (done ++ mid) (absorb g h rest st).2 := by
  induction rest with
  | nil =>
    intro done st inv _ _
    exact ⟨[], by simp [absorb], by simp, by simp [absorb], by simpa [absorb] using inv⟩
  | cons b rest ih =>
    intro done st inv hlen hlex
    rw [List.pairwise_cons] at hlex
    by_cases hc : h.take 2 ≤ b.take 2
    · obtain ⟨mid, e, h1, h2, h3⟩ := ih (done ++ [b]) (insertStair g st b) (insertStair_inv inv b) (fun x hx => hlen x (by simp [hx])) hlex.2
      have ea : absorb g h (b :: rest) st = absorb g h rest (insertStair g st b) := by rw [absorb, if_pos hc]
      rw [ea]
      refine ⟨b :: mid, by rw [List.cons_append, ← e], ?_, h2, by simpa using h3⟩
      intro x hx
      rcases List.mem_cons.1 hx with rfl | hx
      · exact hc
      · exact h1 x hx
    · have ea : absorb g h (b :: rest) st = (b :: rest, st) := by rw [absorb, if_neg hc]
      rw [ea]
      refine ⟨[], rfl, by simp, ?_, by simpa using inv⟩
      intro x hx hle
      rcases List.mem_cons.1 hx with rfl | hx
      · exact hc hle
      · apply hc
        refine le_trans hle (lex_take_two ?_ ?_ (hlex.1 x hx))
        · rw [hlen x (by simp [hx])]; exact hn
        · rw [hlen b (by simp)]; exact hn

theorem sweepBLoop_spec {n : ℕ} (hn : 2 ≤ n) {best : List (List K)} (hb : Desc n best) (hs : List (List K)) :
    ∀ (done rest st : List (List K)) (g : Front K), best = done ++ rest → StInv g done st → Desc n hs → (∀ l ∈ best, l ∉ hs) →
      (∀ h ∈ hs, ∀ l ∈ done, h.take 2 ≤ l.take 2) → LevB 1 best hs g (sweepBLoop hs rest st g) := by
  induction hs with
  | nil => intro done rest st g _ _ _ _ _; exact levB_none (by simp)
  | cons h hs ih =>
    intro done rest st g he inv hd hdis hpre
    have hdr : Desc n rest := hb.sublist (he ▸ List.sublist_append_right _ _)
    obtain ⟨mid, e, h1, h2, h3⟩ := absorb_spec hn (h := h) rest done st inv hdr.len hdr.lex
    have hbest : best = (done ++ mid) ++ (absorb g h rest st).1 := by rw [List.append_assoc, ← e]; exact he
    have hh := hd.len h (by simp)
    have hlb : ∀ l ∈ best, l.length = n := hb.len
    obtain ⟨b1, b2, b3, b4⟩ := bump_spec h3 h
    have hW : ∀ l ∈ best, (W 1 l h ↔ l ∈ done ++ mid ∧ key 1 h ≤ key 1 l) := by
      intro l hl
      rw [W_one_lex (by rw [hlb l hl]; exact hn) (by rw [hh]; exact hn)]
      constructor
      · rintro ⟨hle, hk⟩
        refine ⟨?_, hk⟩
        rw [hbest, List.mem_append] at hl
        rcases hl with hl | hl
        · exact hl
        · exact absurd hle (h2 l hl)
      · rintro ⟨hm, hk⟩
        refine ⟨?_, hk⟩
        rcases List.mem_append.1 hm with hm | hm
        · exact hpre h (by simp) l hm
        · exact h1 l hm
    have hsub : ∀ l ∈ done ++ mid, l ∈ best := fun l hl => by rw [hbest]; exact List.mem_append_left _ hl
    have hhb : h ∉ best := fun h' => hdis h h' (by simp)
    have hlev : LevB 1 best [h] g (bump g (absorb g h rest st).2 h) := by
      refine ⟨fun s hs' => b1 s (by simpa using hs'), ?_⟩
      intro x hx
      simp only [List.mem_singleton] at hx
      subst hx
      refine ⟨b2, ?_, ?_⟩
      · intro l hl hw
        obtain ⟨hm, hk⟩ := (hW l hl).1 hw
        exact b3 l hm hk
      · rcases b4 with c | ⟨u, hu, hk, e'⟩
        · exact Or.inl c
        · exact Or.inr ⟨u, hsub u hu, (hW u (hsub u hu)).2 ⟨hu, hk⟩, e'⟩
    have hnd := List.nodup_cons.1 hd.nodup
    have hlx := List.pairwise_cons.1 hd.lex
    have := ih (done ++ mid) (absorb g h rest st).1 (absorb g h rest st).2 (bump g (absorb g h rest st).2 h) hbest
      (h3.congr (fun u hu => b1 u (fun e' => hhb (e' ▸ hsub u hu)))) (hd.sublist (List.sublist_cons_self _ _))
      (fun l hl h' => hdis l hl (by simp [h'])) ?_
    · refine levB_glueH hlev this (by simp) ?_ hdis
      intro x hx hx'
      simp only [List.mem_singleton] at hx
      subst hx
      exact hnd.1 hx'
    · intro h' hh' l hl
      have hle : h'.take 2 ≤ h.take 2 := lex_take_two (by rw [hd.len h' (by simp [hh'])]; exact hn) (by rw [hh]; exact hn) (hlx.1 h' hh')
      refine hle.trans ?_
      rcases List.mem_append.1 hl with hm | hm
      · exact hpre h (by simp) l hm
      · exact h1 l hm

theorem sweepB_spec {n : ℕ} (hn : 2 ≤ n) {best worst : List (List K)} (g : Front K) (hb : Desc n best) (hw : Desc n worst)
    (hdis : ∀ l ∈ best, l ∉ worst) : LevB 1 best worst g (sweepB best worst g) :=
  sweepBLoop_spec hn hb worst [] best [] g rfl ⟨by simp, by simp, by simp⟩ hw hdis (by simp)

/-! ### The helpers -/

theorem helperB_spec {n : ℕ} (fuel : ℕ) : ∀ (best worst : List (List K)) (obj : ℕ) (g : Front K), 1 ≤ obj → obj < n → Desc n best → Desc n worst →
    (∀ l ∈ best, l ∉ worst) → obj + best.length + worst.length ≤ fuel →
    ∃ g', helperB fuel best worst obj g = .ok g' ∧ LevB obj best worst g g' := by
  induction fuel with
  | zero => intro best worst obj g h1 _ _ _ _ hf; omega
  | succ fuel ih =>
    intro best worst obj g h1 hobj hb hw hdis hf
    unfold helperB
    by_cases c1 : worst.length = 0 ∨ best.length = 0
    · rw [if_pos c1]
      refine ⟨g, rfl, levB_none ?_⟩
      intro l hl x hx
      rcases c1 with c | c
      · rw [List.length_eq_zero_iff] at c; rw [c] at hx; simp at hx
      · rw [List.length_eq_zero_iff] at c; rw [c] at hl; simp at hl
    rw [if_neg c1]
    by_cases c2 : best.length = 1 ∨ worst.length = 1
    · rw [if_pos c2]
      exact ⟨_, rfl, direct_spec worst g (fun l hl => by rw [hb.len l hl]; exact hobj) (fun l hl => by rw [hw.len l hl]; exact hobj) hw.nodup hdis⟩
    rw [if_neg c2]
    by_cases c3 : obj = 1
    · rw [if_pos c3, c3]
      exact ⟨_, rfl, sweepB_spec (by omega) g hb hw hdis⟩
    rw [if_neg c3]
    dsimp only
    obtain ⟨o, rfl⟩ : ∃ o, obj = o + 1 := ⟨obj - 1, by omega⟩
    rw [Nat.add_sub_cancel]
    by_cases c4 : ∀ l ∈ best, ∀ h ∈ worst, key (o + 1) l ≥ key (o + 1) h
    · rw [if_pos c4]
      obtain ⟨g', e, hl⟩ := ih best worst o g (by omega) (by omega) hb hw hdis (by omega)
      refine ⟨g', e, levB_congr hl ?_⟩
      intro l hl' x hx
      rw [W_succ]
      exact ⟨fun h => ⟨h, c4 l hl' x hx⟩, fun h => h.1⟩
    rw [if_neg c4]
    by_cases c5 : ∃ l ∈ best, ∃ h ∈ worst, key (o + 1) l ≥ key (o + 1) h
    · rw [if_pos c5]
      have hne : best ≠ [] ∧ worst ≠ [] := by
        constructor
        · intro h; apply c1; right; rw [h]; rfl
        · intro h; apply c1; left; rw [h]; rfl
      have sp := splitB_spec best worst (o + 1) hne
      generalize (splitB best worst (o + 1)).1.1 = b1 at sp ⊢
      generalize (splitB best worst (o + 1)).1.2 = b2 at sp ⊢
      generalize (splitB best worst (o + 1)).2.1 = w1 at sp ⊢
      generalize (splitB best worst (o + 1)).2.2 = w2 at sp ⊢
      have hprop := sp.proper (by
        intro hall
        apply c4
        intro l hl h hh
        exact le_of_eq (hall h (Or.inr hh) l (Or.inl hl)))
      have hlens := sp.lens
      have db1 := hb.sublist sp.subb.1
      have db2 := hb.sublist sp.subb.2
      have dw1 := hw.sublist sp.subw.1
      have dw2 := hw.sublist sp.subw.2
      have hdis' : ∀ l, l ∈ b1 ∨ l ∈ b2 → l ∉ w1 ∧ l ∉ w2 := by
        intro l hl
        have := hdis l ((sp.memb l).2 hl)
        rw [sp.memw] at this
        push Not at this
        exact this
      obtain ⟨g1, e1, l1⟩ := ih b1 w1 (o + 1) g h1 hobj db1 dw1 (fun l hl => (hdis' l (Or.inl hl)).1) (by omega)
      obtain ⟨g2, e2, l2⟩ := ih b1 w2 o g1 (by omega) (by omega) db1 dw2 (fun l hl => (hdis' l (Or.inl hl)).2) (by omega)
      obtain ⟨g3, e3, l3⟩ := ih b2 w2 (o + 1) g2 h1 hobj db2 dw2 (fun l hl => (hdis' l (Or.inr hl)).2) (by omega)
      rw [e1]
      dsimp only
      rw [e2]
      dsimp only
      rw [e3]
      refine ⟨g3, rfl, ?_⟩
      have l2' : LevB (o + 1) b1 w2 g1 g2 := by
        refine levB_congr l2 ?_
        intro l hl x hx
        rw [W_succ]
        exact ⟨fun h => ⟨h, le_of_lt (sp.lt l (Or.inl hl) x (Or.inr hx))⟩, fun h => h.1⟩
      have lw2 : LevB (o + 1) best w2 g1 g3 := by
        refine levB_glueL l2' l3 sp.memb ?_
        intro l hl
        exact (hdis' l ((sp.memb l).1 hl)).2
      have lw1 : LevB (o + 1) best w1 g g1 := by
        refine levB_glueL l1 (levB_none (L := b2) ?_) sp.memb ?_
        · intro l hl x hx hcon
          have h' := sp.lt x (Or.inr hx) l (Or.inl hl)
          exact absurd (W_succ.1 hcon).2 (not_le.2 h')
        · intro l hl
          exact (hdis' l ((sp.memb l).1 hl)).1
      refine levB_glueH lw1 lw2 sp.memw ?_ hdis
      intro x hx1 hx2
      exact absurd (sp.lt x (Or.inr hx1) x (Or.inr hx2)) (lt_irrefl _)
    · rw [if_neg c5]
      refine ⟨g, rfl, levB_none ?_⟩
      intro l hl x hx hcon
      exact c5 ⟨l, hl, x, hx, (W_succ.1 hcon).2⟩

theorem D_succ_of_eq {m : ℕ} {a b : List K} (h : key (m + 1) a = key (m + 1) b) : D (m + 1) a b ↔ D m a b := by
  unfold D
  rw [W_succ]
  constructor
  · rintro ⟨⟨h1, _⟩, i, hi, hne⟩
    refine ⟨h1, i, ?_, hne⟩
    rcases Nat.lt_or_ge i (m + 1) with h' | h'
    · omega
    · have : i = m + 1 := by omega
      rw [this] at hne
      exact absurd h.symm hne
  · rintro ⟨h1, i, hi, hne⟩
    exact ⟨⟨h1, le_of_eq h.symm⟩, i, by omega, hne⟩

theorem D_succ_of_lt {m : ℕ} {a b : List K} (h : key (m + 1) b < key (m + 1) a) : D (m + 1) a b ↔ W m a b := by
  unfold D
  rw [W_succ]
  constructor
  · rintro ⟨⟨h1, _⟩, _⟩
    exact h1
  · intro h1
    exact ⟨⟨h1, le_of_lt h⟩, m + 1, le_refl _, ne_of_lt h⟩

theorem helperA_spec {n : ℕ} (fuel : ℕ) : ∀ (l : List (List K)) (obj : ℕ) (g : Front K), 1 ≤ obj → obj < n → Desc n l → Apart obj l →
    obj + l.length ≤ fuel → ∃ g', helperA fuel l obj g = .ok g' ∧ LevA obj l g g' := by
  induction fuel with
  | zero => intro l obj g h1 _ _ _ hf; omega
  | succ fuel ih =>
    intro l obj g h1 hobj hd ha hf
    unfold helperA
    by_cases c1 : l.length < 2
    · rw [if_pos c1]
      refine ⟨g, rfl, fun _ _ => rfl, ?_⟩
      intro s hs
      refine ⟨le_refl _, ?_, Or.inl rfl⟩
      intro t ht hdom
      match l, c1, hs, ht with
      | [x], _, hs, ht =>
        simp only [List.mem_singleton] at hs ht
        subst hs; subst ht
        exact absurd hdom (D_irrefl _ _)
    rw [if_neg c1]
    by_cases c2 : l.length = 2
    · rw [if_pos c2]
      match l, c2, hd, ha with
      | [s1, s2], _, hd, ha =>
        simp only [List.getD_cons_zero, List.getD_cons_succ]
        have hl1 := hd.len s1 (by simp)
        have hl2 := hd.len s2 (by simp)
        have hlex : s2 ≤ s1 := (List.pairwise_cons.1 hd.lex).1 s2 (by simp)
        have hne : s1 ≠ s2 := by
          have := hd.nodup
          simp at this
          exact this
        have h21 : ¬ D obj s2 s1 := not_D_of_lex (by rw [hl1, hl2]) hlex (by omega)
        have base : LevA obj [s1] g g := by
          refine ⟨fun _ _ => rfl, ?_⟩
          intro s hs
          refine ⟨le_refl _, ?_, Or.inl rfl⟩
          intro t ht hdom
          simp only [List.mem_singleton] at hs ht
          subst hs; subst ht
          exact absurd hdom (D_irrefl _ _)
        have hiff := isDominated_take (a := s1) (b := s2) (m := obj) (by omega) (by omega)
        have hnm : s2 ∉ [s1] := by simpa using hne.symm
        by_cases hdm : D obj s1 s2
        · rw [if_pos (hiff.2 hdm)]
          refine ⟨_, rfl, levA_snoc (done := [s1]) (f := s2) base hnm (D_irrefl _ _) (by simpa using h21) ?_ ?_ ?_ ?_⟩
          · intro s hs
            exact Function.update_of_ne hs _ _
          · rw [Function.update_self]; exact le_max_left _ _
          · intro t ht _
            simp only [List.mem_singleton] at ht
            subst ht
            rw [Function.update_self]
            have := le_max_right (g s2) (g t + 1)
            omega
          · rw [Function.update_self]
            rcases le_total (g s2) (g s1 + 1) with h' | h'
            · exact Or.inr ⟨s1, by simp, hdm, max_eq_right h'⟩
            · exact Or.inl (max_eq_left h')
        · rw [if_neg (fun h' => hdm (hiff.1 h'))]
          refine ⟨_, rfl, levA_snoc (done := [s1]) (f := s2) base hnm (D_irrefl _ _) (by simpa using h21) (fun _ _ => rfl) (le_refl _) ?_ (Or.inl rfl)⟩
          intro t ht hd'
          simp only [List.mem_singleton] at ht
          subst ht
          exact absurd hd' hdm
    rw [if_neg c2]
    by_cases c3 : obj = 1
    · rw [if_pos c3]
      subst c3
      exact ⟨_, rfl, sweepA_spec (by omega) g hd ha⟩
    rw [if_neg c3]
    dsimp only
    obtain ⟨o, rfl⟩ : ∃ o, obj = o + 1 := ⟨obj - 1, by omega⟩
    rw [Nat.add_sub_cancel]
    by_cases c4 : ∀ f ∈ l, key (o + 1) f = key (o + 1) (l.getD 0 [])
    · rw [if_pos c4]
      have heq : ∀ a ∈ l, ∀ b ∈ l, key (o + 1) a = key (o + 1) b := fun a ha' b hb' => by rw [c4 a ha', c4 b hb']
      have ha' : Apart o l := by
        refine List.Pairwise.imp_of_mem ?_ ha
        rintro a b ham hbm ⟨i, hi, hne⟩
        refine ⟨i, ?_, hne⟩
        rcases Nat.lt_or_ge i (o + 1) with h' | h'
        · omega
        · have : i = o + 1 := by omega
          rw [this] at hne
          exact absurd (heq a ham b hbm) hne
      obtain ⟨g', e, hl⟩ := ih l o g (by omega) (by omega) hd ha' (by omega)
      refine ⟨g', e, hl.1, ?_⟩
      intro s hs
      obtain ⟨a, b, c⟩ := hl.2 s hs
      refine ⟨a, fun t ht h' => b t ht ((D_succ_of_eq (heq t ht s hs)).1 h'), ?_⟩
      rcases c with c | ⟨t, ht, h', e'⟩
      · exact Or.inl c
      · exact Or.inr ⟨t, ht, (D_succ_of_eq (heq t ht s hs)).2 h', e'⟩
    rw [if_neg c4]
    have hne : l ≠ [] := by
      intro h
      apply c1
      rw [h]
      simp
    have sp := splitA_spec l (o + 1) hne
    generalize (splitA l (o + 1)).1 = best at sp ⊢
    generalize (splitA l (o + 1)).2 = worst at sp ⊢
    have hprop := sp.proper (by
      intro hall
      apply c4
      intro f hf'
      refine hall f (Or.inl hf') _ (Or.inl ?_)
      cases l with
      | nil => simp at hf'
      | cons x l => simp)
    have hlens := sp.lens
    simp only [List.length_nil, add_zero] at hprop hlens
    have db := hd.sublist sp.subb.1
    have dw := hd.sublist sp.subb.2
    have ab : Apart (o + 1) best := List.Pairwise.sublist sp.subb.1 ha
    have aw : Apart (o + 1) worst := List.Pairwise.sublist sp.subb.2 ha
    have hlt : ∀ x ∈ best, ∀ y ∈ worst, key (o + 1) y < key (o + 1) x := fun x hx y hy => sp.lt x (Or.inl hx) y (Or.inl hy)
    have hdis : ∀ x ∈ best, x ∉ worst := fun x hx hy => absurd (hlt x hx x hy) (lt_irrefl _)
    obtain ⟨g1, e1, l1⟩ := ih best (o + 1) g h1 hobj db ab (by omega)
    obtain ⟨g2, e2, l2⟩ := helperB_spec fuel best worst o g1 (by omega) (by omega) db dw hdis (by omega)
    obtain ⟨g3, e3, l3⟩ := ih worst (o + 1) g2 h1 hobj dw aw (by omega)
    rw [e1]
    dsimp only
    rw [e2]
    dsimp only
    rw [e3]
    refine ⟨g3, rfl, ?_, ?_⟩
    · intro s hs
      rw [sp.memb] at hs
      push Not at hs
      rw [l3.1 s hs.2, l2.1 s hs.2, l1.1 s hs.1]
    · have hb3 : ∀ s ∈ best, g3 s = g1 s := fun s hs => by rw [l3.1 s (hdis s hs), l2.1 s (hdis s hs)]
      have hw1 : ∀ s ∈ worst, g1 s = g s := fun s hs => l1.1 s (fun h => hdis s h hs)
      intro s hs
      rcases (sp.memb s).1 hs with hs | hs
      · obtain ⟨a, b, c⟩ := l1.2 s hs
        rw [hb3 s hs]
        refine ⟨a, ?_, ?_⟩
        · intro t ht hd'
          rcases (sp.memb t).1 ht with ht | ht
          · rw [hb3 t ht]; exact b t ht hd'
          · exact absurd (hd'.1 (o + 1) (le_refl _)) (not_le.2 (hlt s hs t ht))
        · rcases c with c | ⟨t, ht, hd', e⟩
          · exact Or.inl c
          · exact Or.inr ⟨t, (sp.memb t).2 (Or.inl ht), hd', by rw [hb3 t ht]; exact e⟩
      · obtain ⟨a3, b3, c3'⟩ := l3.2 s hs
        obtain ⟨a2, b2, c2'⟩ := l2.2 s hs
        rw [hw1 s hs] at a2 c2'
        refine ⟨a2.trans a3, ?_, ?_⟩
        · intro t ht hd'
          rcases (sp.memb t).1 ht with ht | ht
          · rw [hb3 t ht]
            exact lt_of_lt_of_le (b2 t ht ((D_succ_of_lt (hlt t ht s hs)).1 hd')) a3
          · exact b3 t ht hd'
        · rcases c3' with c3' | ⟨t, ht, hd', e⟩
          · rcases c2' with c2' | ⟨t, ht, hw', e⟩
            · exact Or.inl (c3'.trans c2')
            · exact Or.inr ⟨t, (sp.memb t).2 (Or.inl ht), (D_succ_of_lt (hlt t ht s hs)).2 hw', by rw [hb3 t ht, c3', e]⟩
          · exact Or.inr ⟨t, (sp.memb t).2 (Or.inr ht), hd', e⟩

/-! ### The whole sort -/

theorem mem_fitnesses (vals : List (List K)) (f : List K) : f ∈ fitnesses vals ↔ f ∈ vals := by
  unfold fitnesses
  rw [(sortDesc_perm id vals.dedup).mem_iff, List.mem_dedup]

theorem fitnesses_desc {vals : List (List K)} {n : ℕ} (h : ∀ v ∈ vals, v.length = n) : Desc n (fitnesses vals) :=
  ⟨fun x hx => h x ((mem_fitnesses vals x).1 hx), sortDesc_sorted id vals.dedup,
    ((sortDesc_perm id vals.dedup).nodup_iff).2 (List.nodup_dedup _)⟩

theorem ext_key {a b : List K} {n : ℕ} (ha : a.length = n) (hb : b.length = n) (h : ∀ i < n, key i a = key i b) : a = b := by
  apply List.ext_getElem?
  intro i
  rcases Nat.lt_or_ge i n with h' | h'
  · rw [key_getElem? (by omega), key_getElem? (by omega), h i h']
  · rw [List.getElem?_eq_none (by omega), List.getElem?_eq_none (by omega)]

theorem fitnesses_apart {vals : List (List K)} {m : ℕ} (h : ∀ v ∈ vals, v.length = m + 1) : Apart m (fitnesses vals) := by
  have hd := fitnesses_desc h
  refine List.Pairwise.imp_of_mem ?_ hd.nodup
  intro a b ha hb hne
  by_contra hcon
  push Not at hcon
  exact hne (ext_key (hd.len a ha) (hd.len b hb) (fun i hi => hcon i (by omega)))

theorem exists_index {vals : List (List K)} {v : List K} (h : v ∈ vals) : ∃ i < vals.length, val vals i = v := by
  obtain ⟨i, hi, e⟩ := List.getElem_of_mem h
  refine ⟨i, hi, ?_⟩
  unfold val
  rw [List.getD_eq_getElem?_getD, List.getElem?_eq_getElem hi]
  exact e

/-- The front numbers are the ranks. -/
theorem levA_rank {vals : List (List K)} {m : ℕ} (hv : ∀ v ∈ vals, v.length = m + 1) {front : Front K}
    (h : LevA m (fitnesses vals) (fun _ => 0) front) {i r : ℕ} (hi : i < vals.length) : HasChain vals r i ↔ r ≤ front (val vals i) := by
  induction r generalizing i with
  | zero => exact ⟨fun _ => Nat.zero_le _, fun _ => hi⟩
  | succ r ih =>
    have hmi := val_mem hi
    obtain ⟨_, h2, h3⟩ := h.2 (val vals i) ((mem_fitnesses _ _).2 hmi)
    constructor
    · rintro ⟨j, hj, hc⟩
      have hmj := val_mem hj.1
      have := h2 (val vals j) ((mem_fitnesses _ _).2 hmj) ((dominates_key (hv _ hmj) (hv _ hmi)).1 hj.2.2)
      have := (ih hj.1).1 hc
      omega
    · intro hr
      rcases h3 with h3 | ⟨t, ht, hd, e⟩
      · rw [h3] at hr; exact absurd hr (by simp)
      · obtain ⟨j, hj, rfl⟩ := exists_index ((mem_fitnesses _ _).1 ht)
        refine ⟨j, ⟨hj, hi, (dominates_key (hv _ (val_mem hj)) (hv _ hmi)).2 hd⟩, (ih hj).2 (by omega)⟩

theorem mem_group (vals : List (List K)) (f : List K) (i : ℕ) : i ∈ group vals f ↔ i < vals.length ∧ val vals i = f := by
  simp [group]

theorem mem_frontAt (vals : List (List K)) (front : Front K) (r i : ℕ) : i ∈ frontAt vals front r ↔ i < vals.length ∧ front (val vals i) = r := by
  simp only [frontAt, List.mem_flatMap, List.mem_filter, decide_eq_true_eq, mem_group, mem_fitnesses]
  constructor
  · rintro ⟨f, ⟨_, h1⟩, h2, h3⟩
    rw [h3]
    exact ⟨h2, h1⟩
  · rintro ⟨h1, h2⟩
    exact ⟨val vals i, ⟨val_mem h1, h2⟩, h1, rfl⟩

theorem frontAt_nodup (vals : List (List K)) (front : Front K) (r : ℕ) : (frontAt vals front r).Nodup := by
  unfold frontAt
  rw [List.nodup_flatMap]
  refine ⟨fun f _ => List.nodup_range.filter _, ?_⟩
  have hn : (fitnesses vals).Nodup := ((sortDesc_perm id vals.dedup).nodup_iff).2 (List.nodup_dedup _)
  refine List.Pairwise.imp ?_ (hn.filter _)
  intro a b hab i hia hib
  exact hab (((mem_group _ _ _).1 hia).2.symm.trans ((mem_group _ _ _).1 hib).2)

theorem cut_spec (k : ℕ) (F : List (List ℕ)) : ∀ c, (cut k c F).IsPrefix F ∧
    (k ≤ c + (cut k c F).flatten.length ∨ cut k c F = F) ∧ (∀ R, 1 ≤ R → R < (cut k c F).length → c + ((cut k c F).take R).flatten.length < k) ∧
    (F ≠ [] → cut k c F ≠ []) := by
  induction F with
  | nil => intro c; simp [cut]
  | cons f F ih =>
    intro c
    rw [cut]
    by_cases h : c + f.length ≥ k
    · rw [if_pos h]
      refine ⟨⟨F, rfl⟩, Or.inl (by simpa using h), ?_, by simp⟩
      intro R h1 h2
      simp at h2
      omega
    · rw [if_neg h]
      obtain ⟨h1, h2, h3, _⟩ := ih (c + f.length)
      refine ⟨(List.prefix_cons_inj f).2 h1, ?_, ?_, by simp⟩
      · rcases h2 with h2 | h2
        · left; simp only [List.flatten_cons, List.length_append]; omega
        · right; rw [h2]
      · intro R hR1 hR2
        obtain ⟨R', rfl⟩ : ∃ R', R = R' + 1 := ⟨R - 1, by omega⟩
        rw [List.take_succ_cons, List.flatten_cons, List.length_append]
        cases R' with
        | zero => simp; omega
        | succ R' =>
          have := h3 (R' + 1) (by omega) (by simpa using hR2)
          omega

theorem sortLog_spec {vals : List (List K)} {m : ℕ} (hm : 1 ≤ m) (hv : ∀ v ∈ vals, v.length = m + 1) (hne : vals ≠ []) {k : ℕ} (hk : k ≠ 0) :
    ∃ out, sortLog vals k = .ok out ∧ FrontsSpec vals k out ∧ out ≠ [] := by
  have hpos : 0 < vals.length := List.length_pos_iff.2 hne
  have hl : SameLen vals := ⟨m + 1, hv⟩
  have hobj : (val vals 0).length - 1 = m := by rw [hv _ (val_mem hpos)]; rfl
  unfold sortLog
  rw [if_neg hk, if_neg hne]
  dsimp only
  rw [hobj]
  obtain ⟨front, e, hlev⟩ := helperA_spec (m + (fitnesses vals).length) (fitnesses vals) m (fun _ => 0) hm (by omega) (fitnesses_desc hv)
    (fitnesses_apart hv) (le_refl _)
  rw [e]
  dsimp only
  have hrank : ∀ i r, Rank vals i r ↔ i < vals.length ∧ front (val vals i) = r := by
    intro i r
    constructor
    · intro h
      have h1 := (levA_rank hv hlev h.lt).1 h.1
      have h2 : ¬ (r + 1 ≤ front (val vals i)) := fun h' => h.2 ((levA_rank hv hlev h.lt).2 h')
      exact ⟨h.lt, by omega⟩
    · rintro ⟨hi, rfl⟩
      exact ⟨(levA_rank hv hlev hi).2 (le_refl _), fun h' => absurd ((levA_rank hv hlev hi).1 h') (by omega)⟩
  generalize hF : (List.range (maxFront front (fitnesses vals) + 1)).map (frontAt vals front) = F
  have hFmem : ∀ (r : ℕ) (f : List ℕ), F[r]? = some f → ∀ i, i ∈ f ↔ Rank vals i r := by
    intro r f hf i
    rw [← hF, List.getElem?_map] at hf
    rcases Nat.lt_or_ge r (maxFront front (fitnesses vals) + 1) with h | h
    · rw [List.getElem?_range h] at hf
      have := Option.some.inj hf
      rw [← this, mem_frontAt, hrank]
    · rw [List.getElem?_eq_none (by simpa using h)] at hf
      cases hf
  have hFlen : F.length = maxFront front (fitnesses vals) + 1 := by rw [← hF]; simp
  have hFnd : ∀ f ∈ F, f.Nodup := by
    intro f hf
    rw [← hF, List.mem_map] at hf
    obtain ⟨r, _, rfl⟩ := hf
    exact frontAt_nodup _ _ _
  have hall : ∀ i < vals.length, i ∈ F.flatten := by
    intro i hi
    rw [mem_flatten_iff hFmem]
    refine ⟨front (val vals i), ?_, (hrank _ _).2 ⟨hi, rfl⟩⟩
    have := le_maxFront front ((mem_fitnesses vals _).2 (val_mem hi))
    omega
  have hFtot : vals.length ≤ F.flatten.length := by
    have := (List.subperm_of_subset List.nodup_range (fun i hi => hall i (List.mem_range.1 hi))).length_le
    rwa [List.length_range] at this
  obtain ⟨c1, c2, c3, c4⟩ := cut_spec k F 0
  refine ⟨_, rfl, ⟨?_, ?_, ?_, ?_⟩, c4 (by intro h; rw [h] at hFlen; simp at hFlen)⟩
  · intro r f hf
    obtain ⟨X, hX⟩ := c1
    apply hFmem r f
    rw [← hX]
    have := (List.getElem?_eq_some_iff.1 hf).1
    rw [List.getElem?_append_left this]
    exact hf
  · intro f hf
    exact hFnd f (c1.subset hf)
  · rcases c2 with c2 | c2
    · omega
    · rw [c2]; omega
  · intro R hR1 hR2
    have h1 := c3 R hR1 hR2
    have h2 : ((cut k 0 F).take R).flatten.length < vals.length := by
      -- front `R` is not empty
      have hRF : R < F.length := lt_of_lt_of_le hR2 c1.length_le
      obtain ⟨t, ht, et⟩ := maxFront_mem front (l := fitnesses vals) (by
        intro h
        have := (mem_fitnesses vals _).2 (val_mem hpos)
        rw [h] at this
        simp at this)
      obtain ⟨i, hi, rfl⟩ := exists_index ((mem_fitnesses _ _).1 ht)
      obtain ⟨j, hj⟩ := rank_gap hl ((hrank i _).2 ⟨hi, rfl⟩) (show R ≤ front (val vals i) by omega)
      have htake : (cut k 0 F).take R = F.take R := by
        obtain ⟨X, hX⟩ := c1
        conv_rhs => rw [← hX]
        rw [List.take_append_of_le_length (le_of_lt hR2)]
      rw [htake]
      have hTmem : ∀ (r : ℕ) (f : List ℕ), (F.take R)[r]? = some f → ∀ i, i ∈ f ↔ Rank vals i r := by
        intro r f hf
        apply hFmem r f
        rcases Nat.lt_or_ge r R with h | h
        · rwa [List.getElem?_take_of_lt h] at hf
        · rw [List.getElem?_eq_none (by rw [List.length_take]; omega)] at hf
          cases hf
      have hnd := fronts_flatten_nodup hTmem (fun f hf => hFnd f (List.mem_of_mem_take hf))
      have hjn : j ∉ (F.take R).flatten := by
        rw [mem_flatten_iff hTmem]
        rintro ⟨r, hr, hr'⟩
        have := hr'.unique hj
        rw [List.length_take] at hr
        omega
      have hsub : (j :: (F.take R).flatten) ⊆ List.range vals.length := by
        intro q hq
        rcases List.mem_cons.1 hq with rfl | hq
        · exact List.mem_range.2 hj.lt
        · obtain ⟨r, _, hr⟩ := (mem_flatten_iff hTmem q).1 hq
          exact List.mem_range.2 hr.lt
      have := (List.subperm_of_subset (List.nodup_cons.2 ⟨hjn, hnd⟩) hsub).length_le
      simp only [List.length_cons, List.length_range] at this
      omega
    omega

end
end Neorl.ND

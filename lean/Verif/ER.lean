import Verif.Sort
import Verif.Replay
import Mathlib.Algebra.BigOperators.Group.List.Basic
import Mathlib.Algebra.Order.BigOperators.Group.List

/-!
# Experience memory of PESA

Model of `neorl/hybrid/pesacore/er.py`.  A sample `(x, obj)` or `(x, obj, method)` is an element of a type `β` with decidable equality, of
which the code uses the vector (`xOf`) and the objective (`obj`).  Vectors are Python lists (comparing numpy arrays with `in`
would raise).
-/

set_option linter.unusedSectionVars false
set_option linter.unusedVariables false

namespace Neorl.ER

variable {β X K : Type} [DecidableEq β] [DecidableEq X] [Field K] [LinearOrder K] [IsStrictOrderedRing K]

/-- `__init__`, lines 27-34. -/
structure Mem (β : Type) where
  size : ℕ
  storage : List β
  next : ℕ

/-- `ExperienceReplay(size)`. -/
def new (size : ℕ) : Mem β := ⟨size, [], 0⟩

/-- Insert one sample, lines 97-102 (the same body is at 83-88). -/
def addOne (m : Mem β) (x : β) : Py (Mem β) :=
  if x ∈ m.storage then .ok m
  else
    let st := if m.next ≥ m.storage.length then m.storage ++ [x] else m.storage.set m.next x
    if m.size = 0 then .error .zeroDivision else .ok { m with storage := st, next := (m.next + 1) % m.size }

/-- `add` with a list of samples, lines 75-88. -/
def add (m : Mem β) : List β → Py (Mem β)
  | [] => .ok m
  | x :: xs =>
    match addOne m x with
    | .error e => .error e
    | .ok m' => add m' xs

/-- The in-place sort of lines 113 and 137. -/
def sortMem (obj : β → K) (m : Mem β) : Mem β := { m with storage := sortDesc obj m.storage }

/-- `calc_priorities`, lines 104-118: `pw r = r ** alpha`.  The assertion of line 117 (`round(sum) == 1`) fails on the empty memory
only (`C39_priorities`); numpy rounds half to even, on exact sums 0 and 1 this is the identity. -/
def priorities (pw : K → K) (n : ℕ) : Py (List K) :=
  let ranks := (List.range n).map (fun i : ℕ => pw (1 / ((i : K) + 1)))
  let priors := ranks.map (fun r => r / ranks.sum)
  if priors.sum = 1 then .ok priors else .error .assertion

/-- Read the samples at the given positions. -/
def gather (st : List β) : List ℕ → Py (List β)
  | [] => .ok []
  | i :: is =>
    match st[i]?, gather st is with
    | some x, .ok xs => .ok (x :: xs)
    | none, _ => .error .indexError
    | _, .error e => .error e

/-- `sample(mode='uniform')`, lines 132-134: `idxs` are the draws `randint(0, len - 1)`, which raises `ValueError` when empty. -/
def sampleUniform (m : Mem β) (idxs : List ℕ) : Py (List β) :=
  if m.storage = [] ∧ idxs ≠ [] then .error .valueError else gather m.storage idxs

/-- `sample(mode='greedy')`, lines 135-138: sorts the memory in place. -/
def sampleGreedy (obj : β → K) (m : Mem β) (batch : ℕ) : Mem β × List β :=
  let m' := sortMem obj m
  (m', m'.storage.take batch)

/-- `sample(mode='prior')`, lines 139-143: `idxs` are the draws of `np.random.choice`. -/
def samplePrior (obj : β → K) (pw : K → K) (m : Mem β) (idxs : List ℕ) : Py (Mem β × List β) :=
  let m' := sortMem obj m
  match priorities pw m'.storage.length with
  | .error e => .error e
  | .ok _ =>
    match gather m'.storage idxs with
    | .error e => .error e
    | .ok xs => .ok (m', xs)

/-- The list comprehension of `remove_duplicates`, lines 151-159. -/
def dedupBy (xOf : β → X) : List X → List β → List β
  | _, [] => []
  | seen, b :: l => if xOf b ∈ seen then dedupBy xOf seen l else b :: dedupBy xOf (seen ++ [xOf b]) l

/-- `remove_duplicates`, lines 147-161 (`self.storage[0]` raises on the empty memory). -/
def removeDuplicates (xOf : β → X) (m : Mem β) : Py (Mem β) :=
  if m.storage = [] then .error .indexError else .ok { m with storage := dedupBy xOf [] m.storage }

/-- Public mutations. -/
inductive Op (β : Type)
  | add (xs : List β)
  | greedy
  | prior
  | removeDuplicates

/-- One mutation (`prior` sampling sorts the memory before it can fail). -/
def step (obj : β → K) (xOf : β → X) (m : Mem β) : Op β → Py (Mem β)
  | .add xs => add m xs
  | .greedy => .ok (sortMem obj m)
  | .prior => .ok (sortMem obj m)
  | .removeDuplicates => removeDuplicates xOf m

/-- A history of mutations. -/
def run (obj : β → K) (xOf : β → X) (m : Mem β) : List (Op β) → Py (Mem β)
  | [] => .ok m
  | o :: os =>
    match step obj xOf m o with
    | .error e => .error e
    | .ok m' => run obj xOf m' os

/-! ### Lemmas -/

/-- Invariant of the memory. -/
structure Inv (size : ℕ) (m : Mem β) : Prop where
  sz : m.size = size
  lt : m.next < size
  le : m.storage.length ≤ size
  nodup : m.storage.Nodup

theorem addOne_inv {size : ℕ} (hs : 0 < size) {m : Mem β} (h : Inv size m) (x : β) : ∃ m', addOne m x = .ok m' ∧ Inv size m' := by
  obtain ⟨h1, h2, h3, h4⟩ := h
  unfold addOne
  by_cases hx : x ∈ m.storage
  · exact ⟨m, by rw [if_pos hx], ⟨h1, h2, h3, h4⟩⟩
  · rw [if_neg hx, if_neg (by omega)]
    refine ⟨_, rfl, ⟨h1, ?_, ?_, ?_⟩⟩
    · simp only [h1]; exact Nat.mod_lt _ hs
    · simp only
      split_ifs with hc
      · simp only [List.length_append, List.length_singleton]; omega
      · simpa using h3
    · simp only
      split_ifs with hc
      · rw [List.nodup_append]
        refine ⟨h4, by simp, ?_⟩
        intro a ha b hb
        rw [List.mem_singleton.1 hb]
        rintro rfl; exact hx ha
      · exact List.Nodup.set h4 hx

theorem add_inv {size : ℕ} (hs : 0 < size) {xs : List β} {m : Mem β} (h : Inv size m) : ∃ m', add m xs = .ok m' ∧ Inv size m' := by
  induction xs generalizing m with
  | nil => exact ⟨m, rfl, h⟩
  | cons x xs ih =>
    obtain ⟨m1, h1, h2⟩ := addOne_inv hs h x
    obtain ⟨m2, h3, h4⟩ := ih h2
    exact ⟨m2, by simp only [add, h1, h3], h4⟩

theorem dedupBy_spec (xOf : β → X) : ∀ (l : List β) (seen : List X), (dedupBy xOf seen l).Sublist l ∧
    ((dedupBy xOf seen l).map xOf).Nodup ∧ (∀ b ∈ dedupBy xOf seen l, xOf b ∉ seen) ∧
    ∀ b ∈ l, xOf b ∈ seen ∨ xOf b ∈ (dedupBy xOf seen l).map xOf := by
  intro l
  induction l with
  | nil => intro seen; simp [dedupBy]
  | cons a l ih =>
    intro seen
    simp only [dedupBy]
    split_ifs with h
    · obtain ⟨h1, h2, h3, h4⟩ := ih seen
      refine ⟨h1.cons a, h2, h3, ?_⟩
      intro b hb
      rcases List.mem_cons.1 hb with rfl | hb
      · exact Or.inl h
      · exact h4 b hb
    · obtain ⟨h1, h2, h3, h4⟩ := ih (seen ++ [xOf a])
      refine ⟨h1.cons_cons a, ?_, ?_, ?_⟩
      · rw [List.map_cons, List.nodup_cons]
        refine ⟨?_, h2⟩
        intro hc
        obtain ⟨b, hb, he⟩ := List.mem_map.1 hc
        exact h3 b hb (by simp [he])
      · intro b hb
        rcases List.mem_cons.1 hb with rfl | hb
        · exact h
        · intro hc; exact h3 b hb (by simp [hc])
      · intro b hb
        rcases List.mem_cons.1 hb with rfl | hb
        · right; simp
        · rcases h4 b hb with hh | hh
          · rcases List.mem_append.1 hh with hh | hh
            · exact Or.inl hh
            · right; rw [List.mem_singleton.1 hh]; simp
          · right; rw [List.map_cons]; exact List.mem_cons_of_mem _ hh

theorem step_inv (obj : β → K) (xOf : β → X) {size : ℕ} (hs : 0 < size) {m m' : Mem β} (h : Inv size m) {o : Op β}
    (hst : step obj xOf m o = .ok m') : Inv size m' := by
  cases o with
  | add xs =>
    obtain ⟨m2, h1, h2⟩ := add_inv hs h (xs := xs)
    simp only [step, h1, Except.ok.injEq] at hst
    rw [← hst]; exact h2
  | greedy =>
    simp only [step, Except.ok.injEq] at hst
    rw [← hst]
    exact ⟨h.sz, h.lt, by simpa [sortMem] using h.le, (sortDesc_perm obj m.storage).nodup_iff.2 h.nodup⟩
  | prior =>
    simp only [step, Except.ok.injEq] at hst
    rw [← hst]
    exact ⟨h.sz, h.lt, by simpa [sortMem] using h.le, (sortDesc_perm obj m.storage).nodup_iff.2 h.nodup⟩
  | removeDuplicates =>
    simp only [step, removeDuplicates] at hst
    split_ifs at hst
    simp only [Except.ok.injEq] at hst
    rw [← hst]
    have := (dedupBy_spec xOf m.storage []).1
    exact ⟨h.sz, h.lt, this.length_le.trans h.le, this.nodup h.nodup⟩

theorem run_inv (obj : β → K) (xOf : β → X) {size : ℕ} (hs : 0 < size) {ops : List (Op β)} {m m' : Mem β} (h : Inv size m)
    (hr : run obj xOf m ops = .ok m') : Inv size m' := by
  induction ops generalizing m with
  | nil => simp only [run] at hr; cases hr; exact h
  | cons o os ih =>
    simp only [run] at hr
    split at hr
    · cases hr
    · rename_i m1 h1
      exact ih (step_inv obj xOf hs h h1) hr

end Neorl.ER

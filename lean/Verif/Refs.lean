import Verif.Py
import Mathlib.Algebra.Order.Field.Basic
import Mathlib.Data.Nat.Choose.Sum
import Mathlib.Data.List.Nodup
import Mathlib.Data.List.Range
import Mathlib.Tactic.FieldSimp
import Mathlib.Tactic.Ring
import Mathlib.Tactic.Linarith
import Mathlib.Algebra.BigOperators.Group.List.Basic

/-!
# The reference points of NSGA-III

Model of `uniform_reference_points`, `neorl/multi/tools.py` lines 514-541.
-/

set_option linter.unusedSectionVars false
set_option linter.unusedVariables false

namespace Neorl.ND

section
variable {K : Type} [Field K] [LinearOrder K] [IsStrictOrderedRing K]

/-- `gen_refs_recursive`, lines 525-534; the first number is `nobj - 1 - depth`. -/
def genRefs (total : ℕ) : ℕ → List K → ℕ → ℕ → List (List K)
  | 0, ref, left, depth => [ref.set depth ((left : K) / (total : K))]
  | rem + 1, ref, left, depth =>
    (List.range (left + 1)).flatMap fun i : ℕ => genRefs total rem (ref.set depth ((i : K) / (total : K))) (left - i) (depth + 1)

/-- `uniform_reference_points(nobj, p, scaling)`, lines 514-541.  `nobj = 0` writes into an empty array, `p = 0` divides by zero. -/
def refPoints (nobj p : ℕ) (scaling : Option K) : Py (List (List K)) :=
  if p = 0 then .error .zeroDivision else
  match nobj with
  | 0 => .error .indexError
  | m + 1 =>
    let pts := genRefs p m (List.replicate (m + 1) (0 : K)) p 0
    match scaling with
    | none => .ok pts
    | some s => .ok (pts.map fun v => v.map fun x => x * s + (1 - s) / ((m + 1 : ℕ) : K))

/-- Compositions of `l` into `m + 1` natural numbers, in lexicographic order. -/
def comps : ℕ → ℕ → List (List ℕ)
  | 0, l => [[l]]
  | m + 1, l => (List.range (l + 1)).flatMap fun i => (comps m (l - i)).map fun c => i :: c

theorem mem_comps {m l : ℕ} {c : List ℕ} : c ∈ comps m l ↔ c.length = m + 1 ∧ c.sum = l := by
  induction m generalizing l c with
  | zero =>
    rw [comps, List.mem_singleton]
    constructor
    · rintro rfl; simp
    · rintro ⟨h1, h2⟩
      obtain ⟨a, rfl⟩ := List.length_eq_one_iff.1 h1
      simp at h2
      rw [h2]
  | succ m ih =>
    rw [comps, List.mem_flatMap]
    constructor
    · rintro ⟨i, hi, h⟩
      obtain ⟨c', hc', rfl⟩ := List.mem_map.1 h
      obtain ⟨h1, h2⟩ := ih.1 hc'
      have := List.mem_range.1 hi
      simp only [List.length_cons, List.sum_cons]
      omega
    · rintro ⟨h1, h2⟩
      cases c with
      | nil => simp at h1
      | cons a c =>
        rw [List.length_cons] at h1
        rw [List.sum_cons] at h2
        exact ⟨a, List.mem_range.2 (by omega), List.mem_map.2 ⟨c, ih.2 ⟨by omega, by omega⟩, rfl⟩⟩

theorem comps_nodup (m l : ℕ) : (comps m l).Nodup := by
  induction m generalizing l with
  | zero => simp [comps]
  | succ m ih =>
    rw [comps, List.nodup_flatMap]
    refine ⟨fun i _ => (ih _).map (fun a b h => (List.cons.inj h).2), ?_⟩
    refine List.Pairwise.imp_of_mem ?_ List.nodup_range
    intro a b _ _ hab c h1 h2
    obtain ⟨c1, _, rfl⟩ := List.mem_map.1 h1
    obtain ⟨c2, _, h⟩ := List.mem_map.1 h2
    exact hab (List.cons.inj h).1.symm

theorem length_comps (m l : ℕ) : (comps m l).length = (l + m).choose m := by
  induction m generalizing l with
  | zero => simp [comps]
  | succ m ih =>
    rw [comps, List.length_flatMap]
    simp only [List.length_map, ih]
    have h1 : ((List.range (l + 1)).map fun i => (l - i + m).choose m).sum = ∑ i ∈ Finset.range (l + 1), (l - i + m).choose m := rfl
    rw [h1, Finset.sum_range_reflect (fun i => (l - i + m).choose m) (l + 1) |>.symm]
    have h2 : ∑ j ∈ Finset.range (l + 1), (l - (l + 1 - 1 - j) + m).choose m = ∑ j ∈ Finset.range (l + 1), (j + m).choose m := by
      apply Finset.sum_congr rfl
      intro j hj
      have := Finset.mem_range.1 hj
      rw [show l - (l + 1 - 1 - j) = j by omega]
    rw [h2, Nat.sum_range_add_choose]
    rfl

theorem genRefs_eq (total m : ℕ) (ref : List K) (l depth : ℕ) (h : ref.length = depth + m + 1) :
    genRefs total m ref l depth = (comps m l).map fun c => ref.take depth ++ c.map fun n : ℕ => (n : K) / (total : K) := by
  induction m generalizing ref l depth with
  | zero =>
    rw [genRefs, comps, List.map_singleton, List.map_singleton]
    rw [List.set_eq_take_append_cons_drop, if_pos (by omega), List.drop_eq_nil_of_le (by omega)]
  | succ m ih =>
    rw [genRefs, comps, List.map_flatMap]
    congr 1
    funext i
    rw [ih _ _ _ (by rw [List.length_set]; omega), List.map_map]
    apply List.map_congr_left
    intro c _
    simp only [Function.comp, List.map_cons]
    rw [List.take_add_one, List.take_set_of_le (le_refl _), List.getElem?_set_self (by omega)]
    simp

end

end Neorl.ND

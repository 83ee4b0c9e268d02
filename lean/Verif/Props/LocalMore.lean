import Verif.LocalMore
import Verif.Props.Local
import Verif.Props.HCLPSO

/-!
# C143: a run depends on the fitness only through the evaluations it makes (HCLPSO, EPSO, EDEV, NSGA)
-/

set_option linter.unusedSectionVars false
set_option linter.unusedVariables false

namespace Neorl

variable {K : Type} [Field K] [LinearOrder K] [IsStrictOrderedRing K] [FloorRing K]

/-- `evolute` after the check of the initial guesses. -/
theorem HCLPSO.finish_reads {S : Space K} {g1 g2 ngen : ℕ} {pc : ℕ → K} {m : Bool} {D0 : Draws0 K} {D : ℕ → Draws K} {f g : List K → K} {r : Result K}
    (h : evolute S g1 g2 ngen pc m f none D0 D = .ok r) (hl : ∀ x ∈ r.log0 ++ r.log, f x = g x) : evolute S g1 g2 ngen pc m g none D0 D = .ok r := by
  simp only [evolute] at h ⊢
  rw [if_neg Bool.false_ne_true] at h ⊢
  split at h
  · cases h
  rename_i s0 hs0
  split at h
  · cases h
  rename_i s hs
  split at h
  · cases h
  rename_i b hb
  cases h
  have ha : Agree S (EDEV.worker S m f) (EDEV.worker S m g) (s.log0 ++ s.log) := agree_worker hl
  obtain ⟨_, h0, _⟩ := start_local hs0 (fun x _ => rfl : Agree S _ (EDEV.worker S m f) _)
  obtain ⟨a, e, c⟩ := run_local h0 hs ha
  rw [(start_local hs0 (ha.mono fun x hx => List.mem_append_left _ (e ▸ hx))).1]
  dsimp only
  rw [a]
  dsimp only
  rw [hb]
  simp only [Except.ok.injEq, Result.mk.injEq, true_and, and_true]
  exact List.map_congr_left fun p hp => by rw [ha p (c p hp)]

/-- **C143, HCLPSO.** -/
theorem HCLPSO.C143_reads (S : Space K) (g1 g2 ngen : ℕ) (pc : ℕ → K) (m : Bool) (x0 : Option (List (List K))) (D0 : Draws0 K) (D : ℕ → Draws K) :
    ReadsOnly (fun f : List K → K => evolute S g1 g2 ngen pc m f x0 D0 D) (fun r => r.log0 ++ r.log) := by
  intro f g r h hl
  have key := finish_reads (S := S) (g1 := g1) (g2 := g2) (ngen := ngen) (pc := pc) (m := m) (D0 := D0) (D := D) (f := f) (g := g) (r := r)
  rcases x0 with _ | l
  case none => exact key h hl
  case some =>
    simp only [evolute] at h key ⊢
    rw [if_neg Bool.false_ne_true, if_neg Bool.false_ne_true] at key
    split at h
    · cases h
    rename_i hx
    rw [if_neg hx]
    exact key h hl

/-- **C143, EPSO.** -/
theorem EPSO.C143_reads (C : Cfg K) (pc : ℕ → K) (m : Bool) (x0 : List (List K)) (v0 : ℕ → ℕ → K) (D0 : Draws K) (D : ℕ → Draws K) :
    ReadsOnly (fun f : List K → K => evolute C pc m f x0 v0 D0 D) (fun r => r.log) := by
  intro f g r h hl
  simp only [evolute] at h ⊢
  split at h
  · cases h
  rename_i hx
  rw [if_neg hx]
  split at h
  · cases h
  rename_i s0 hs0
  split at h
  · cases h
  rename_i s hs
  split at h
  · cases h
  rename_i hn
  cases h
  have ha : Agree C.S (EDEV.worker C.S m f) (EDEV.worker C.S m g) s.log := agree_worker hl
  obtain ⟨_, h0⟩ := start_local hs0 (fun x _ => rfl : Agree C.S _ (EDEV.worker C.S m f) _)
  obtain ⟨⟨a, b⟩, c⟩ := run_local (g := EDEV.worker C.S m g) h0 hs
  rw [(start_local hs0 (ha.mono a)).1]
  dsimp only
  rw [c ha]
  dsimp only
  rw [if_neg hn]
  simp only [Except.ok.injEq, Result.mk.injEq, true_and, and_true]
  exact List.map_congr_left fun p hp => by rw [ha p (b p hp)]

/-- **C143, EDEV.** -/
theorem EDEV.C143_reads (S : Space K) (hS : BoundsOK S.bounds) (npop ngen ng : ℕ) (m : Bool) (x0 : List (List K)) (d0 d1 : ℕ → ℕ → K × ℕ) (perm0 : List ℕ) (D : ℕ → Draws K) :
    ReadsOnly (fun f : List K → K => evolute S npop ngen ng m f x0 d0 d1 perm0 D) (fun r => r.logged ++ r.extra) := by
  intro f g r h hl
  simp only [evolute] at h ⊢
  split at h
  · cases h
  rename_i C hC
  have hCS : C.S = S := by
    unfold configure at hC
    split_ifs at hC <;> cases hC <;> rfl
  split at h
  · cases h
  rename_i hx
  rw [if_neg hx]
  split at h
  · cases h
  rename_i s0 hs0
  split at h
  · cases h
  rename_i s hs
  cases h
  have ha : Agree C.S (EDEV.worker S m f) (EDEV.worker S m g) (s.log ++ s.extra) := hCS ▸ agree_worker hl
  obtain ⟨⟨a, b⟩, c⟩ := run_local (g := EDEV.worker S m g) (hCS ▸ hS) hs
  rw [start_local (hCS ▸ hS) hs0 (ha.mono fun x hx => by
    rcases List.mem_append.1 hx with hx | hx
    · exact List.mem_append_left _ (a x hx)
    · exact List.mem_append_right _ (b ▸ hx))]
  dsimp only
  rw [c (ha.mono fun x hx => List.mem_append_left _ hx)]

section
open Neorl.ND Neorl.ES

/-- **C143, NSGA-II and NSGA-III.** Whatever the selection of the survivors; evaluated are the initial population and the logged points. -/
theorem NSGA.C143_reads (c : Conf K) (m : Bool) (sel : Bool → ℕ → List (List K) → ℕ → Py (List ℕ)) (lg : Bool) (dr : ℕ → ℕ → Draw K) (pop0 : List (List K × List K)) :
    ReadsOnly (fun f : List K → List K => evolute c m sel lg f dr pop0) (fun r => pop0.map Prod.fst ++ r.log) := by
  intro f g r h hl
  simp only [evolute] at h ⊢
  split at h
  · cases h
  rename_i h0
  rw [if_neg h0]
  split at h
  · cases h
  rename_i p1 hp1
  have e1 : f p1.1 = g p1.1 := hl _ (List.mem_append_left _ (List.mem_map.2 ⟨p1, List.mem_of_getElem? hp1, rfl⟩))
  simp only [e1] at h
  split at h
  · cases h
  rename_i s hs
  split at h
  · cases h
  rename_i y hy
  cases h
  rw [run_local (fun x hx => by rw [hl x (List.mem_append_left _ hx)]) hs fun x hx => by rw [hl x (List.mem_append_right _ hx)]]
  dsimp only
  rw [hy]

end

/-! ### Examples -/

/-- The fitness of the example of C56 with another value at a point that is not evaluated: the same run; with another value at an evaluated point the run differs. -/
example : (match HCLPSO.evolute HCLPSO.exS 2 1 2 HCLPSO.exPc true HCLPSO.exFit none HCLPSO.exD0 HCLPSO.exD,
      HCLPSO.evolute HCLPSO.exS 2 1 2 HCLPSO.exPc true (fun x => if x = [9, 5] then -1000 else HCLPSO.exFit x) none HCLPSO.exD0 HCLPSO.exD,
      HCLPSO.evolute HCLPSO.exS 2 1 2 HCLPSO.exPc true (fun x => if x = [-10, 1] then -1000 else HCLPSO.exFit x) none HCLPSO.exD0 HCLPSO.exD with
    | .ok r, .ok r', .ok r'' => decide (r.x = r'.x ∧ r.y = r'.y ∧ r.log = r'.log ∧ (r.log0 ++ r.log).length = 9 ∧ (r.global ≠ r''.global ∨ r.mem.gval ≠ r''.mem.gval))
    | _, _, _ => false) = true := by decide +kernel

example : BoundsOK HCLPSO.exS.bounds := HCLPSO.exS_ok.ordered

end Neorl

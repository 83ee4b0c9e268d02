import Verif.Local
import Verif.WOA
import Verif.SSA
import Verif.Props.CS
import Verif.Props.DE
import Verif.Props.TS
import Mathlib.Logic.Function.Basic
import Mathlib.Data.Set.Finite.Basic

/-!
# C143: a run depends on the fitness only through the evaluations it makes

Every optimizer below records (as a ghost field) the points at which it calls the user's fitness.  Proved here: two fitness functions with the same values at the recorded points
give the same run, to the last field of the result.  So a run can be replayed from a table of its evaluations, a cache in front of an expensive fitness is safe, and no run says
anything about a point it did not evaluate: whatever it returns, the fitness could have been better there.
-/

set_option linter.unusedSectionVars false
set_option linter.unusedVariables false

namespace Neorl

section
variable {K : Type} [Field K] [LinearOrder K] [IsStrictOrderedRing K] [FloorRing K]

/-- **C143, DE.** -/
theorem DE.C143_reads (c : Conf K) (m : Bool) (dr : ℕ → ℕ → Draw K) (rl : ℕ → List (ℕ × List K)) (pop0 : List (List K)) :
    ReadsOnly (fun f : List K → K => evolute c m f dr rl pop0) (fun r => r.log) := by
  intro f g r h hl
  simp only [evolute] at h ⊢
  split at h
  · cases h
  rename_i s hs
  have key : s.log = r.log := by
    split at h
    · cases h
    split at h <;> cases h <;> rfl
  simp only [← key] at hl
  rw [run_local hs (g := if m = true then fun x => -g x else g) (by intro x hx; cases m <;> simp [hl x hx])]
  exact h

/-- **C143, JAYA.** -/
theorem JAYA.C143_reads (c : Conf K) (m : Bool) (dr : ℕ → ℕ → Draw K) (pos0 : List (List K)) :
    ReadsOnly (fun f : List K → K => evolute c m f dr pos0) (fun r => r.log) := by
  intro f g r h hl
  simp only [evolute] at h ⊢
  split at h
  · cases h
  rename_i h0
  rw [if_neg h0]
  split at h
  · cases h
  rename_i s hs
  have key : s.log = r.log := by
    split at h
    · cases h
    split at h <;> cases h
    rfl
  simp only [← key] at hl
  rw [run_local hs (g := fun x => sgn (!m) (g x)) (by intro x hx; simp [hl x hx])]
  exact h

/-- **C143, GWO.** -/
theorem GWO.C143_reads (c : Conf K) (m : Bool) (dr : ℕ → Draw K) (pos0 : List (List K)) :
    ReadsOnly (fun f : List K → K => evolute c m f dr pos0) (fun r => r.log) := by
  intro f g r h hl
  simp only [evolute] at h ⊢
  split at h
  · cases h
  rename_i h0
  rw [if_neg h0]
  split at h
  · cases h
  rename_i s hs
  have key : s.log = r.log := by split at h <;> cases h; rfl
  simp only [← key] at hl
  rw [run_local hs (g := fun x => sgn m (g x)) (by intro x hx; simp [hl x hx])]
  exact h

theorem Swarm.reads (S : Space K) (n ngen : ℕ) (mv : Move K) (m : Bool) (pos0 : List (List K)) :
    ReadsOnly (fun f : List K → K => evolute S n ngen mv m f pos0) (fun r => r.log) := by
  intro f g r h hl
  simp only [evolute] at h ⊢
  split at h
  · cases h
  rename_i h0
  rw [if_neg h0]
  split at h
  · cases h
  rename_i s hs
  split at h
  · cases h
  rename_i h1
  cases h
  obtain ⟨a, b⟩ := run_local hs (g := fun x => sgn m (g x)) (by intro x hx; simp [hl x hx])
  rw [a]
  simp only
  rw [if_neg h1, (List.map_congr_left fun p hp => by rw [hl _ (b p hp)] :
    s.pos.map (fun p => (p, sgn m (sgn m (f (S.clip p))))) = s.pos.map (fun p => (p, sgn m (sgn m (g (S.clip p))))))]

/-- **C143, WOA.** -/
theorem WOA.C143_reads (c : Conf K) (m : Bool) (dr : ℕ → ℕ → Draw K) (pos0 : List (List K)) :
    ReadsOnly (fun f : List K → K => evolute c m f dr pos0) (fun r => r.log) := Swarm.reads _ _ _ _ _ _

/-- **C143, SSA.** -/
theorem SSA.C143_reads (c : Conf K) (m : Bool) (dr : ℕ → ℕ → Draw K) (pos0 : List (List K)) :
    ReadsOnly (fun f : List K → K => evolute c m f dr pos0) (fun r => r.log) := Swarm.reads _ _ _ _ _ _

/-- **C143, CS.** -/
theorem CS.C143_reads (c : Conf K) (m : Bool) (dr : ℕ → Draw K) (pos0 : List (List K)) :
    ReadsOnly (fun f : List K → K => evolute c m f dr pos0) (fun r => r.log) := by
  intro f g r h hl
  simp only [evolute] at h ⊢
  split at h
  · cases h
  rename_i h0
  rw [if_neg h0]
  split at h
  · cases h
  rename_i s hs
  have key : s.log = r.log := by split at h <;> cases h; rfl
  simp only [← key] at hl
  rw [run_local hs (g := fun x => sgn m (g x)) (by intro x hx; simp [hl x hx])]
  exact h

/-- **C143, ACO.** -/
theorem ACO.C143_reads (c : Conf K) (m : Bool) (dr : ℕ → ℕ → ℕ → Draw K) (pos0 : List (List K)) :
    ReadsOnly (fun f : List K → K => evolute c m f dr pos0) (fun r => r.log) := by
  intro f g r h hl
  simp only [evolute] at h ⊢
  split at h
  · cases h
  rename_i h0
  rw [if_neg h0]
  split at h
  · cases h
  rename_i h1
  rw [if_neg h1]
  split at h
  · cases h
  rename_i s hs
  have key : s.log = r.log := by
    split at h
    · cases h
    split at h <;> cases h
    rfl
  simp only [← key] at hl
  rw [run_local hs (g := fun x => sgn m (g x)) (by intro x hx; simp [hl x hx])]
  exact h

/-- **C143, HHO.** The recorded points are those evaluated before the last moves (`early`) and the dives of the last generation. -/
theorem HHO.C143_reads (c : Conf K) (m : Bool) (dr : ℕ → ℕ → Draw K) (pos0 : List (List K)) :
    ReadsOnly (fun f : List K → K => evolute c m f dr pos0) (fun r => r.early ++ r.lastDives) := by
  intro f g r h hl
  simp only [evolute] at h ⊢
  split at h
  · cases h
  rename_i h0
  rw [if_neg h0]
  split at h
  · cases h
  rename_i s hs
  have key : s.early ++ s.dives = r.early ++ r.lastDives := by split at h <;> cases h; rfl
  simp only [← key] at hl
  rw [run_local hs (g := fun x => sgn m (g x)) (by intro x hx; simp only [hl x hx])]
  exact h

/-- **C143, BAT.** The recorded points are the initial population and those of the three stages of every generation. -/
theorem BAT.C143_reads (c : Conf K) (m : Bool) (dr : ℕ → ℕ → Draw K) (pos0 : List (List K)) :
    ReadsOnly (fun f : List K → K => evolute c m f dr pos0) (fun r => r.log0 ++ r.log) := by
  intro f g r h hl
  simp only [evolute] at h ⊢
  split at h
  · cases h
  rename_i h0
  rw [if_neg h0]
  split at h
  · cases h
  rename_i s hs
  split at h
  · cases h
  rename_i y hy
  cases h
  obtain ⟨a, b⟩ := run_local hs (g := fun x => sgn m (g x)) (by intro x hx; simp only [hl x hx])
  rw [a]
  simp only
  rw [hy, (List.map_congr_left fun p hp => by rw [hl _ (b p hp)] :
    s.pos.map (fun p => (p, sgn m (sgn m (f (c.S.clip p))))) = s.pos.map (fun p => (p, sgn m (sgn m (g (c.S.clip p))))))]

/-- **C143, MFO.** -/
theorem MFO.C143_reads (c : Conf K) (m : Bool) (dr : ℕ → ℕ → Draw K) (pos0 : List (List K)) :
    ReadsOnly (fun f : List K → K => evolute c m f dr pos0) (fun r => r.log) := by
  intro f g r h hl
  simp only [evolute] at h ⊢
  split at h
  · cases h
  rename_i h0
  rw [if_neg h0]
  split at h
  · cases h
  rename_i s hs
  have key : s.log = r.log := by split at h <;> cases h; rfl
  simp only [← key] at hl
  rw [run_local hs (g := fun x => sgn m (g x)) (by intro x hx; simp [hl x hx])]
  exact h

/-- **C143, ES.** The points evaluated are the initial population and the recorded offspring. -/
theorem ES.C143_reads (c : Conf K) (m : Bool) (dr : ℕ → ℕ → Draw K) (rl : ℕ → List (List K)) (pop0 : List (List K × List K)) :
    ReadsOnly (fun f : List K → K => evolute c m f dr rl pop0) (fun r => pop0.map Prod.fst ++ r.log) := by
  intro f g r h hl
  simp only [evolute] at h ⊢
  split at h
  · cases h
  rename_i h0
  rw [if_neg h0]
  split at h
  · cases h
  rename_i s hs
  have key : s.log = r.log := by split at h <;> cases h; rfl
  simp only [← key, List.mem_append, List.mem_map] at hl
  rw [run_local (g := fun x => sgn (!m) (g x)) (by intro p hp; simp only [hl p.1 (Or.inl ⟨p, hp, rfl⟩)]) hs (by intro x hx; simp only [hl x (Or.inr hx)])]
  exact h

/-- **C143, PSO.** -/
theorem PSO.C143_reads (c : Conf K) (m : Bool) (dr : ℕ → ℕ → Draw K) (pos0 : List (List K)) :
    ReadsOnly (fun f : List K → K => evolute c m f dr pos0) (fun r => r.log) := by
  intro f g r h hl
  simp only [evolute] at h ⊢
  split at h
  · cases h
  rename_i h0
  rw [if_neg h0]
  split at h
  · cases h
  rename_i s hs
  split at h
  · cases h
  rename_i h1
  cases h
  obtain ⟨a, b⟩ := run_local hs (g := fun x => sgn (!m) (g x)) (by intro x hx; simp only [hl x hx])
  rw [a]
  simp only
  rw [if_neg h1, (List.map_congr_left fun p hp => by rw [hl _ (b p hp)] :
    s.swarm.map (fun p => (p.pos, sgn (!m) (f (c.S.clip p.pos)))) = s.swarm.map (fun p => (p.pos, sgn (!m) (g (c.S.clip p.pos)))))]

/-- **C143, XNES.** The log of the object afterwards. -/
theorem XNES.C143_reads {n : ℕ} (c : Conf K n) (m : Bool) (dr : ℕ → List (Fin n → K)) (ngen : ℕ) (x0 : Fin n → K) (o : Obj K n) :
    ReadsOnly (fun f : List K → K => evolute c m f dr ngen x0 o) (fun r => r.1.log) := by
  intro f g r h hl
  simp only [evolute] at h ⊢
  have key : (run c (fun x => sgn (!m) (f x)) dr { o with mu := x0 } ngen).log = r.1.log := by split at h <;> cases h; rfl
  simp only [← key] at hl
  rw [run_local (f := fun x => sgn (!m) (f x)) (by intro x hx; simp only [hl x hx])]
  exact h

/-- **C143, TS.** -/
theorem TS.C143_reads (c : Conf K) (m : Bool) (dr : ℕ → ℕ → K × ℕ) (x0 : List K) :
    ReadsOnly (fun f : List K → K => evolute c m f dr x0) (fun r => r.log) := by
  intro f g r h hl
  simp only [evolute] at h ⊢
  split at h
  · cases h
  rename_i h0
  rw [if_neg h0]
  split at h
  · cases h
  rename_i s hs
  have key : s.log = r.log := by split at h <;> cases h; rfl
  simp only [← key] at hl
  rw [run_local hs (g := fun x => sgn m (g x)) (by intro x hx; simp [hl x hx])]
  exact h

/-- **C143, SA** (bounds in order: then a clipped candidate is not changed by the second clipping in `fit_worker`). -/
theorem SA.C143_reads (c : Conf K) (hS : BoundsOK c.S.bounds) (m : Bool) (dr : ℕ → GDraw K) (x0 : List (List K)) :
    ReadsOnly (fun f : List K → K => evolute c m f dr x0) (fun r => r.log) := by
  intro f g r h hl
  simp only [evolute] at h ⊢
  split at h
  · cases h
  rename_i h0
  rw [if_neg h0]
  split at h
  · cases h
  rename_i h1
  rw [if_neg h1]
  split at h
  · cases h
  rename_i s hs
  have key : s.log = r.log := by split at h <;> cases h; rfl
  simp only [← key] at hl
  obtain ⟨a, b⟩ := run_log hs
  rw [run_local hs (g := fun x => sgn (!m) (g x)) (by
    intro z hz
    obtain ⟨y, rfl⟩ := b z hz
    have : c.S.clip (c.S.clip y) = c.S.clip y := ensureBounds_idem hS y
    simp only [this, hl _ hz]) (by intro x hx; simp only [hl _ (a x hx)])]
  exact h

end

/-! ### What follows -/

/-- **C143.** A run can be replayed from the table of its evaluations: looking the points up gives the same result, whatever the lookup does elsewhere. -/
theorem C143_replay {X Y R : Type} [DecidableEq X] {run : (X → Y) → Py R} {asked : R → List X} (hr : ReadsOnly run asked) {f : X → Y} {r : R} (h : run f = .ok r)
    (tbl : List (X × Y)) (hs : ∀ e ∈ tbl, e.2 = f e.1) (hc : ∀ x ∈ asked r, ∃ e ∈ tbl, e.1 = x) (other : X → Y) :
    run (fun x => (tbl.lookup x).getD (other x)) = .ok r := by
  refine hr f _ r h fun x hx => ?_
  obtain ⟨e, he, rfl⟩ := hc x hx
  clear hc hx h
  induction tbl with
  | nil => cases he
  | cons a tbl ih =>
    obtain ⟨k, v⟩ := a
    simp only [List.lookup_cons]
    by_cases hk : e.1 = k
    · have hv : v = f k := hs (k, v) (by simp)
      simp [hk, hv]
    · have : (e.1 == k) = false := by simpa using hk
      rw [this]
      refine ih (fun a ha => hs a (by simp [ha])) ?_
      rcases List.mem_cons.1 he with he | he
      · exact absurd (by rw [he]) hk
      · exact he

/-- **C143.** Nothing is learnt about a point that was not evaluated: for any value `v` the same run is made for a fitness which is `v` there and unchanged elsewhere. -/
theorem C143_adversary {X Y R : Type} [DecidableEq X] {run : (X → Y) → Py R} {asked : R → List X} (hr : ReadsOnly run asked) {f : X → Y} {r : R} (h : run f = .ok r)
    {z : X} (hz : z ∉ asked r) (v : Y) : ∃ g : X → Y, g z = v ∧ (∀ x, x ≠ z → g x = f x) ∧ run g = .ok r := by
  refine ⟨Function.update f z v, Function.update_self _ _ _, fun x hx => Function.update_of_ne hx _ _, hr f _ r h fun x hx => ?_⟩
  rw [Function.update_of_ne]
  rintro rfl
  exact hz hx

section
variable {K : Type} [Field K] [LinearOrder K] [IsStrictOrderedRing K] [FloorRing K]

/-- A space with a real variable of positive width has infinitely many points. -/
theorem Space.feasible_infinite {S : Space K} (hS : S.OK) {d : ℕ} {b : K × K} (ht : S.types[d]? = some VType.float) (hb : S.bounds[d]? = some b) (hlt : b.1 < b.2) :
    {x | S.Feasible x}.Infinite := by
  have hd : d < S.bounds.length := (List.getElem?_eq_some_iff.1 hb).1
  refine Set.infinite_of_injective_forall_mem (f := fun n : ℕ => (S.bounds.map Prod.fst).set d (b.1 + (b.2 - b.1) / ((n : K) + 1))) ?_ ?_
  · intro n n' h
    have h1 := congrArg (fun l : List K => l[d]?) h
    simp only [List.getElem?_set, List.length_map, if_pos hd, if_true] at h1
    have h2 : (b.2 - b.1) / ((n : K) + 1) = (b.2 - b.1) / ((n' : K) + 1) := add_left_cancel (Option.some.inj h1)
    have hw : b.2 - b.1 ≠ 0 := (sub_pos.2 hlt).ne'
    have p1 : ((n : K) + 1) ≠ 0 := by positivity
    have p2 : ((n' : K) + 1) ≠ 0 := by positivity
    rw [div_eq_div_iff p1 p2] at h2
    have := mul_left_cancel₀ hw h2
    exact_mod_cast (add_right_cancel this).symm
  · intro n
    have hp : (0 : K) < (n : K) + 1 := by positivity
    have h1 : (1 : K) ≤ (n : K) + 1 := by have : (0 : K) ≤ n := Nat.cast_nonneg n; linarith
    have hw : 0 < b.2 - b.1 := sub_pos.2 hlt
    refine ⟨inBox_of_getElem? (by simp) ?_, ?_⟩
    · intro j x c hx hc
      rw [List.getElem?_set] at hx
      split_ifs at hx with e1 e2
      · subst e1
        rw [hb] at hc
        cases hc
        cases hx
        refine ⟨le_add_of_nonneg_right (div_nonneg hw.le hp.le), ?_⟩
        have : (b.2 - b.1) / ((n : K) + 1) ≤ b.2 - b.1 := div_le_self hw.le h1
        linarith
      · rw [List.getElem?_map, hc] at hx
        cases hx
        exact ⟨le_rfl, hS.ordered c (List.mem_of_getElem? hc)⟩
    · intro j x hj hx
      rw [List.getElem?_set] at hx
      split_ifs at hx with e1 e2
      · subst e1
        rw [ht] at hj
        cases hj
      · rw [List.getElem?_map] at hx
        cases hc : S.bounds[j]? with
        | none => rw [hc] at hx; cases hx
        | some c =>
          rw [hc] at hx
          cases hx
          obtain ⟨l, u, h1, _⟩ := hS.intBounds j c hj hc
          exact ⟨l, h1⟩

/-- **C143.** With a real variable no run proves that its answer is optimal: whatever is returned, there are a feasible point and a fitness that differs from the user's in this one
point only, for which the run is the same and the point is better than the value returned. -/
theorem C143_no_certificate {S : Space K} (hS : S.OK) {d : ℕ} {b : K × K} (ht : S.types[d]? = some VType.float) (hb : S.bounds[d]? = some b) (hlt : b.1 < b.2) {R : Type}
    {run : (List K → K) → Py R} {asked : R → List (List K)} (hr : ReadsOnly run asked) {f : List K → K} {r : R} (h : run f = .ok r) (m : Bool) (y : K) :
    ∃ z, S.Feasible z ∧ ∃ g : List K → K, (∀ x, x ≠ z → g x = f x) ∧ run g = .ok r ∧ ¬ NotWorse m (g z) y := by
  obtain ⟨z, hz, hn⟩ := (S.feasible_infinite hS ht hb hlt).exists_notMem_finset (asked r).toFinset
  obtain ⟨g, e1, e2, e3⟩ := C143_adversary hr h (by simpa using hn) (if m then y - 1 else y + 1)
  refine ⟨z, hz, g, e2, e3, ?_⟩
  rw [e1]
  cases m <;> simp [NotWorse]

end

/-! ### Examples -/

/-- The fitness of the example of C23 with another value at a point that is not evaluated. -/
def CS.exFit' : List ℚ → ℚ := fun x => if x = [0, 0] then -1000 else CS.exFit x

example : (match CS.evolute CS.exC true CS.exFit CS.exDr CS.exPos, CS.evolute CS.exC true CS.exFit' CS.exDr CS.exPos with
    | .ok r, .ok r' => decide (r.log.length = 6 ∧ r.log = r'.log ∧ r.x = r'.x ∧ r.y = r'.y ∧ (∀ x ∈ r.log, CS.exFit x = CS.exFit' x) ∧ CS.exFit' [0, 0] < r.y)
    | _, _ => false) = true := by decide +kernel

/-- Changing the value at an evaluated point does change the run: the hypothesis is needed. -/
example : (match CS.evolute CS.exC true CS.exFit CS.exDr CS.exPos, CS.evolute CS.exC true (fun x => if x = [3, 1] then -1000 else CS.exFit x) CS.exDr CS.exPos with
    | .ok r, .ok r' => decide (r.y ≠ r'.y)
    | _, _ => false) = true := by decide +kernel

example : CS.exS.OK ∧ CS.exS.types[0]? = some VType.float ∧ CS.exS.bounds[0]? = some ((-5 : ℚ), (5 : ℚ)) := ⟨Space.ok_of_okB (by decide +kernel), rfl, rfl⟩

end Neorl

import Verif.Niche

/-!
# C33: niching and the survivor selection of NSGA-III
-/

set_option linter.unusedSectionVars false
set_option linter.unusedVariables false

namespace Neorl.ND

section
variable {K : Type} [Field K] [LinearOrder K] [IsStrictOrderedRing K]

/-- If the front has `k` individuals niching ends and returns exactly `k` different ones, each time from a least occupied niche, the closest one
when the niche is empty. -/
theorem C33_niching {c : NConf K} (hR : ∀ i < c.n, c.niche i < c.R) (hN : ∀ a l, (c.shN a l).Perm l) (hI : ∀ a l, (c.shI a l).Perm l) {k : ℕ}
    (hk : k ≤ c.n) (base : ℕ → ℕ) : ∃ sel, niching c k base = .ok sel ∧ sel.length = k ∧ Greedy c.n c.niche c.dist base sel := by
  obtain ⟨s, h1, h2, h3⟩ := rounds_spec hR hN hI hk (k + 1) (NInv.init c base) (by simp) (by simp)
  refine ⟨s.sel, ?_, h3, h2.greedy⟩
  unfold niching
  rw [h1]

/-- Asking for more than the front has ends in `np.min` of an empty array. -/
theorem C33_too_many {c : NConf K} (hR : ∀ i < c.n, c.niche i < c.R) (hN : ∀ a l, (c.shN a l).Perm l) (hI : ∀ a l, (c.shI a l).Perm l) {k : ℕ}
    (hk : c.n < k) (base : ℕ → ℕ) : niching c k base = .error .valueError := by
  unfold niching
  rw [rounds_none hR hN hI hk (k + 1) (NInv.init c base) (by simp; omega)]

theorem selectIII_eq {log : Bool} {R : ℕ} {assoc : List (List K) → ℕ → ℕ × K} (hR : ∀ v p, (assoc v p).1 < R) {shN shI : ℕ → List ℕ → List ℕ}
    (hN : ∀ a l, (shN a l).Perm l) (hI : ∀ a l, (shI a l).Perm l) {vals : List (List K)} {m : ℕ} (hv : ∀ v ∈ vals, v.length = m)
    (hlog : log = true → 2 ≤ m) (hne : vals ≠ []) {k : ℕ} (hk : k ≠ 0) (hkn : k ≤ vals.length) :
    ∃ (init : List (List ℕ)) (last sel : List ℕ), FrontsSpec vals k (init ++ [last]) ∧
      selectIII log R assoc shN shI vals k = .ok (init.flatten ++ sel.map fun p => last.getD p 0) ∧ init.flatten.length + sel.length = k ∧
      Greedy last.length (fun p => (assoc ((init ++ [last]).flatten.map (val vals)) (init.flatten.length + p)).1)
        (fun p => (assoc ((init ++ [last]).flatten.map (val vals)) (init.flatten.length + p)).2)
        (fun q => ((List.range init.flatten.length).map fun p => (assoc ((init ++ [last]).flatten.map (val vals)) p).1).count q) sel := by
  obtain ⟨fronts, h1, h2, h3⟩ := ndSort_spec hv hlog hne hk
  obtain ⟨init, last, rfl⟩ : ∃ init last, fronts = init ++ [last] := ⟨fronts.dropLast, fronts.getLast h3, (List.dropLast_append_getLast h3).symm⟩
  have hc := selectSpec_of hk hne h2
  have hle : init.flatten.length ≤ k := by
    rcases Nat.eq_zero_or_pos init.length with h0 | h0
    · have : init = [] := List.length_eq_zero_iff.1 h0
      subst this
      rw [List.flatten_nil, List.length_nil]
      omega
    · have := h2.least init.length h0 (by simp)
      rw [List.take_left] at this
      omega
  obtain ⟨sel, e1, e2, e3⟩ := C33_niching (c := { n := last.length, R := R, niche := fun p => (assoc ((init ++ [last]).flatten.map (val vals)) (init.flatten.length + p)).1, dist := fun p => (assoc ((init ++ [last]).flatten.map (val vals)) (init.flatten.length + p)).2, shN := shN, shI := shI })
    (fun i _ => hR _ _) hN hI (k := k - init.flatten.length) (by show k - init.flatten.length ≤ last.length; omega)
    (fun q => ((List.range init.flatten.length).map fun p => (assoc ((init ++ [last]).flatten.map (val vals)) p).1).count q)
  refine ⟨init, last, sel, h2, ?_, by omega, e3⟩
  unfold selectIII
  rw [h1]
  simp only [List.dropLast_concat, List.getLast?_concat]
  rw [e1]

/-- NSGA-III selection returns exactly `k` different individuals, whole fronts in order. -/
theorem C33_select {log : Bool} {R : ℕ} {assoc : List (List K) → ℕ → ℕ × K} (hR : ∀ v p, (assoc v p).1 < R) {shN shI : ℕ → List ℕ → List ℕ}
    (hN : ∀ a l, (shN a l).Perm l) (hI : ∀ a l, (shI a l).Perm l) {vals : List (List K)} {m : ℕ} (hv : ∀ v ∈ vals, v.length = m)
    (hlog : log = true → 2 ≤ m) (hne : vals ≠ []) {k : ℕ} (hk : k ≠ 0) (hkn : k ≤ vals.length) :
    ∃ out, selectIII log R assoc shN shI vals k = .ok out ∧ SelectSpec vals k out ∧ out.length = k := by
  obtain ⟨init, last, sel, h1, h2, h3, h4⟩ := selectIII_eq hR hN hI hv hlog hne hk hkn
  have hln := h1.nodup last (by simp)
  refine ⟨_, h2, selectSpec_mk ⟨m, hv⟩ h1 ?_ ?_ ?_, by rw [List.length_append, List.length_map]; exact h3⟩
  · refine List.Nodup.map_on ?_ h4.nodup
    intro a ha b hb hab
    rw [List.getD_eq_getElem?_getD, List.getD_eq_getElem?_getD, List.getElem?_eq_getElem (h4.lt a ha), List.getElem?_eq_getElem (h4.lt b hb)] at hab
    exact (List.Nodup.getElem_inj_iff hln).1 hab
  · intro i hi
    obtain ⟨p, hp, rfl⟩ := List.mem_map.1 hi
    rw [List.getD_eq_getElem?_getD, List.getElem?_eq_getElem (h4.lt p hp)]
    exact List.getElem_mem _
  · rw [List.length_map]
    omega

/-- Nobody who is kept is dominated by somebody who is dropped. -/
theorem C33_elitist {log : Bool} {R : ℕ} {assoc : List (List K) → ℕ → ℕ × K} (hR : ∀ v p, (assoc v p).1 < R) {shN shI : ℕ → List ℕ → List ℕ}
    (hN : ∀ a l, (shN a l).Perm l) (hI : ∀ a l, (shI a l).Perm l) {vals : List (List K)} {m : ℕ} (hv : ∀ v ∈ vals, v.length = m)
    (hlog : log = true → 2 ≤ m) (hne : vals ≠ []) {k : ℕ} (hk : k ≠ 0) (hkn : k ≤ vals.length) {out : List ℕ}
    (h : selectIII log R assoc shN shI vals k = .ok out) : ∀ i ∈ out, ∀ j < vals.length, Dominates (val vals j) (val vals i) → j ∈ out := by
  obtain ⟨out', h1, hs, _⟩ := C33_select hR hN hI hv hlog hne hk hkn
  rw [h] at h1
  cases h1
  intro i hi j hj hd
  exact hs.dominators ⟨m, hv⟩ hk ⟨hj, hs.lt i hi, hd⟩ (Or.inl hi)

/-- The individuals taken from the last front are a greedy niche-preserving choice: occupation counts start from the individuals of the whole fronts. -/
theorem C33_niche_choice {log : Bool} {R : ℕ} {assoc : List (List K) → ℕ → ℕ × K} (hR : ∀ v p, (assoc v p).1 < R) {shN shI : ℕ → List ℕ → List ℕ}
    (hN : ∀ a l, (shN a l).Perm l) (hI : ∀ a l, (shI a l).Perm l) {vals : List (List K)} {m : ℕ} (hv : ∀ v ∈ vals, v.length = m)
    (hlog : log = true → 2 ≤ m) (hne : vals ≠ []) {k : ℕ} (hk : k ≠ 0) (hkn : k ≤ vals.length) {out : List ℕ}
    (h : selectIII log R assoc shN shI vals k = .ok out) :
    ∃ (init : List (List ℕ)) (last sel : List ℕ), FrontsSpec vals k (init ++ [last]) ∧ out = init.flatten ++ sel.map (fun p => last.getD p 0) ∧
      Greedy last.length (fun p => (assoc ((init ++ [last]).flatten.map (val vals)) (init.flatten.length + p)).1)
        (fun p => (assoc ((init ++ [last]).flatten.map (val vals)) (init.flatten.length + p)).2)
        (fun q => ((List.range init.flatten.length).map fun p => (assoc ((init ++ [last]).flatten.map (val vals)) p).1).count q) sel := by
  obtain ⟨init, last, sel, h1, h2, h3, h4⟩ := selectIII_eq hR hN hI hv hlog hne hk hkn
  rw [h] at h2
  exact ⟨init, last, sel, h1, Except.ok.inj h2, h4⟩

end

/-! ### Example: five individuals in three niches, niche 1 already holds one -/

def exNiche : NConf ℚ where
  n := 5
  R := 4
  niche := fun p => [0, 0, 1, 3, 3].getD p 0
  dist := fun p => [2, 1, 0, 5, 4].getD p 0
  shN := fun _ l => l.reverse
  shI := fun _ l => l.reverse

/-- First round: empty niches 3 and 0, closest individuals 4 and 1; second round: all niches hold one. -/
example : niching exNiche 4 (fun q => if q = 1 then 1 else 0) = .ok [4, 1, 3, 2] := by decide +kernel

example : (∀ i < exNiche.n, exNiche.niche i < exNiche.R) ∧ (∀ a l, (exNiche.shN a l).Perm l) ∧ 4 ≤ exNiche.n :=
  ⟨by decide, fun _ l => List.reverse_perm l, by decide⟩

example : niching exNiche 6 (fun q => if q = 1 then 1 else 0) = .error .valueError := by decide +kernel

end Neorl.ND

import Verif.Crowd
import Mathlib.Data.Finset.Max

/-!
# C30, C31: the survivor selection of NSGA-II and its crowding distance
-/

set_option linter.unusedSectionVars false
set_option linter.unusedVariables false

namespace Neorl.ND

section
variable {K : Type} [Field K] [LinearOrder K] [IsStrictOrderedRing K]

/-- The distances of a non-empty front: infinite for the extremes of an order by each objective, the sum of the normalised neighbour gaps for
everybody else. -/
theorem C31_crowding {vals : List (List K)} {m : ℕ} (hne : vals ≠ []) (hv : ∀ v ∈ vals, v.length = m) :
    ∃ d, CrowdSpec m vals d ∧ crowding vals = some ((List.range vals.length).map d) := crowding_spec hne hv

/-- No distance is negative. -/
theorem C31_nonneg {vals : List (List K)} {m : ℕ} {d : ℕ → WithTop K} (h : CrowdSpec m vals d) : ∀ j < vals.length, 0 ≤ d j := by
  obtain ⟨ord, h1, h2⟩ := h
  intro j hj
  by_cases he : ∃ i < m, Extreme (ord i) j
  · rw [(h2 j hj).1 he]
    exact le_top
  · push Not at he
    obtain ⟨g, hg, hgap⟩ := (h2 j hj).2 he
    rw [hg]
    have : (0 : K) ≤ ∑ i ∈ Finset.range m, g i := Finset.sum_nonneg fun i hi =>
      (hgap i (Finset.mem_range.1 hi)).nonneg (h1 i (Finset.mem_range.1 hi)).2
    exact_mod_cast this

/-- Each objective has a best and a worst individual of infinite distance. -/
theorem C31_extremes {vals : List (List K)} {m : ℕ} (hne : vals ≠ []) {d : ℕ → WithTop K} (h : CrowdSpec m vals d) {i : ℕ} (hi : i < m) :
    (∃ a < vals.length, d a = ⊤ ∧ ∀ j < vals.length, obj vals i j ≤ obj vals i a) ∧
    (∃ a < vals.length, d a = ⊤ ∧ ∀ j < vals.length, obj vals i a ≤ obj vals i j) := by
  obtain ⟨ord, h1, h2⟩ := h
  obtain ⟨hp, hs⟩ := h1 i hi
  have hon : ord i ≠ [] := by
    intro e
    have := hp.length_eq
    rw [e, List.length_range, List.length_nil] at this
    exact hne (List.length_eq_zero_iff.1 this.symm)
  rw [List.pairwise_iff_getElem] at hs
  have hall : ∀ j < vals.length, ∃ (q : ℕ) (hq : q < (ord i).length), (ord i)[q] = j := fun j hj =>
    List.mem_iff_getElem.1 (hp.mem_iff.2 (List.mem_range.2 hj))
  have hpos := List.length_pos_iff.2 hon
  refine ⟨⟨(ord i)[(ord i).length - 1], List.mem_range.1 (hp.mem_iff.1 (List.getElem_mem _)), ?_, ?_⟩,
    ⟨(ord i)[0], List.mem_range.1 (hp.mem_iff.1 (List.getElem_mem _)), ?_, ?_⟩⟩
  · exact (h2 _ (List.mem_range.1 (hp.mem_iff.1 (List.getElem_mem _)))).1
      ⟨i, hi, Or.inr (by rw [List.getLast?_eq_getElem?, List.getElem?_eq_getElem])⟩
  · intro j hj
    obtain ⟨q, hq, rfl⟩ := hall j hj
    rcases Nat.lt_or_ge q ((ord i).length - 1) with hlt | hge
    · exact hs q _ hq (by omega) hlt
    · have : q = (ord i).length - 1 := by omega
      subst this
      exact le_rfl
  · exact (h2 _ (List.mem_range.1 (hp.mem_iff.1 (List.getElem_mem _)))).1
      ⟨i, hi, Or.inl (by rw [List.head?_eq_getElem?, List.getElem?_eq_getElem])⟩
  · intro j hj
    obtain ⟨q, hq, rfl⟩ := hall j hj
    rcases Nat.eq_zero_or_pos q with h0 | h0
    · subst h0
      exact le_rfl
    · exact hs 0 q (by omega) hq h0

/-- At most two individuals per objective have infinite distance. -/
theorem C31_top_count {vals : List (List K)} {m : ℕ} {d : ℕ → WithTop K} (h : CrowdSpec m vals d) {l : List ℕ} (hn : l.Nodup)
    (hl : ∀ j ∈ l, j < vals.length ∧ d j = ⊤) : l.length ≤ 2 * m := h.top_count hn hl

/-- Selection never fails on a non-empty population; it returns `min k n` different individuals, whole fronts in order.  The log sort needs two
objectives. -/
theorem C30_select {log : Bool} {vals : List (List K)} {m : ℕ} (hv : ∀ v ∈ vals, v.length = m) (hlog : log = true → 2 ≤ m) (hne : vals ≠ []) {k : ℕ}
    (hk : k ≠ 0) : ∃ out, selectII log vals k = .ok out ∧ SelectSpec vals k out := by
  obtain ⟨init, last, d, h1, h2, h3, h4, h5⟩ := selectII_eq hv hlog hne hk
  refine ⟨_, h5, selectSpec_mk ⟨m, hv⟩ h1 (part_nodup (h1.nodup last (by simp)) d _) ?_ ?_⟩
  · intro i hi
    obtain ⟨p, _, hp⟩ := mem_part hi
    exact List.mem_of_getElem? hp
  · rw [List.length_map, List.length_take, length_sortDesc, List.length_range]
    exact h4

/-- Elitism: nobody who is kept is dominated by somebody who is dropped. -/
theorem C30_elitist {log : Bool} {vals : List (List K)} {m : ℕ} (hv : ∀ v ∈ vals, v.length = m) (hlog : log = true → 2 ≤ m) (hne : vals ≠ []) {k : ℕ}
    (hk : k ≠ 0) {out : List ℕ} (h : selectII log vals k = .ok out) :
    ∀ i ∈ out, ∀ j < vals.length, Dominates (val vals j) (val vals i) → j ∈ out := by
  obtain ⟨out', h1, hs⟩ := C30_select hv hlog hne hk
  rw [h] at h1
  cases h1
  intro i hi j hj hd
  exact hs.dominators ⟨m, hv⟩ hk ⟨hj, hs.lt i hi, hd⟩ (Or.inl hi)

/-- If the non-dominated individuals fit into the new population all of them are kept. -/
theorem C30_first_front {log : Bool} {vals : List (List K)} {m : ℕ} (hv : ∀ v ∈ vals, v.length = m) (hlog : log = true → 2 ≤ m) (hne : vals ≠ []) {k : ℕ}
    (hk : k ≠ 0) {out f : List ℕ} (h : selectII log vals k = .ok out)
    (hf : ∀ i, i ∈ f ↔ i < vals.length ∧ ∀ j < vals.length, ¬ Dominates (val vals j) (val vals i)) (hfk : f.length ≤ k) : ∀ i ∈ f, i ∈ out := by
  obtain ⟨out', h1, hs⟩ := C30_select hv hlog hne hk
  rw [h] at h1
  cases h1
  have hf0 : ∀ i, i ∈ f ↔ Rank vals i 0 := by
    intro i
    rw [hf, rank_zero_iff]
    exact ⟨fun ⟨a, b⟩ => ⟨a, fun j hj => b j hj.1 hj.2.2⟩, fun ⟨a, b⟩ => ⟨a, fun j hj hd => b j ⟨hj, a, hd⟩⟩⟩
  intro i hi
  by_contra hcon
  have hi0 := (hf0 i).1 hi
  have hall : ∀ a ∈ out, a ∈ f := by
    intro a ha
    obtain ⟨r, hr⟩ := rank_exists ⟨m, hv⟩ (hs.lt a ha)
    rcases Nat.eq_zero_or_pos r with h0 | h0
    · rw [h0] at hr
      exact (hf0 a).2 hr
    · exact absurd (hs.whole a ha i r 0 hr hi0 h0) hcon
  have hsub : (i :: out) ⊆ f := by
    intro a ha
    rcases List.mem_cons.1 ha with rfl | ha
    · exact hi
    · exact hall a ha
  have h3 := (List.subperm_of_subset (List.nodup_cons.2 ⟨hcon, hs.nodup⟩) hsub).length_le
  have h4 : (i :: out).length ≤ vals.length := by
    have : (i :: out) ⊆ List.range vals.length := fun a ha => List.mem_range.2 ((hf a).1 (hsub ha)).1
    simpa using (List.subperm_of_subset (List.nodup_cons.2 ⟨hcon, hs.nodup⟩) this).length_le
  rw [List.length_cons, hs.length] at h3 h4
  omega

/-- Of two individuals of the same front, one kept and one dropped, the kept one has at least the crowding distance of the other. -/
theorem C30_crowding {log : Bool} {vals : List (List K)} {m : ℕ} (hv : ∀ v ∈ vals, v.length = m) (hlog : log = true → 2 ≤ m) (hne : vals ≠ []) {k : ℕ}
    (hk : k ≠ 0) {out : List ℕ} (h : selectII log vals k = .ok out) {r i j : ℕ} (hi : i ∈ out) (hj : j ∉ out) (hir : Rank vals i r)
    (hjr : Rank vals j r) :
    ∃ (f : List ℕ) (d : ℕ → WithTop K) (p q : ℕ), f.Nodup ∧ (∀ a, a ∈ f ↔ Rank vals a r) ∧ CrowdSpec m (f.map (val vals)) d ∧
      f[p]? = some i ∧ f[q]? = some j ∧ d q ≤ d p := by
  obtain ⟨init, last, d, h1, h2, h3, h4, h5⟩ := selectII_eq hv hlog hne hk
  rw [h] at h5
  have h5 := Except.ok.inj h5
  have hml : ∀ i, i ∈ last ↔ Rank vals i init.length := h1.mem init.length last (by simp)
  have hmi : ∀ i, i ∈ init.flatten ↔ ∃ r < init.length, Rank vals i r := by
    apply mem_flatten_iff
    intro r f hf
    exact h1.mem r f (by rw [List.getElem?_append_left (List.getElem?_eq_some_iff.1 hf).1]; exact hf)
  rw [h5, List.mem_append] at hi hj
  push Not at hj
  have hr : r = init.length ∧ i ∉ init.flatten := by
    have hji : ¬ r < init.length := fun hlt => hj.1 ((hmi j).2 ⟨r, hlt, hjr⟩)
    have hii : i ∉ init.flatten := by
      intro hc
      obtain ⟨s, hs1, hs2⟩ := (hmi i).1 hc
      have := hs2.unique hir
      omega
    refine ⟨?_, hii⟩
    obtain ⟨p, _, hp⟩ := mem_part (hi.resolve_left hii)
    exact hir.unique ((hml i).1 (List.mem_of_getElem? hp))
  obtain ⟨rfl, hii⟩ := hr
  obtain ⟨p, hp1, hp2⟩ := mem_part (hi.resolve_left hii)
  obtain ⟨q, hq⟩ := List.mem_iff_getElem?.1 ((hml j).2 hjr)
  refine ⟨last, d, p, q, h1.nodup last (by simp), hml, h2, hp2, hq, ?_⟩
  have hqlt : q < last.length := (List.getElem?_eq_some_iff.1 hq).1
  have hqm : q ∈ sortDesc d (List.range last.length) := mem_sortDesc.2 (List.mem_range.2 hqlt)
  rw [← List.take_append_drop (k - init.flatten.length) (sortDesc d (List.range last.length)), List.mem_append] at hqm
  refine sortDesc_take_drop d _ _ hp1 (hqm.resolve_left fun hc => hj.2 (List.mem_map.2 ⟨q, hc, ?_⟩))
  rw [List.getD_eq_getElem?_getD, hq]
  rfl

/-- Boundary preservation: when `k` is at least twice the number of objectives, the best value of every objective survives. -/
theorem C30_extremes {log : Bool} {vals : List (List K)} {m : ℕ} (hv : ∀ v ∈ vals, v.length = m) (hlog : log = true → 2 ≤ m) (hne : vals ≠ []) {k : ℕ}
    (hk : k ≠ 0) (hk2 : 2 * m ≤ k) {out : List ℕ} (h : selectII log vals k = .ok out) {i : ℕ} (hi : i < m) :
    ∃ a ∈ out, ∀ j < vals.length, obj vals i j ≤ obj vals i a := by
  obtain ⟨init, last, d, h1, h2, h3, h4, h5⟩ := selectII_eq hv hlog hne hk
  obtain ⟨out', h6, hs⟩ := C30_select hv hlog hne hk
  rw [h] at h6
  cases h6
  rw [h] at h5
  have h5 := Except.ok.inj h5
  have hml : ∀ i, i ∈ last ↔ Rank vals i init.length := h1.mem init.length last (by simp)
  obtain ⟨x, hx, hxm⟩ : ∃ x < vals.length, ∀ j < vals.length, obj vals i j ≤ obj vals i x := by
    have hpos := List.length_pos_iff.2 hne
    obtain ⟨x, hx1, hx2⟩ := Finset.exists_max_image (Finset.range vals.length) (obj vals i) ⟨0, Finset.mem_range.2 hpos⟩
    exact ⟨x, Finset.mem_range.1 hx1, fun j hj => hx2 j (Finset.mem_range.2 hj)⟩
  obtain ⟨y, hy, hyx⟩ := exists_rank_zero hv hx
  have hym : ∀ j < vals.length, obj vals i j ≤ obj vals i y := fun j hj => (hxm j hj).trans (hyx i hi)
  rcases Nat.eq_zero_or_pos init.length with h0 | h0
  · rw [h0] at hml
    have hi0 : init = [] := List.length_eq_zero_iff.1 h0
    subst hi0
    obtain ⟨q, hq⟩ := List.mem_iff_getElem?.1 ((hml y).2 hy)
    have hqlt : q < last.length := (List.getElem?_eq_some_iff.1 hq).1
    have hl0 : last ≠ [] := by rintro rfl; simp at hq
    obtain ⟨l, hl1, hl2⟩ := extreme_kept (by simpa using hl0) h2 hk2 hi
    rw [List.length_map] at hl1 hl2
    have hllt : l < last.length := List.mem_range.1 (mem_sortDesc.1 (List.mem_of_mem_take hl1))
    refine ⟨last[l], ?_, ?_⟩
    · rw [h5]
      simp only [List.flatten_nil, List.length_nil, Nat.sub_zero, List.nil_append]
      refine List.mem_map.2 ⟨l, hl1, ?_⟩
      rw [List.getD_eq_getElem?_getD, List.getElem?_eq_getElem hllt]
      rfl
    · intro j hj
      refine (hym j hj).trans ?_
      have := hl2 q hqlt
      unfold obj at this ⊢
      rwa [val_map hq, val_map (List.getElem?_eq_getElem hllt)] at this
  · refine ⟨y, ?_, hym⟩
    rw [h5, List.mem_append]
    left
    obtain ⟨f, hf⟩ : ∃ f, init[0]? = some f := ⟨init[0], List.getElem?_eq_getElem h0⟩
    refine List.mem_flatten.2 ⟨f, List.mem_of_getElem? hf, ?_⟩
    exact (h1.mem 0 f (by rw [List.getElem?_append_left h0]; exact hf) y).2 hy

/-- Nothing is selected for `k = 0`; the empty population raises (`TypeError` from sorting `None`, `IndexError` in the log sort). -/
theorem C30_edge (vals : List (List K)) (log : Bool) {k : ℕ} (hk : k ≠ 0) :
    selectII log vals 0 = .ok [] ∧ selectII false ([] : List (List K)) k = .error .typeError ∧
    selectII true ([] : List (List K)) k = .error .indexError := by
  refine ⟨?_, ?_, ?_⟩
  · unfold selectII
    rw [ndSort_zero]
    rfl
  · have : sortNondominated ([] : List (List K)) k = .ok [[]] := by
      rw [sortNondominated, if_neg hk]
      simp [rows, loop]
    unfold selectII ndSort
    rw [if_neg (by simp), this]
    simp only [survivors, List.dropLast_singleton, List.flatten_nil, List.length_nil]
    rw [if_pos (Nat.pos_of_ne_zero hk)]
    rfl
  · have : sortLog ([] : List (List K)) k = .error .indexError := by rw [sortLog, if_neg hk, if_pos rfl]
    unfold selectII ndSort
    rw [if_pos rfl, this]

end

/-! ### Examples -/

def exFront : List (List ℚ) := [[0, 8], [1, 7], [3, 5], [4, 4], [8, 0], [0, 0], [3, 3], [1, 1]]

/-- The front is cut at four: the extremes 0 and 4 stay, and of the inner ones 3 (the widest gap) and one
of 1 and 2, which tie; the two sorts list the front in different orders. -/
example : selectII false exFront 4 = .ok [0, 4, 3, 1] ∧ selectII true exFront 4 = .ok [4, 0, 3, 2] := by decide +kernel

example : crowding (exFront.take 5) = some [⊤, ((3 / 8 : ℚ) : WithTop ℚ), ((3 / 8 : ℚ) : WithTop ℚ), ((5 / 8 : ℚ) : WithTop ℚ), ⊤] := by decide +kernel

/-- With `k = 6` the first front is kept whole and the single individual of the second one joins. -/
example : selectII false exFront 6 = .ok [0, 1, 2, 3, 4, 6] := by decide +kernel

/-- A dominator of a dropped individual may be dropped: 2 dominates 6, both go. -/
example : selectII false exFront 4 = .ok [0, 4, 3, 1] ∧ isDominated (val exFront 6) (val exFront 2) = true := by decide +kernel

example : ∀ v ∈ exFront, v.length = 2 := by decide

end Neorl.ND

import Verif.Props.EDEV

/-!
# Property theorems C44, C45: how EDEV measures its variants and draws its scale factors
-/

set_option linter.unusedSectionVars false
set_option linter.unusedVariables false

namespace Neorl.EDEV

variable {K : Type} [Field K] [LinearOrder K] [IsStrictOrderedRing K] [FloorRing K]

/-- Specification: stored value of individual `k`. -/
def val (arr : List (Indv K)) (k : ℕ) : K := (arr.getD k ([], 0)).2

theorem gain_gather {idx : List ℕ} {arr arr' sub : List (Indv K)} (hl : sub.length = idx.length)
    (h : ∀ (j k : ℕ), idx[j]? = some k → arr'[k]? = sub[j]?) : gain (gather idx arr) sub = (idx.map (fun k => val arr k - val arr' k)).sum := by
  induction idx generalizing sub with
  | nil => simp [gain, gather]
  | cons k idx ih =>
    cases sub with
    | nil => simp at hl
    | cons p sub =>
      have h0 := h 0 k rfl
      have ih' := ih (sub := sub) (by simpa using hl) (fun j i hj => by simpa using h (j + 1) i (by simpa using hj))
      unfold gain gather at ih' ⊢
      simp only [List.map_cons, List.zipWith_cons_cons, List.sum_cons]
      rw [ih']
      congr 2
      simp only [List.getElem?_cons_zero] at h0
      simp [val, List.getD_eq_getElem?_getD, h0]

theorem gather_congr {idx : List ℕ} {a b : List (Indv K)} (h : ∀ k ∈ idx, a[k]? = b[k]?) : gather idx a = gather idx b := by
  unfold gather
  apply List.map_congr_left
  intro k hk
  rw [List.getD_eq_getElem?_getD, List.getD_eq_getElem?_getD, h k hk]

/-- **C44, measuring a variant.** In every generation the record of each of the three variants grows by the total improvement of exactly the individuals it was
given, which is never negative; every `ng` generations the records restart at one. -/
theorem C44_gain {C : Cfg K} (hS : C.S.OK) (hs : 2 * C.slice ≤ C.npop) {f : List K → K} {D : Draws K} (hp : IsPerm C.npop D.perm) {k : ℕ}
    {s s' : State K} (g : Good C.S f C.npop s.arr s.best s.log) (h : gen C f D k s = .ok s') :
    let base : K × K × K := if k % C.ng = 0 then (1, 1, 1) else s.change
    let imp := fun (idx : List ℕ) => (idx.map (fun i => val s.arr i - val s'.arr i)).sum
    s'.change = (base.1 + imp s'.part.1, base.2.1 + imp s'.part.2.1, base.2.2 + imp s'.part.2.2) ∧
      0 ≤ imp s'.part.1 ∧ 0 ≤ imp s'.part.2.1 ∧ 0 ≤ imp s'.part.2.2 := by
  intro base imp
  have hspec := gen_spec hS hs hp g h
  obtain ⟨g', _, hmono, _⟩ := hspec
  have hnn : ∀ idx : List ℕ, 0 ≤ imp idx := by
    intro idx
    apply List.sum_nonneg
    intro v hv
    obtain ⟨i, _, rfl⟩ := List.mem_map.1 hv
    by_cases hi : i < C.npop
    · have h1 : s.arr[i]? = some (s.arr.getD i ([], 0)) := by
        rw [List.getD_eq_getElem?_getD, List.getElem?_eq_getElem (by rw [g.size]; exact hi)]; rfl
      have h2 : s'.arr[i]? = some (s'.arr.getD i ([], 0)) := by
        rw [List.getD_eq_getElem?_getD, List.getElem?_eq_getElem (by rw [g'.size]; exact hi)]; rfl
      have := hmono i _ _ h1 h2
      unfold val; linarith
    · have h1 : s.arr.length ≤ i := by rw [g.size]; omega
      have h2 : s'.arr.length ≤ i := by rw [g'.size]; omega
      simp [val, List.getD_eq_getElem?_getD, List.getElem?_eq_none h1, List.getElem?_eq_none h2]
  refine ⟨?_, hnn _, hnn _, hnn _⟩
  unfold gen at h
  dsimp only at h
  split at h
  · cases h
  rename_i idx ch hadj
  split at h
  · cases h
  rename_i n1 l1 hj
  split at h
  · cases h
  rename_i b1 h1 hi1
  split at h
  · cases h
  rename_i n2 l2 hc
  split at h
  · cases h
  rename_i b2 h2 hi2
  split at h
  · cases h
  rename_i n3 l3 bm hE
  split at h
  · cases h
  rename_i b3 h3 hi3
  cases h
  have hch : ch = base := by
    unfold adjust at hadj
    split_ifs at hadj with a1 a2
    · cases hadj; simp [base, a2]
    · cases hadj; simp [base, a2]
  obtain ⟨q1, q2, -⟩ := C44_partition (idx := idx) hp hs
  have hlt : ∀ i ∈ (parts C.slice idx D.perm).1 ++ (parts C.slice idx D.perm).2.1 ++ (parts C.slice idx D.perm).2.2, i < C.npop :=
    fun i hi => List.mem_range.1 (q1.mem_iff.1 hi)
  rw [List.nodup_append, List.nodup_append] at q2
  obtain ⟨⟨d1, d2, d12⟩, d3, d123⟩ := q2
  obtain ⟨t1, -⟩ := jade_spec hS hj
  obtain ⟨t2, -⟩ := code_spec hS hc
  obtain ⟨t3, -⟩ := eps_spec hS hE
  have L1 := t1.1
  have L2 := t2.1
  have L3 := t3.1
  rw [length_gather] at L1 L2 L3
  have z := g.size
  have e2 : ∀ i ∈ (parts C.slice idx D.perm).2.1, (scatter (parts C.slice idx D.perm).1 n1 s.arr)[i]? = s.arr[i]? :=
    fun i hi => scatter_not_mem (fun hc' => d12 i hc' i hi rfl)
  have e3 : ∀ i ∈ (parts C.slice idx D.perm).2.2,
      (scatter (parts C.slice idx D.perm).2.1 n2 (scatter (parts C.slice idx D.perm).1 n1 s.arr))[i]? = s.arr[i]? := by
    intro i hi
    rw [scatter_not_mem (fun hc' => d123 i (List.mem_append_right _ hc') i hi rfl),
      scatter_not_mem (fun hc' => d123 i (List.mem_append_left _ hc') i hi rfl)]
  simp only [hch, Prod.mk.injEq, add_right_inj]
  refine ⟨?_, ?_, ?_⟩
  · refine gain_gather L1 (fun j i hji => ?_)
    have hm := List.mem_of_getElem? hji
    rw [scatter_not_mem (fun hc' => d123 i (List.mem_append_left _ hm) i hc' rfl), scatter_not_mem (fun hc' => d12 i hm i hc' rfl),
      scatter_mem d1 L1 (fun x hx => by rw [z]; exact hlt x (by simp [hx])) hji]
  · rw [gather_congr e2]
    refine gain_gather L2 (fun j i hji => ?_)
    have hm := List.mem_of_getElem? hji
    rw [scatter_not_mem (fun hc' => d123 i (List.mem_append_right _ hm) i hc' rfl),
      scatter_mem d2 L2 (fun x hx => by rw [length_scatter, z]; exact hlt x (by simp [hx])) hji]
  · rw [gather_congr e3]
    refine gain_gather L3 (fun j i hji => ?_)
    rw [scatter_mem d3 L3 (fun x hx => by rw [length_scatter, length_scatter, z]; exact hlt x (by simp [hx])) hji]

/-- The hypotheses hold in the first generation of a run with 70 individuals. -/
example : ∃ s0 s1, start (⟨exS, 70, 7, 30, 20⟩ : Cfg ℚ) (worker exS true fun v => v.getD 0 0 + v.getD 1 0) (List.replicate 70 [7, 1]) (fun _ _ => (0, 0))
      (fun _ _ => (0, 0)) (List.range 70) = .ok s0 ∧
    Good exS (worker exS true fun v => v.getD 0 0 + v.getD 1 0) 70 s0.arr s0.best s0.log ∧
    gen ⟨exS, 70, 7, 30, 20⟩ (worker exS true fun v => v.getD 0 0 + v.getD 1 0) (exD (List.range 70)) 0 s0 = .ok s1 := by
  have hx : ∀ x ∈ List.replicate 70 [(7 : ℚ), 1], x.length = exS.bounds.length := by intro x hx; rw [List.eq_of_mem_replicate hx]; rfl
  obtain ⟨r, hr⟩ := C44_total (K := ℚ) exS_ok rfl (npop := 70) (ngen := 30) (ng := 20) (by omega) (by omega) (by omega) true (fun v => v.getD 0 0 + v.getD 1 0)
    (x0 := List.replicate 70 [7, 1]) (by simp) hx (fun _ _ => (0, 0)) (fun _ _ => (0, 0)) (perm0 := List.range 70) (List.Perm.refl _)
    (D := fun _ => exD (List.range 70)) (fun _ => List.Perm.refl _)
  unfold evolute at hr
  rw [show configure exS 70 30 20 = .ok ⟨exS, 70, 7, 30, 20⟩ from rfl] at hr
  dsimp only at hr
  rw [if_neg (by simp)] at hr
  split at hr
  · cases hr
  rename_i s0 h0
  obtain ⟨s1, h1⟩ := gen_total (C := ⟨exS, 70, 7, 30, 20⟩) exS_ok rfl (by decide) (by decide) (by decide)
    (worker exS true fun v => v.getD 0 0 + v.getD 1 0) (D := exD (List.range 70)) (List.Perm.refl _) 0 s0
  exact ⟨s0, s1, h0, (start_spec (C := ⟨exS, 70, 7, 30, 20⟩) exS_ok hx (by simp) (by decide) (List.Perm.refl _) h0).1, h1⟩

/-! ### The best member EPSDE keeps for itself -/

theorem epsBest_spec {f : List K → K} : ∀ (b : K × List K) (pop : List (Indv K)) (us : List (List K)), b.1 = f b.2 →
    (epsBest f b pop us).1 = f (epsBest f b pop us).2 ∧ ((epsBest f b pop us) = b ∨ (epsBest f b pop us).2 ∈ us) ∧ (epsBest f b pop us).1 ≤ b.1 ∧
    ∀ (i : ℕ) (p : Indv K) (o : List K), pop[i]? = some p → us[i]? = some o → f o < p.2 → (epsBest f b pop us).1 ≤ f o := by
  intro b pop
  induction pop generalizing b with
  | nil => intro us hb; simp [epsBest, hb]
  | cons p pop ih =>
    intro us hb
    cases us with
    | nil => simp [epsBest, hb]
    | cons o us =>
      simp only [epsBest]
      by_cases hc : f o < p.2 ∧ f o < b.1
      · rw [if_pos hc]
        obtain ⟨h1, h2, h3, h4⟩ := ih (f o, o) us rfl
        refine ⟨h1, ?_, h3.trans hc.2.le, ?_⟩
        · rcases h2 with h2 | h2
          · right; rw [h2]; simp
          · right; simp [h2]
        · intro i q z hq hz hlt
          cases i with
          | zero => simp at hz; subst hz; exact h3
          | succ i => exact h4 i q z (by simpa using hq) (by simpa using hz) hlt
      · rw [if_neg hc]
        obtain ⟨h1, h2, h3, h4⟩ := ih b us hb
        refine ⟨h1, h2.imp id (fun h => by simp [h]), h3, ?_⟩
        intro i q z hq hz hlt
        cases i with
        | zero =>
          simp at hq hz; subst hq; subst hz
          have : b.1 ≤ f o := not_lt.1 (fun h => hc ⟨hlt, h⟩)
          exact h3.trans this
        | succ i => exact h4 i q z (by simpa using hq) (by simpa using hz) hlt

/-- **C44, EPSDE's best member.** The vector its first strategy starts from is always an evaluated point with its own value, and after each generation it is at least as
good as before and as every individual EPSDE improved in that generation. -/
theorem C44_bestmem {C : Cfg K} (hS : C.S.OK) (hs : 2 * C.slice ≤ C.npop) {f : List K → K} {D : Draws K} (hp : IsPerm C.npop D.perm) {k : ℕ}
    {s s' : State K} (g : Good C.S f C.npop s.arr s.best s.log) (hb : s.bm.1 = f s.bm.2) (hm : s.bm.2 ∈ s.log ++ s.extra) (h : gen C f D k s = .ok s') :
    s'.bm.1 = f s'.bm.2 ∧ s'.bm.2 ∈ s'.log ++ s'.extra ∧ s'.bm.1 ≤ s.bm.1 ∧
    ∀ i ∈ s'.part.2.2, val s'.arr i < val s.arr i → s'.bm.1 ≤ val s'.arr i := by
  unfold gen at h
  dsimp only at h
  split at h
  · cases h
  rename_i idx ch hadj
  split at h
  · cases h
  rename_i n1 l1 hj
  split at h
  · cases h
  rename_i b1 h1 hi1
  split at h
  · cases h
  rename_i n2 l2 hc
  split at h
  · cases h
  rename_i b2 h2 hi2
  split at h
  · cases h
  rename_i n3 l3 bm hE
  split at h
  · cases h
  rename_i b3 h3 hi3
  simp only [Except.ok.injEq] at h
  subst h
  dsimp only
  obtain ⟨q1, q2, -⟩ := C44_partition (idx := idx) hp hs
  have hlt : ∀ i ∈ (parts C.slice idx D.perm).1 ++ (parts C.slice idx D.perm).2.1 ++ (parts C.slice idx D.perm).2.2, i < C.npop :=
    fun i hi => List.mem_range.1 (q1.mem_iff.1 hi)
  rw [List.nodup_append, List.nodup_append] at q2
  obtain ⟨⟨d1, d2, d12⟩, d3, d123⟩ := q2
  obtain ⟨t3, -⟩ := eps_spec hS hE
  have L3 := t3.1
  rw [length_gather] at L3
  have z := g.size
  have e3 : ∀ i ∈ (parts C.slice idx D.perm).2.2,
      (scatter (parts C.slice idx D.perm).2.1 n2 (scatter (parts C.slice idx D.perm).1 n1 s.arr))[i]? = s.arr[i]? := by
    intro i hi
    rw [scatter_not_mem (fun hc' => d123 i (List.mem_append_right _ hc') i hi rfl),
      scatter_not_mem (fun hc' => d123 i (List.mem_append_left _ hc') i hi rfl)]
  rw [gather_congr e3] at hE
  unfold eps at hE
  split at hE
  · cases hE
  rename_i us hus
  obtain ⟨u1, u2, u3⟩ := repair_rows hS (by
    intro r hr
    obtain ⟨i, _, rfl⟩ := List.mem_map.1 hr
    exact length_epsTrial _ _ _ _ _) hus
  simp only [Except.ok.injEq, Prod.mk.injEq] at hE
  obtain ⟨⟨rfl, rfl⟩, rfl⟩ := hE
  obtain ⟨r1, r2, r3, r4⟩ := epsBest_spec (f := f) s.bm (gather (parts C.slice idx D.perm).2.2 s.arr) us hb
  refine ⟨r1, ?_, r3, ?_⟩
  · rw [u3]
    rcases r2 with r2 | r2
    · rw [r2]
      simp only [List.mem_append] at hm ⊢
      tauto
    · simp only [List.mem_append]; tauto
  · intro i hi himp
    obtain ⟨j, hj'⟩ := List.mem_iff_getElem?.1 hi
    have hnew := scatter_mem (sub := List.zipWith (epsSel f) (gather (parts C.slice idx D.perm).2.2 s.arr) us)
      (arr := scatter (parts C.slice idx D.perm).2.1 n2 (scatter (parts C.slice idx D.perm).1 n1 s.arr)) d3 L3
      (fun x hx => by rw [length_scatter, length_scatter, z]; exact hlt x (by simp [hx])) hj'
    have hjl : j < (parts C.slice idx D.perm).2.2.length := (List.getElem?_eq_some_iff.1 hj').1
    have hg : (gather (parts C.slice idx D.perm).2.2 s.arr)[j]? = some (s.arr.getD i ([], 0)) := by
      unfold gather; rw [List.getElem?_map, hj']; rfl
    have hul : us.length = (parts C.slice idx D.perm).2.2.length := by rw [u1]; simp [length_gather]
    have hu := List.getElem?_eq_getElem (show j < us.length by omega)
    rw [List.getElem?_zipWith, hg, hu] at hnew
    have hval : val (scatter (parts C.slice idx D.perm).2.2 (List.zipWith (epsSel f) (gather (parts C.slice idx D.perm).2.2 s.arr) us)
        (scatter (parts C.slice idx D.perm).2.1 n2 (scatter (parts C.slice idx D.perm).1 n1 s.arr))) i = (epsSel f (s.arr.getD i ([], 0)) us[j]).2 := by
      unfold val; rw [List.getD_eq_getElem?_getD, hnew]; rfl
    rw [hval] at himp ⊢
    unfold epsSel at himp ⊢
    by_cases hlt' : f us[j] < (s.arr.getD i ([], 0)).2
    · rw [if_pos hlt']
      exact r4 j _ _ hg hu hlt'
    · rw [if_neg hlt'] at himp
      exact absurd himp (lt_irrefl _)

/-- The start of a run provides what `C44_bestmem` asks for. -/
theorem C44_bestmem_start {C : Cfg K} {f : List K → K} {x0 : List (List K)} {d0 d1 : ℕ → ℕ → K × ℕ} {perm0 : List ℕ} {s : State K}
    (h : start C f x0 d0 d1 perm0 = .ok s) : s.bm.1 = f s.bm.2 ∧ s.bm.2 ∈ s.log ++ s.extra := by
  unfold start at h
  dsimp only at h
  split at h
  · cases h
  split at h
  · cases h
  split at h
  · cases h
  split at h
  · cases h
  rename_i m hm
  cases h
  obtain ⟨h1, h2, h3⟩ := Swarm.select_inc hm
  exact ⟨h2, List.mem_append_right _ h1⟩

/-- **C44, the constructor.** It accepts exactly populations of at least 70 and more generations than the adjustment period; small populations fail an assertion. -/
theorem C44_configure (S : Space K) (npop ngen ng : ℕ) :
    ((∃ C, configure S npop ngen ng = .ok C) ↔ 70 ≤ npop ∧ ng < ngen) ∧ (npop < 70 → configure S npop ngen ng = .error .assertion) := by
  constructor
  · constructor
    · rintro ⟨C, h⟩
      obtain ⟨_, h1, _, h2⟩ := configure_ok h
      exact ⟨h1, h2⟩
    · rintro ⟨h1, h2⟩
      unfold configure
      rw [if_neg (by omega), if_neg (by omega), if_neg (by omega)]
      exact ⟨_, rfl⟩
  · intro h
    unfold configure
    rw [if_pos h]

/-! ### Scale factors -/

/-- Specification: the first positive scale factor drawn for member `i` is the one of round `k`. -/
def FirstPos (Fm Fs : K) (t : ℕ → ℕ → K) (i k : ℕ) : Prop := 0 < Fm + Fs * t k i ∧ ∀ j < k, Fm + Fs * t j i ≤ 0

/-- What round `k` of the loop starts with. -/
def Pend (Fm Fs : K) (t : ℕ → ℕ → K) (k i : ℕ) (f : K) : Prop :=
  (∃ j < k, FirstPos Fm Fs t i j ∧ f = min 1 (Fm + Fs * t j i)) ∨ ((∀ j < k, Fm + Fs * t j i ≤ 0) ∧ f ≤ 0)

theorem fLoop_first {Fm Fs : K} {t : ℕ → ℕ → K} {NP : ℕ} {last : ℕ → ℕ} (hl : ∀ i < NP, FirstPos Fm Fs t i (last i)) {m : ℕ} (hm : ∀ i < NP, last i ≤ m) :
    ∀ (fuel k : ℕ) (F : List K), m + 2 ≤ k + fuel → 1 ≤ fuel → F.length = NP → (∀ (i : ℕ) (f : K), F[i]? = some f → Pend Fm Fs t k i f) →
      ∃ F', fLoop Fm Fs t fuel k F = some F' ∧ F'.length = NP ∧ ∀ (i : ℕ) (f : K), F'[i]? = some f → f = min 1 (Fm + Fs * t (last i) i) := by
  have huniq : ∀ i < NP, ∀ j, FirstPos Fm Fs t i j → j = last i := by
    intro i hi j hj
    obtain ⟨a1, a2⟩ := hl i hi
    rcases lt_trichotomy j (last i) with h | h | h
    · exact absurd (a2 j h) (not_le.2 hj.1)
    · exact h
    · exact absurd (hj.2 _ h) (not_le.2 a1)
  have hdone : ∀ (k : ℕ) (F : List K), F.length = NP → (∀ (i : ℕ) (f : K), F[i]? = some f → Pend Fm Fs t k i f) → (∀ f ∈ F, 0 < f) →
      ∀ (i : ℕ) (f : K), F[i]? = some f → f = min 1 (Fm + Fs * t (last i) i) := by
    intro k F hF hP hpos i f hf
    have hi : i < NP := by rw [← hF]; exact (List.getElem?_eq_some_iff.1 hf).1
    rcases hP i f hf with ⟨j, _, h1, h2⟩ | ⟨_, h2⟩
    · rw [h2, huniq i hi j h1]
    · exact absurd h2 (not_le.2 (hpos f (List.mem_of_getElem? hf)))
  intro fuel
  induction fuel with
  | zero => intro k F _ h; omega
  | succ fuel ih =>
    intro k F hk _ hF hP
    simp only [fLoop]
    by_cases hc : (F.all fun f => decide (0 < f)) = true
    · rw [if_pos hc]
      have hpos : ∀ f ∈ F, 0 < f := fun f hf => by simpa using (List.all_eq_true.1 hc) f hf
      exact ⟨F, rfl, hF, hdone k F hF hP hpos⟩
    · rw [if_neg hc]
      have hkm : k ≤ m := by
        by_contra hcon
        apply hc
        rw [List.all_eq_true]
        intro f hf
        obtain ⟨i, hi⟩ := List.mem_iff_getElem?.1 hf
        have hin : i < NP := by rw [← hF]; exact (List.getElem?_eq_some_iff.1 hi).1
        rcases hP i f hi with ⟨j, _, h1, h2⟩ | ⟨h1, _⟩
        · rw [h2]; simpa using h1.1
        · exact absurd (h1 (last i) (by have := hm i hin; omega)) (not_le.2 (hl i hin).1)
      refine ih (k + 1) _ (by omega) (by omega) (by simpa using hF) ?_
      intro i f hf
      rw [List.getElem?_mapIdx] at hf
      cases hFi : F[i]? with
      | none => rw [hFi] at hf; cases hf
      | some g =>
        rw [hFi] at hf
        simp only [Option.map_some, Option.some.injEq] at hf
        rcases hP i g hFi with ⟨j, hj, h1, h2⟩ | ⟨h1, h2⟩
        · left
          have hg : 0 < g := by rw [h2]; exact lt_min one_pos h1.1
          rw [if_neg (not_le.2 hg), min_eq_right (by rw [h2]; exact min_le_left _ _)] at hf
          exact ⟨j, by omega, h1, by rw [← hf, h2]⟩
        · rw [if_pos h2] at hf
          by_cases hq : 0 < Fm + Fs * t k i
          · left
            exact ⟨k, by omega, ⟨hq, h1⟩, hf.symm⟩
          · right
            refine ⟨fun j hj => ?_, ?_⟩
            · rcases Nat.lt_succ_iff_lt_or_eq.1 hj with h | h
              · exact h1 j h
              · rw [h]; exact not_lt.1 hq
            · rw [← hf]; exact (min_le_right _ _).trans (not_lt.1 hq)

/-- **C45, scale factors.** The loop stops as soon as every member drew a positive number, and each gets its first positive draw, capped at one. -/
theorem C45_scales_first {Fm Fs : K} {t : ℕ → ℕ → K} {NP : ℕ} {last : ℕ → ℕ} (hl : ∀ i < NP, FirstPos Fm Fs t i (last i)) {m : ℕ} (hm : ∀ i < NP, last i ≤ m) :
    ∃ F, fs Fm Fs t NP (m + 1) = some F ∧ F.length = NP ∧ ∀ i < NP, F[i]? = some (min 1 (Fm + Fs * t (last i) i)) := by
  obtain ⟨F, h1, h2, h3⟩ := fLoop_first hl hm (m + 1) 1 ((List.range NP).map (fun i => min 1 (Fm + Fs * t 0 i))) (by omega) (by omega) (by simp) (by
    intro i f hf
    rw [List.getElem?_map] at hf
    have hi : i < NP := by
      by_contra hc
      rw [List.getElem?_eq_none (by simpa using hc)] at hf
      cases hf
    rw [List.getElem?_eq_getElem (by simpa using hi)] at hf
    simp only [List.getElem_range, Option.map_some, Option.some.injEq] at hf
    by_cases hq : 0 < Fm + Fs * t 0 i
    · left; exact ⟨0, by omega, ⟨hq, by intro j hj; omega⟩, hf.symm⟩
    · right
      refine ⟨fun j hj => ?_, ?_⟩
      · rw [show j = 0 by omega]; exact not_lt.1 hq
      · rw [← hf]; exact (min_le_right _ _).trans (not_lt.1 hq))
  refine ⟨F, h1, h2, fun i hi => ?_⟩
  have := List.getElem?_eq_getElem (show i < F.length by omega)
  rw [this]
  rw [h3 i _ this]

/-- Member 0 draws 5/2 at once, member 1 needs three rounds. -/
example : FirstPos (1 / 2 : ℚ) (1 / 10) (fun k i => if i = 0 then 20 else if k < 2 then -7 else 1) 1 2 := by
  refine ⟨by norm_num, ?_⟩
  intro j hj
  interval_cases j <;> norm_num

end Neorl.EDEV

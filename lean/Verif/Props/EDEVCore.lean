import Verif.EDEVCore
import Mathlib.Tactic.Linarith
import Mathlib.Tactic.Positivity
import Mathlib.Data.List.GetD
import Mathlib.Data.List.Nodup

/-!
# C45: donor indices and control parameters of the EDEV helpers
-/

set_option linter.unusedSectionVars false
set_option linter.unusedVariables false

namespace Neorl.EDEV

section
variable {K : Type} [Field K] [LinearOrder K] [IsStrictOrderedRing K] [FloorRing K]

theorem pick_index {u : K} (h0 : 0 ≤ u) (h1 : u < 1) {n k : ℕ} (h : k + 1 ≤ n) :
    ∃ t : ℕ, ⌊u * ((n : K) - (k : K))⌋ + 1 = (t : ℤ) ∧ 1 ≤ t ∧ t ≤ n - k := by
  have hc : ((n - k : ℕ) : K) = (n : K) - (k : K) := by rw [Nat.cast_sub (by omega)]
  have hpos : (0 : K) < ((n - k : ℕ) : K) := by exact_mod_cast (by omega : 0 < n - k)
  have hf0 : 0 ≤ ⌊u * ((n : K) - (k : K))⌋ := by
    apply Int.floor_nonneg.2; rw [← hc]; positivity
  have hf1 : ⌊u * ((n : K) - (k : K))⌋ < ((n - k : ℕ) : ℤ) := by
    rw [Int.floor_lt, ← hc]; push_cast
    calc u * ((n - k : ℕ) : K) < 1 * ((n - k : ℕ) : K) := by exact mul_lt_mul_of_pos_right h1 hpos
      _ = _ := by simp
  refine ⟨(⌊u * ((n : K) - (k : K))⌋ + 1).toNat, ?_, ?_, ?_⟩ <;> omega

theorem picks_spec {n : ℕ} : ∀ (us : List K) (k : ℕ) (set : List ℕ), set.Nodup → set.length + k = n + 1 → us.length + k ≤ n →
    (∀ u ∈ us, 0 ≤ u ∧ u < 1) →
    ∃ l, picks n k us set = .ok l ∧ l.length = us.length ∧ l.Nodup ∧ (∀ x ∈ l, x ∈ set) ∧ (∀ x, set.head? = some x → x ∉ l) := by
  intro us
  induction us with
  | nil => intro k set _ _ _ _; exact ⟨[], rfl, rfl, by simp, by simp, by simp⟩
  | cons u us ih =>
    intro k set hn hl hu hr
    simp only [List.length_cons] at hu
    obtain ⟨t, ht, ht1, ht2⟩ := pick_index (hr u (by simp)).1 (hr u (by simp)).2 (n := n) (k := k) (by omega)
    have hlt : t < set.length := by omega
    have hget : pyGet set (⌊u * ((n : K) - (k : K))⌋ + 1) = some set[t] := by
      rw [ht]; unfold pyGet; simp [hlt]
    have hmem : set[t] ∈ set := List.getElem_mem hlt
    have hlen : (set.erase set[t]).length = set.length - 1 := List.length_erase_of_mem hmem
    obtain ⟨l, h1, h2, h3, h4, h5⟩ := ih (k + 1) (set.erase set[t]) (hn.erase _) (by omega) (by omega) (fun v hv => hr v (by simp [hv]))
    refine ⟨set[t] :: l, ?_, by simp [h2], ?_, ?_, ?_⟩
    · simp only [picks, hget, h1]
    · refine List.nodup_cons.2 ⟨fun hc => ?_, h3⟩
      exact (hn.mem_erase_iff.1 (h4 _ hc)).1 rfl
    · intro x hx
      rcases List.mem_cons.1 hx with rfl | hx
      · exact hmem
      · exact List.mem_of_mem_erase (h4 x hx)
    · intro x hx hc
      cases set with
      | nil => simp at hx
      | cons y ys =>
        simp only [List.head?_cons, Option.some.injEq] at hx
        subst hx
        have hne : y ≠ (y :: ys)[t] := by
          intro he
          have := (List.nodup_iff_injective_getElem.1 hn) (a₁ := ⟨0, by simp⟩) (a₂ := ⟨t, hlt⟩) (by simpa using he)
          simp at this; omega
        rcases List.mem_cons.1 hc with hc | hc
        · exact hne hc
        · refine h5 y ?_ hc
          rw [List.erase_cons_tail (by simpa using hne.symm.symm)]
          rfl

/-- **C45 (`generator`).**  For uniform numbers in [0, 1) and a population of at least two more members than donors (five for three donors, seven
for five), the donor indices drawn for individual `i` exist, are as many as asked for, pairwise different, inside the population and different from
`i`; and the first member other than `i` is never among them, whatever the draws. -/
theorem C45_donors {n i : ℕ} {us : List K} (hi : i < n) (hu : us.length + 2 ≤ n) (hr : ∀ u ∈ us, 0 ≤ u ∧ u < 1) :
    ∃ l, donors n i us = .ok l ∧ l.length = us.length ∧ l.Nodup ∧ (∀ x ∈ l, x < n ∧ x ≠ i) ∧ (if i = 0 then 1 else 0) ∉ l := by
  have hn : ((List.range n).erase i).Nodup := List.nodup_range.erase _
  have hl : ((List.range n).erase i).length = n - 1 := by
    rw [List.length_erase_of_mem (by simpa using hi)]; simp
  obtain ⟨l, h1, h2, h3, h4, h5⟩ := picks_spec us 2 ((List.range n).erase i) hn (by omega) hu hr
  refine ⟨l, ?_, h2, h3, ?_, ?_⟩
  · unfold donors; rw [if_neg (by omega)]; exact h1
  · intro x hx
    have := List.nodup_range.mem_erase_iff.1 (h4 x hx)
    exact ⟨by simpa using this.2, this.1⟩
  · apply h5
    obtain ⟨m, rfl⟩ : ∃ m, n = m + 2 := ⟨n - 2, by omega⟩
    rw [List.range_succ_eq_map, List.range_succ_eq_map]
    by_cases h0 : i = 0
    · subst h0; simp
    · rw [if_neg h0]
      rw [List.erase_cons_tail (by simpa using Ne.symm h0)]
      rfl

/-- Which members can be donors: with a large enough population every other member except the first one is reachable. -/
theorem C45_reachable {n i x : ℕ} (hi : i < n) (hn : 3 ≤ n) (hx : x < n) (hxi : x ≠ i) (hf : x ≠ if i = 0 then 1 else 0) :
    ∃ u : K, 0 ≤ u ∧ u < 1 ∧ donors n i [u] = .ok [x] := by
  have hmem : x ∈ (List.range n).erase i := List.nodup_range.mem_erase_iff.2 ⟨hxi, by simpa using hx⟩
  have hl : ((List.range n).erase i).length = n - 1 := by
    rw [List.length_erase_of_mem (by simpa using hi)]; simp
  obtain ⟨t, ht, hxt⟩ := List.getElem_of_mem hmem
  have ht0 : t ≠ 0 := by
    rintro rfl
    apply hf
    have : ((List.range n).erase i)[0]? = some x := by rw [List.getElem?_eq_getElem ht, hxt]
    rw [← List.head?_eq_getElem?] at this
    obtain ⟨m, rfl⟩ : ∃ m, n = m + 2 := ⟨n - 2, by omega⟩
    rw [List.range_succ_eq_map, List.range_succ_eq_map] at this
    by_cases h0 : i = 0
    · subst h0; simpa using this.symm
    · rw [if_neg h0]
      rw [List.erase_cons_tail (by simpa using Ne.symm h0)] at this
      simpa using this.symm
  have hpos : (0 : K) < ((n - 2 : ℕ) : K) := by exact_mod_cast (by omega : 0 < n - 2)
  have hc : ((n - 2 : ℕ) : K) = (n : K) - ((2 : ℕ) : K) := by rw [Nat.cast_sub (by omega)]
  refine ⟨((t - 1 : ℕ) : K) / ((n - 2 : ℕ) : K), by positivity, ?_, ?_⟩
  · rw [div_lt_one hpos]; exact_mod_cast (by omega : t - 1 < n - 2)
  · have hfl : ⌊((t - 1 : ℕ) : K) / ((n - 2 : ℕ) : K) * ((n : K) - ((2 : ℕ) : K))⌋ + 1 = (t : ℤ) := by
      rw [← hc, div_mul_cancel₀ _ hpos.ne', Int.floor_natCast]; omega
    unfold donors
    rw [if_neg (by omega)]
    simp only [picks, hfl, pyGet]
    simp [ht, hxt]

/-- The size bound is sharp: with one member fewer the last draw always raises `IndexError`. -/
theorem C45_too_small {n i : ℕ} {us : List K} {u : K} (hi : i < n) (hu : us.length + 2 = n) (hr : ∀ v ∈ us ++ [u], 0 ≤ v ∧ v < 1) :
    donors n i (us ++ [u]) = .error .indexError := by
  have key : ∀ (us : List K) (k : ℕ) (set : List ℕ), set.Nodup → set.length + k = n + 1 → us.length + k = n →
      (∀ v ∈ us, 0 ≤ v ∧ v < 1) → picks n k (us ++ [u]) set = .error .indexError := by
    intro us
    induction us with
    | nil =>
      intro k set hn hl hk _
      simp only [List.length_nil, Nat.zero_add] at hk
      subst hk
      have : set.length = 1 := by omega
      simp only [List.nil_append, picks, sub_self, mul_zero, Int.floor_zero, pyGet]
      simp [this]
    | cons v us ih =>
      intro k set hn hl hk hv
      simp only [List.length_cons] at hk
      obtain ⟨t, ht, ht1, ht2⟩ := pick_index (hv v (by simp)).1 (hv v (by simp)).2 (n := n) (k := k) (by omega)
      have hlt : t < set.length := by omega
      have hget : pyGet set (⌊v * ((n : K) - (k : K))⌋ + 1) = some set[t] := by
        rw [ht]; unfold pyGet; simp [hlt]
      have hlen : (set.erase set[t]).length = set.length - 1 := List.length_erase_of_mem (List.getElem_mem hlt)
      simp only [List.cons_append, picks, hget]
      rw [ih (k + 1) _ (hn.erase _) (by omega) (by omega) (fun w hw => hv w (by simp [hw]))]
  have hl : ((List.range n).erase i).length = n - 1 := by
    rw [List.length_erase_of_mem (by simpa using hi)]; simp
  unfold donors
  rw [if_neg (by omega)]
  exact key us 2 _ (List.nodup_range.erase _) (by omega) (by omega) (fun v hv => hr v (by simp [hv]))

/-- Seven members, individual 2, five draws. -/
example : donors 7 2 [(1 / 2 : ℚ), 0, 9 / 10, 1 / 3, 3 / 4] = .ok [4, 1, 6, 3, 5] := by decide +kernel
example : donors 6 2 [(1 / 2 : ℚ), 0, 9 / 10, 1 / 3, 3 / 4] = .error .indexError := by decide +kernel

/-! ### `gnR1R2` -/

theorem oneTo_spec {NP : ℕ} {u : K} (hNP : 0 < NP) (h0 : 0 ≤ u) (h1 : u < 1) : 1 ≤ oneTo NP u ∧ oneTo NP u ≤ NP := by
  unfold oneTo
  have hpos : (0 : K) < (NP : K) := by exact_mod_cast hNP
  have hf1 : ⌊u * (NP : K)⌋ < (NP : ℤ) := by
    rw [Int.floor_lt]; push_cast
    calc u * (NP : K) < 1 * (NP : K) := mul_lt_mul_of_pos_right h1 hpos
      _ = _ := by simp
  have hf0 : 0 ≤ ⌊u * (NP : K)⌋ := Int.floor_nonneg.2 (by positivity)
  omega

theorem settle_spec {NP : ℕ} {clash : ℕ → ℕ → Bool} {draw : ℕ → ℕ → K} (hNP : 0 < NP) (hd : ∀ t i, 0 ≤ draw t i ∧ draw t i < 1) :
    ∀ (fuel t : ℕ) (r r' : List ℕ), (∀ x ∈ r, 1 ≤ x ∧ x ≤ NP) → settle NP clash draw fuel t r = .ok r' →
      r'.length = r.length ∧ (∀ x ∈ r', 1 ≤ x ∧ x ≤ NP) ∧ ∀ (i x : ℕ), r'[i]? = some x → clash i x = false := by
  intro fuel
  induction fuel with
  | zero => intro t r r' _ h; cases h
  | succ fuel ih =>
    intro t r r' hr h
    simp only [settle] at h
    split at h
    · rename_i hc
      cases h
      refine ⟨rfl, hr, fun i x hx => ?_⟩
      rw [List.any_eq_false] at hc
      have := hc (clash i x) (by
        apply List.mem_of_getElem? (i := i)
        rw [List.getElem?_mapIdx, hx]; rfl)
      simpa using this
    · obtain ⟨h1, h2, h3⟩ := ih _ _ _ (by
        intro x hx
        obtain ⟨i, hi⟩ := List.mem_iff_getElem?.1 hx
        rw [List.getElem?_mapIdx] at hi
        cases hri : r[i]? with
        | none => rw [hri] at hi; cases hi
        | some y =>
          rw [hri] at hi
          simp only [Option.map_some, Option.some.injEq] at hi
          rw [← hi]
          split_ifs
          · exact oneTo_spec hNP (hd _ _).1 (hd _ _).2
          · exact hr y (List.mem_of_getElem? hri)) h
      exact ⟨by simpa using h1, h2, h3⟩

/-- **C45 (`gnR1R2`).**  If it returns, every `r1[i]` lies in `1..NP1` and differs from `r0[i]`, every `r2[i]` lies in `1..NP2` and differs from
`r1[i]` and `r0[i]`.  The code calls it with `NP1 = popsize-1` and `NP2 = len(popAll)-1` and uses the results as 0-based indices: they are valid, but
member 0 is never a donor. -/
theorem C45_r1r2 {NP1 NP2 : ℕ} {r0 : List ℕ} {d1 d2 : ℕ → ℕ → K} (h1 : 0 < NP1) (h2 : 0 < NP2)
    (hd1 : ∀ t i, 0 ≤ d1 t i ∧ d1 t i < 1) (hd2 : ∀ t i, 0 ≤ d2 t i ∧ d2 t i < 1) {r1 r2 : List ℕ}
    (h : gnR1R2 NP1 NP2 r0 d1 d2 = .ok (r1, r2)) :
    r1.length = r0.length ∧ r2.length = r0.length ∧
      (∀ i a b c : ℕ, r0[i]? = some a → r1[i]? = some b → r2[i]? = some c →
        1 ≤ b ∧ b ≤ NP1 ∧ b ≠ a ∧ 1 ≤ c ∧ c ≤ NP2 ∧ c ≠ a ∧ c ≠ b) := by
  unfold gnR1R2 at h
  split at h
  · cases h
  rename_i q1 hq1
  split at h
  · cases h
  rename_i q2 hq2
  cases h
  have hinit : ∀ (NP : ℕ) (d : ℕ → ℕ → K), 0 < NP → (∀ t i, 0 ≤ d t i ∧ d t i < 1) →
      ∀ x ∈ r0.mapIdx (fun i _ => oneTo NP (d 0 i)), 1 ≤ x ∧ x ≤ NP := by
    intro NP d hp hd x hx
    obtain ⟨i, hi, rfl⟩ := List.mem_mapIdx.1 hx
    exact oneTo_spec hp (hd _ _).1 (hd _ _).2
  obtain ⟨a1, a2, a3⟩ := settle_spec h1 hd1 _ _ _ _ (hinit _ _ h1 hd1) hq1
  obtain ⟨b1, b2, b3⟩ := settle_spec h2 hd2 _ _ _ _ (hinit _ _ h2 hd2) hq2
  refine ⟨by simpa using a1, by simpa using b1, ?_⟩
  intro i a b c ha hb hc
  have e1 := a3 i b hb
  have e2 := b3 i c hc
  have ga : r0.getD i 0 = a := by rw [List.getD_eq_getElem?_getD, ha]; rfl
  have gb : r1.getD i 0 = b := by rw [List.getD_eq_getElem?_getD, hb]; rfl
  rw [ga] at e1
  rw [ga, gb] at e2
  simp only [beq_eq_false_iff_ne, Bool.or_eq_false_iff] at e1 e2
  exact ⟨(a2 b (List.mem_of_getElem? hb)).1, (a2 b (List.mem_of_getElem? hb)).2, e1, (b2 c (List.mem_of_getElem? hc)).1,
    (b2 c (List.mem_of_getElem? hc)).2, e2.2, e2.1⟩

/-- A call with 4 members and 6 rows in `popAll`: entries 1 of `r1` and 2 of `r2` clash at first. -/
example : gnR1R2 3 5 [0, 1, 2, 3] (fun t i => if t = 0 then (0 : ℚ) else 1 / 2) (fun t i => if t = 0 then (i : ℚ) / 5 else 4 / 5) =
    .ok ([1, 2, 1, 1], [5, 5, 3, 4]) := by decide +kernel

/-- With two members the exception is certain: `r1[1]` can only be 1. -/
theorem C45_two_members {d1 d2 : ℕ → ℕ → K} {NP2 : ℕ} (hd1 : ∀ t i, 0 ≤ d1 t i ∧ d1 t i < 1) :
    gnR1R2 1 NP2 [0, 1] d1 d2 = .error .valueError := by
  have h1 : ∀ t i, oneTo 1 (d1 t i) = 1 := fun t i => by
    have := oneTo_spec (NP := 1) (by omega) (hd1 t i).1 (hd1 t i).2; omega
  have key : ∀ fuel t, settle 1 (fun i x => x == [0, 1].getD i 0) d1 fuel t [1, 1] = .error .valueError := by
    intro fuel
    induction fuel with
    | zero => intro t; rfl
    | succ n ih =>
      intro t
      simp only [settle]
      rw [if_neg (by simp)]
      rw [← ih (t + 1)]
      congr 1
      simp [h1]
  unfold gnR1R2
  have : ([0, 1] : List ℕ).mapIdx (fun i _ => oneTo 1 (d1 0 i)) = [1, 1] := by simp [h1]
  rw [this, key]

/-! ### `randFCR` -/

/-- **C45 (`randFCR`).**  The crossover rates lie in [0, 1], one per member; the scale factors, if the redraw loop stops, in (0, 1], one per member. -/
theorem C45_rates (CRm CRs : K) (n : ℕ → K) (NP : ℕ) : (crs CRm CRs n NP).length = NP ∧ ∀ c ∈ crs CRm CRs n NP, 0 ≤ c ∧ c ≤ 1 := by
  unfold crs
  refine ⟨by simp, fun c hc => ?_⟩
  obtain ⟨i, _, rfl⟩ := List.mem_map.1 hc
  exact ⟨le_max_left _ _, max_le (by norm_num) (min_le_right _ _)⟩

theorem fLoop_spec {Fm Fs : K} {t : ℕ → ℕ → K} : ∀ (fuel k : ℕ) (F F' : List K), (∀ f ∈ F, f ≤ 1) → fLoop Fm Fs t fuel k F = some F' →
    F'.length = F.length ∧ ∀ f ∈ F', 0 < f ∧ f ≤ 1 := by
  intro fuel
  induction fuel with
  | zero => intro k F F' _ h; cases h
  | succ fuel ih =>
    intro k F F' hF h
    simp only [fLoop] at h
    split at h
    · rename_i hc
      cases h
      refine ⟨rfl, fun f hf => ⟨?_, hF f hf⟩⟩
      simpa using (List.all_eq_true.1 hc) f hf
    · obtain ⟨h1, h2⟩ := ih _ _ _ (by
        intro f hf
        obtain ⟨i, hi, rfl⟩ := List.mem_mapIdx.1 hf
        exact min_le_left _ _) h
      exact ⟨by simpa using h1, h2⟩

theorem C45_scales {Fm Fs : K} {t : ℕ → ℕ → K} {NP fuel : ℕ} {F : List K} (h : fs Fm Fs t NP fuel = some F) :
    F.length = NP ∧ ∀ f ∈ F, 0 < f ∧ f ≤ 1 := by
  unfold fs at h
  obtain ⟨h1, h2⟩ := fLoop_spec _ _ _ _ (by
    intro f hf
    obtain ⟨i, _, rfl⟩ := List.mem_map.1 hf
    exact min_le_left _ _) h
  exact ⟨by simpa using h1, h2⟩

/-- Two members, the second redrawn twice. -/
example : fs (1 / 2 : ℚ) (1 / 10) (fun k i => if i = 0 then 20 else if k < 2 then -7 else 1) 2 5 = some [1, 3 / 5] := by decide +kernel

/-! ### The archive -/

theorem keepFirst_mem {l : List (List K × K)} {p : List K × K} (h : p ∈ keepFirst l) : p ∈ l := by
  induction l with
  | nil => exact h
  | cons q l ih =>
    simp only [keepFirst, List.mem_cons, List.mem_filter] at h
    rcases h with rfl | ⟨h, _⟩
    · simp
    · simp [ih h]

theorem keepFirst_nodup (l : List (List K × K)) : ((keepFirst l).map (·.1)).Nodup := by
  induction l with
  | nil => simp [keepFirst]
  | cons q l ih =>
    simp only [keepFirst, List.map_cons, List.nodup_cons, List.mem_map, List.mem_filter]
    refine ⟨?_, ?_⟩
    · rintro ⟨p, ⟨_, hp⟩, he⟩
      simp [he] at hp
    · exact ih.sublist (List.filter_sublist.map _)

theorem keepFirst_covers {l : List (List K × K)} {p : List K × K} (h : p ∈ l) : ∃ q ∈ keepFirst l, q.1 = p.1 := by
  induction l with
  | nil => cases h
  | cons a l ih =>
    by_cases he : p.1 = a.1
    · exact ⟨a, by simp [keepFirst], he.symm⟩
    · rcases List.mem_cons.1 h with rfl | h
      · exact absurd rfl he
      · obtain ⟨q, hq, e⟩ := ih h
        exact ⟨q, by simp [keepFirst, hq, e, he], e⟩

/-- **C44 (archive).**  After `UpdateArchive` the archive holds at most `NP` entries, no vector twice, and only old entries or newly given ones; while it
is not full, no vector is lost. -/
theorem C44_archive {cap : ℕ} {srt : List (List K × K) → List (List K × K)} {pos : ℕ → List ℕ} {old new : List (List K × K)}
    (hs : ∀ l, (srt l).Perm l) (hp : ∀ n, (pos n).Perm (List.range n)) :
    (archive cap srt pos old new).length ≤ cap ∧
    ((archive cap srt pos old new).map (·.1)).Nodup ∧ (∀ p ∈ archive cap srt pos old new, p ∈ old ++ new) ∧
    ((keepFirst (old ++ new)).length ≤ cap → ∀ p ∈ old ++ new, ∃ q ∈ archive cap srt pos old new, q.1 = p.1) := by
  have hlen : (archive cap srt pos old new).length ≤ cap := by
    unfold archive; dsimp only
    split_ifs with hc
    · simp
    · omega
  have hnd : ((srt (keepFirst (old ++ new))).map (·.1)).Nodup := ((hs _).map _).nodup_iff.2 (keepFirst_nodup _)
  refine ⟨hlen, ?_, ?_, ?_⟩
  · unfold archive; dsimp only
    split_ifs with hc
    · generalize ha : srt (keepFirst (old ++ new)) = a at *
      rw [List.map_map]
      have h1 : ((pos a.length).take cap).Nodup := ((hp a.length).nodup_iff.2 List.nodup_range).sublist (List.take_sublist _ _)
      refine h1.map_on ?_
      intro x hx y hy he
      have hx' : x < a.length := by simpa using (hp a.length).mem_iff.1 (List.mem_of_mem_take hx)
      have hy' : y < a.length := by simpa using (hp a.length).mem_iff.1 (List.mem_of_mem_take hy)
      simp only [Function.comp, List.getD_eq_getElem a _ hx', List.getD_eq_getElem a _ hy'] at he
      have := (List.nodup_iff_injective_getElem.1 hnd) (a₁ := ⟨x, by simpa using hx'⟩) (a₂ := ⟨y, by simpa using hy'⟩) (by simpa using he)
      simpa using this
    · exact hnd
  · intro p hpm
    unfold archive at hpm; dsimp only at hpm
    have hin : ∀ q ∈ srt (keepFirst (old ++ new)), q ∈ old ++ new := fun q hq => keepFirst_mem ((hs _).mem_iff.1 hq)
    split_ifs at hpm with hc
    · obtain ⟨k, hk, rfl⟩ := List.mem_map.1 hpm
      have hk' : k < (srt (keepFirst (old ++ new))).length := by
        simpa using (hp _).mem_iff.1 (List.mem_of_mem_take hk)
      rw [List.getD_eq_getElem _ _ hk']
      exact hin _ (List.getElem_mem hk')
    · exact hin p hpm
  · intro hc p hpm
    have : ¬ cap < (srt (keepFirst (old ++ new))).length := by rw [(hs _).length_eq]; omega
    unfold archive; dsimp only
    rw [if_neg this]
    obtain ⟨q, hq, e⟩ := keepFirst_covers hpm
    exact ⟨q, (hs _).mem_iff.2 hq, e⟩

/-- Three entries for two places. -/
example : archive 2 id (fun n => (List.range n).reverse) [([1], (5 : ℚ))] [([2], 4), ([1], 3), ([3], 2)] = [([3], 2), ([2], 4)] := by decide +kernel

end
end Neorl.EDEV

import Verif.XNES
import Verif.Sort
import Mathlib.Analysis.SpecialFunctions.Log.Basic
import Mathlib.Analysis.Normed.Algebra.MatrixExponential
import Mathlib.Analysis.Matrix.Spectrum
import Mathlib.Analysis.SpecialFunctions.Exponential
import Mathlib.Data.Fin.VecNotation

/-!
# C27: exponential natural evolution strategy
-/

set_option linter.unusedSectionVars false
set_option linter.unusedVariables false

namespace Neorl.XNES

/-! ### Utilities -/

/-- The unnormalised utility of rank `k` (0 is the best). -/
noncomputable def rawUtil (npop k : ℕ) : ℝ := max 0 (Real.log (1 + (1 / 2) * npop) - Real.log ((k + 1 : ℕ) : ℝ))

theorem rawUtil_anti (npop : ℕ) {i j : ℕ} (h : i ≤ j) : rawUtil npop j ≤ rawUtil npop i := by
  unfold rawUtil
  apply max_le_max le_rfl
  have : Real.log ((i + 1 : ℕ) : ℝ) ≤ Real.log ((j + 1 : ℕ) : ℝ) :=
    Real.log_le_log (by positivity) (by exact_mod_cast Nat.succ_le_succ h)
  linarith

theorem rawUtil_sum_pos {npop : ℕ} (h : 1 ≤ npop) : 0 < ((List.range npop).map (rawUtil npop)).sum := by
  have hpos : 0 < rawUtil npop 0 := by
    unfold rawUtil
    rw [lt_max_iff]
    right
    have h1 : (1 : ℝ) ≤ npop := by exact_mod_cast h
    have : 0 < Real.log (1 + (1 / 2) * (npop : ℝ)) := Real.log_pos (by linarith)
    simpa using this
  obtain ⟨k, rfl⟩ := Nat.exists_eq_add_of_le' h
  rw [List.range_succ_eq_map, List.map_cons, List.sum_cons]
  have : 0 ≤ (List.map (rawUtil (k + 1)) (List.map Nat.succ (List.range k))).sum :=
    List.sum_nonneg (by
      intro v hv
      obtain ⟨i, _, rfl⟩ := List.mem_map.1 hv
      exact le_max_left _ _)
  linarith

theorem utilities_eq (npop : ℕ) : utilities Real.log npop =
    ((List.range npop).map fun k => rawUtil npop k / ((List.range npop).map (rawUtil npop)).sum - 1 / npop).reverse := by
  unfold utilities
  simp only [List.map_map]
  rfl

theorem sum_map_div_sub (l : List ℕ) (f : ℕ → ℝ) (S c : ℝ) : (l.map fun k => f k / S - c).sum = (l.map f).sum / S - l.length * c := by
  induction l with
  | nil => simp
  | cons a l ih => simp only [List.map_cons, List.sum_cons, ih, List.length_cons]; push_cast; ring

/-- C27: the utilities are one per sample, sum to zero, never decrease with the rank (the samples are sorted ascending), are bounded below by
`-1/npop`, and the lower half of the ranking gets exactly that floor; the best sample gets a positive weight. -/
theorem C27_utilities {npop : ℕ} (h : 1 ≤ npop) :
    (utilities Real.log npop).length = npop ∧ (utilities Real.log npop).sum = 0 ∧ (utilities Real.log npop).Pairwise (· ≤ ·) ∧
    (∀ u ∈ utilities Real.log npop, -(1 / (npop : ℝ)) ≤ u) ∧
    (∀ (i : ℕ) (u : ℝ), (utilities Real.log npop)[i]? = some u → 2 * (i + 1) ≤ npop → u = -(1 / (npop : ℝ))) ∧
    (2 ≤ npop → ∀ u, (utilities Real.log npop).getLast? = some u → 0 < u) := by
  have hS := rawUtil_sum_pos h
  have hn : (0 : ℝ) < npop := by exact_mod_cast h
  set S := ((List.range npop).map (rawUtil npop)).sum with hSdef
  rw [utilities_eq, ← hSdef]
  have hsum : ((List.range npop).map fun k => rawUtil npop k / S - 1 / (npop : ℝ)).sum = 0 := by
    rw [sum_map_div_sub, ← hSdef, div_self hS.ne', List.length_range, mul_one_div_cancel hn.ne', sub_self]
  refine ⟨by simp, by rw [List.sum_reverse, hsum], ?_, ?_, ?_, ?_⟩
  · rw [List.pairwise_reverse, List.pairwise_map]
    refine List.pairwise_lt_range.imp ?_
    intro a b hab
    have := div_le_div_of_nonneg_right (rawUtil_anti npop hab.le) hS.le
    linarith
  · intro u hu
    obtain ⟨k, _, rfl⟩ := List.mem_map.1 (List.mem_reverse.1 hu)
    have : 0 ≤ rawUtil npop k / S := div_nonneg (le_max_left _ _) hS.le
    linarith
  · intro i u hu hi
    rw [List.getElem?_reverse (by simp; omega)] at hu
    simp only [List.length_map, List.length_range] at hu
    rw [List.getElem?_map, List.getElem?_range (by omega)] at hu
    simp only [Option.map_some, Option.some.injEq] at hu
    rw [← hu]
    have : rawUtil npop (npop - 1 - i) = 0 := by
      unfold rawUtil
      apply max_eq_left
      have hle : (1 : ℝ) + (1 / 2) * npop ≤ ((npop - 1 - i + 1 : ℕ) : ℝ) := by
        have h2 : 2 + npop ≤ 2 * (npop - 1 - i + 1) := by omega
        have h3 : (2 : ℝ) + npop ≤ 2 * ((npop - 1 - i + 1 : ℕ) : ℝ) := by exact_mod_cast h2
        linarith
      have := Real.log_le_log (by positivity) hle
      linarith
    rw [this]; ring
  · intro h2 u hu
    rw [List.getLast?_reverse] at hu
    obtain ⟨k, rfl⟩ := Nat.exists_eq_add_of_le' h2
    have e0 : (List.range (k + 2)).map (fun j => rawUtil (k + 2) j / S - 1 / ((k + 2 : ℕ) : ℝ)) =
        (rawUtil (k + 2) 0 / S - 1 / ((k + 2 : ℕ) : ℝ)) :: ((List.range (k + 1)).map Nat.succ).map (fun j => rawUtil (k + 2) j / S - 1 / ((k + 2 : ℕ) : ℝ)) := by
      rw [List.range_succ_eq_map, List.map_cons]
    have hu : u = rawUtil (k + 2) 0 / S - 1 / ((k + 2 : ℕ) : ℝ) := by
      rw [e0] at hu
      simpa using hu.symm
    -- the sum is less than `npop` times the first entry
    have hlt : S < ((k + 2 : ℕ) : ℝ) * rawUtil (k + 2) 0 := by
      have hlast : rawUtil (k + 2) (k + 1) < rawUtil (k + 2) 0 := by
        have hp : 0 < Real.log (1 + (1 / 2) * ((k + 2 : ℕ) : ℝ)) := by
          apply Real.log_pos
          have : (2 : ℝ) ≤ ((k + 2 : ℕ) : ℝ) := by exact_mod_cast Nat.le_add_left 2 k
          linarith
        have hr0 : rawUtil (k + 2) 0 = Real.log (1 + (1 / 2) * ((k + 2 : ℕ) : ℝ)) := by
          unfold rawUtil
          rw [zero_add, Nat.cast_one, Real.log_one, sub_zero]
          exact max_eq_right hp.le
        rw [hr0]
        unfold rawUtil
        apply max_lt hp
        have hq : 0 < Real.log ((k + 1 + 1 : ℕ) : ℝ) := Real.log_pos (by exact_mod_cast Nat.lt_add_of_pos_left (Nat.succ_pos k))
        linarith
      have hall : ((List.range (k + 1)).map (rawUtil (k + 2))).sum ≤ ((k + 1 : ℕ) : ℝ) * rawUtil (k + 2) 0 := by
        have := List.sum_le_card_nsmul ((List.range (k + 1)).map (rawUtil (k + 2))) (rawUtil (k + 2) 0) (by
          intro v hv
          obtain ⟨i, _, rfl⟩ := List.mem_map.1 hv
          exact rawUtil_anti _ (Nat.zero_le i))
        simpa [nsmul_eq_mul] using this
      rw [hSdef, List.range_succ, List.map_append, List.sum_append]
      simp only [List.map_cons, List.map_nil, List.sum_cons, List.sum_nil, add_zero]
      push_cast at hall ⊢
      linarith
    rw [hu, sub_pos, div_lt_div_iff₀ hn hS]
    linarith

example : (utilities Real.log 3).sum = 0 := (C27_utilities (by norm_num)).2.1

section
variable {K : Type} [Field K] [LinearOrder K] [IsStrictOrderedRing K]

/-! ### Runs -/

/-- C27: on a fresh object the returned pair is the best of all samples, the history is the best after each generation, the evaluation
count is `ngen * npop`, and every sample lies in the box. -/
theorem C27_evolute {n : ℕ} {c : Conf K n} (hs : ArgsortOK c.argsort) (hb : BoundsOK c.bounds) (hn : c.bounds.length = n) (hp : 0 < c.npop) {m : Bool}
    {userFit : List K → K} {dr : ℕ → List (Fin n → K)} (hd : ∀ k, (dr k).length = c.npop) {ngen : ℕ} {x0 : Fin n → K} {sigma eta : K}
    {bmat : Matrix (Fin n) (Fin n) K} {o : Obj K n} {r : Result K} (h : evolute c m userFit dr ngen x0 (fresh sigma bmat eta) = .ok (o, r)) :
    IsBest m userFit o.log r.x r.y ∧ HistBest m userFit 0 c.npop o.log r.hist ∧ o.log.length = ngen * c.npop ∧ r.hist.length = ngen ∧
    ∀ z ∈ o.log, InBox c.bounds z := by
  unfold evolute at h
  simp only at h
  split at h
  · cases h
  rename_i b hbest
  cases h
  set o0 : Obj K n := { fresh sigma bmat eta with mu := x0 } with ho0
  have h0 : Remembers (fun x => sgn (!m) (userFit x)) o0 := by unfold Remembers; exact rfl
  have hr := run_remembers (c := c) (dr := dr) hs h0 ngen
  obtain ⟨l, hl1, hl2⟩ := run_log (c := c) (fit := fun x => sgn (!m) (userFit x)) hd o0 ngen
  obtain ⟨t, ht1, ht2⟩ := run_hist (c := c) hs hp hd h0 ngen
  have hlen : (run c (fun x => sgn (!m) (userFit x)) dr o0 ngen).log.length = ngen * c.npop := by
    rw [hl1]; simp [ho0, fresh, hl2]
  refine ⟨?_, ?_, hlen, ?_, ?_⟩
  · have hbest : (run c (fun x => sgn (!m) (userFit x)) dr o0 ngen).best = some b := hbest
    unfold Remembers at hr
    rw [hbest] at hr
    exact IsBest.flip hr
  · have e : (run c (fun x => sgn (!m) (userFit x)) dr o0 ngen).hist = t := by rw [ht1]; rfl
    show HistBest m userFit 0 c.npop _ ((run c (fun x => sgn (!m) (userFit x)) dr o0 ngen).hist.map (sgn (!m)))
    rw [e]
    exact HistBest.flip ht2
  · have e : (run c (fun x => sgn (!m) (userFit x)) dr o0 ngen).hist = t := by rw [ht1]; rfl
    show ((run c (fun x => sgn (!m) (userFit x)) dr o0 ngen).hist.map (sgn (!m))).length = ngen
    rw [e, List.length_map]
    have h1 := ht2.1
    rw [hlen] at h1
    have h1 : ngen * c.npop = t.length * c.npop := by simpa [ho0, fresh] using h1
    exact (Nat.eq_of_mul_eq_mul_right hp h1).symm
  · exact run_inBox hb hn (by simp [ho0, fresh]) ngen

/-- C27: a fresh run with at least one generation succeeds. -/
theorem C27_total {n : ℕ} {c : Conf K n} (hs : ArgsortOK c.argsort) (hp : 0 < c.npop) (m : Bool) (userFit : List K → K) {dr : ℕ → List (Fin n → K)}
    (hd : ∀ k, (dr k).length = c.npop) {ngen : ℕ} (hg : 1 ≤ ngen) (x0 : Fin n → K) (sigma eta : K) (bmat : Matrix (Fin n) (Fin n) K) :
    ∃ p, evolute c m userFit dr ngen x0 (fresh sigma bmat eta) = .ok p := by
  set o0 : Obj K n := { fresh sigma bmat eta with mu := x0 } with ho0
  have h0 : Remembers (fun x => sgn (!m) (userFit x)) o0 := by unfold Remembers; exact rfl
  have hr := run_remembers (c := c) (dr := dr) hs h0 ngen
  obtain ⟨l, hl1, hl2⟩ := run_log (c := c) (fit := fun x => sgn (!m) (userFit x)) hd o0 ngen
  unfold evolute
  simp only
  cases e : (finish m (run c (fun x => sgn (!m) (userFit x)) dr o0 ngen)).best with
  | some b => exact ⟨_, rfl⟩
  | none =>
    have e : (run c (fun x => sgn (!m) (userFit x)) dr o0 ngen).best = none := e
    unfold Remembers at hr
    rw [e] at hr
    have hr : (run c (fun x => sgn (!m) (userFit x)) dr o0 ngen).log = [] := hr
    rw [hl1] at hr
    have := congrArg List.length hr
    simp [hl2] at this
    omega

/-- C27: calling `evolute` again on the same object keeps the best of both calls, but (defect) the history of the first call changes sign in
mode `min`: the list returned by the second call is the negated old history followed by the new entries. -/
theorem C27_second_call {n : ℕ} {c : Conf K n} (hs : ArgsortOK c.argsort) (hp : 0 < c.npop) {m : Bool} {userFit : List K → K}
    {dr dr' : ℕ → List (Fin n → K)} (hd' : ∀ k, (dr' k).length = c.npop) {ngen ngen' : ℕ} {x0 x0' : Fin n → K}
    {sigma eta : K} {bmat : Matrix (Fin n) (Fin n) K} {o o' : Obj K n} {r r' : Result K}
    (h : evolute c m userFit dr ngen x0 (fresh sigma bmat eta) = .ok (o, r)) (h' : evolute c m userFit dr' ngen' x0' o = .ok (o', r')) :
    IsBest m userFit o'.log r'.x r'.y ∧ (∃ l, o'.log = o.log ++ l) ∧
    ∃ t, r'.hist = r.hist.map (sgn (!m)) ++ t ∧ HistBest m userFit o.log.length c.npop o'.log t := by
  unfold evolute at h h'
  simp only at h h'
  split at h
  · cases h
  rename_i b hbest
  cases h
  split at h'
  · cases h'
  rename_i b' hbest'
  cases h'
  set o0 : Obj K n := { fresh sigma bmat eta with mu := x0 } with ho0
  have h0 : Remembers (fun x => sgn (!m) (userFit x)) o0 := by unfold Remembers; exact rfl
  have hr := run_remembers (c := c) (dr := dr) hs h0 ngen
  set o1 := finish m (run c (fun x => sgn (!m) (userFit x)) dr o0 ngen) with ho1
  have h1 : Remembers (fun x => sgn (!m) (userFit x)) { o1 with mu := x0' } := hr
  have hr' := run_remembers (c := c) (dr := dr') hs h1 ngen'
  obtain ⟨l, hl1, hl2⟩ := run_log (c := c) (fit := fun x => sgn (!m) (userFit x)) hd' { o1 with mu := x0' } ngen'
  obtain ⟨t, ht1, ht2⟩ := run_hist (c := c) hs hp hd' h1 ngen'
  refine ⟨?_, ⟨l, hl1⟩, t.map (sgn (!m)), ?_, HistBest.flip ht2⟩
  · have hbest' : (run c (fun x => sgn (!m) (userFit x)) dr' { o1 with mu := x0' } ngen').best = some b' := hbest'
    unfold Remembers at hr'
    rw [hbest'] at hr'
    exact IsBest.flip hr'
  · show ((run c (fun x => sgn (!m) (userFit x)) dr' { o1 with mu := x0' } ngen').hist.map (sgn (!m))) = o1.hist.map (sgn (!m)) ++ t.map (sgn (!m))
    rw [ht1, List.map_append]

/-- C27: the branch that would record `mu_best` is dead: the mean fitness of a generation never beats the best. -/
theorem C27_mu_best_never_set {n : ℕ} {c : Conf K n} (hs : ArgsortOK c.argsort) (he : 0 ≤ c.eps) (hp : 0 < c.npop) {fit : List K → K}
    {dr : ℕ → List (Fin n → K)} (hd : ∀ k, (dr k).length = c.npop) {o : Obj K n} (h : Remembers fit o) (k : ℕ) :
    (run c fit dr o k).muBest = o.muBest ∧ (run c fit dr o k).counter = o.counter + k := by
  induction k with
  | zero => exact ⟨rfl, rfl⟩
  | succ k ih =>
    have hne : dr k ≠ [] := by
      intro e
      have := hd k
      rw [e] at this
      simp at this
      omega
    obtain ⟨h1, h2⟩ := gen_muBest (c := c) (ss := dr k) hs he hne (run_remembers (dr := dr) hs h k)
    refine ⟨by rw [run, h1, ih.1], by rw [run, h2, ih.2]; omega⟩

/-- C27: the step size stays positive and the shape matrix keeps its determinant: the two adapt scale and shape separately. -/
theorem C27_distribution {n : ℕ} (hn : 0 < n) {c : Conf K n} (hm : ExpmOK c.expm) (he : ∀ v, 0 < c.expf v) {fit : List K → K}
    {dr : ℕ → List (Fin n → K)} {o : Obj K n} (h : 0 < o.sigma) (k : ℕ) :
    0 < (run c fit dr o k).sigma ∧ (run c fit dr o k).bmat.det = o.bmat.det :=
  ⟨run_sigma he h k, run_det hn hm k⟩

/-- C27: with fitness shaping (more than one sample) a strictly increasing transformation of the fitness changes nothing but the reported
fitness value: the same points are evaluated and the same individual is returned. -/
theorem C27_rank_invariant {n : ℕ} {c : Conf K n} (h1 : c.npop ≠ 1) (hc : Comparing c.argsort) {φ : K → K} (hφ : StrictMono φ) (m : Bool)
    (userFit : List K → K) (dr : ℕ → List (Fin n → K)) (ngen : ℕ) (x0 : Fin n → K) (sigma eta : K) (bmat : Matrix (Fin n) (Fin n) K) {o : Obj K n}
    {r : Result K} (h : evolute c m userFit dr ngen x0 (fresh sigma bmat eta) = .ok (o, r)) :
    ∃ o' r', evolute c m (fun x => φ (userFit x)) dr ngen x0 (fresh sigma bmat eta) = .ok (o', r') ∧ r'.x = r.x ∧ r'.y = φ r.y ∧ o'.log = o.log ∧
      o'.mu = o.mu ∧ o'.sigma = o.sigma ∧ o'.bmat = o.bmat := by
  have hψ : StrictMono (fun v => sgn (!m) (φ (sgn (!m) v))) := by
    cases m with
    | true => intro a b hab; simpa [sgn] using hφ (neg_lt_neg hab)
    | false => intro a b hab; simpa [sgn] using hφ hab
  have hfit : (fun x => sgn (!m) (φ (userFit x))) = fun x => (fun v => sgn (!m) (φ (sgn (!m) v))) (sgn (!m) (userFit x)) := by
    funext x; simp
  set o0 : Obj K n := { fresh sigma bmat eta with mu := x0 } with ho0
  have h0 : Same (fun v => sgn (!m) (φ (sgn (!m) v))) o0 o0 := ⟨rfl, rfl, rfl, rfl, rfl, rfl, rfl⟩
  have hS := run_same (c := c) (fit := fun x => sgn (!m) (userFit x)) (dr := dr) h1 hc hψ h0 ngen
  rw [← hfit] at hS
  unfold evolute at h ⊢
  simp only at h ⊢
  split at h
  · cases h
  rename_i b hb
  cases h
  have hb : (run c (fun x => sgn (!m) (userFit x)) dr o0 ngen).best = some b := hb
  have hb' : (finish m (run c (fun x => sgn (!m) (φ (userFit x))) dr o0 ngen)).best = some (b.1, sgn (!m) (φ (sgn (!m) b.2))) := by
    show (run c (fun x => sgn (!m) (φ (userFit x))) dr o0 ngen).best = _
    rw [hS.best, hb]
    rfl
  rw [hb']
  exact ⟨_, _, rfl, rfl, by simp, hS.log, hS.mu, hS.sigma, hS.bmat⟩

/-- Without a generation there is no result. -/
theorem C27_no_generation {n : ℕ} (c : Conf K n) (m : Bool) (userFit : List K → K) (dr : ℕ → List (Fin n → K)) (x0 : Fin n → K) (sigma eta : K)
    (bmat : Matrix (Fin n) (Fin n) K) : evolute c m userFit dr 0 x0 (fresh sigma bmat eta) = .error .unboundLocal := rfl

/-! ### The parameters exist -/

/-- Stable argsort. -/
def stableArgsort (l : List K) : List ℕ := sortAsc (fun i => l.getD i 0) (List.range l.length)

theorem stableArgsort_ok : ArgsortOK (K := K) stableArgsort := fun l => ⟨sortAsc_perm _ _, sortAsc_sorted _ _⟩

theorem insertionSort_congr {β : Type} {r r' : β → β → Prop} [DecidableRel r] [DecidableRel r'] {l : List β}
    (h : ∀ a ∈ l, ∀ b ∈ l, r a b ↔ r' a b) : l.insertionSort r = l.insertionSort r' := by
  have hins : ∀ (a : β) (l : List β), (∀ b ∈ l, r a b ↔ r' a b) → l.orderedInsert r a = l.orderedInsert r' a := by
    intro a l
    induction l with
    | nil => intro _; rfl
    | cons b l ih =>
      intro h
      simp only [List.orderedInsert]
      by_cases hr : r a b
      · rw [if_pos hr, if_pos ((h b (by simp)).1 hr)]
      · rw [if_neg hr, if_neg (fun h' => hr ((h b (by simp)).2 h')), ih (fun c hc => h c (by simp [hc]))]
  induction l with
  | nil => rfl
  | cons a l ih =>
    simp only [List.insertionSort_cons]
    rw [ih (fun x hx y hy => h x (by simp [hx]) y (by simp [hy])), hins]
    intro b hb
    exact h a (by simp) b (by simp [(List.mem_insertionSort _).1 hb])

theorem stableArgsort_comparing : Comparing (K := K) stableArgsort := by
  intro φ l hφ
  unfold stableArgsort sortAsc
  rw [List.length_map]
  apply insertionSort_congr
  intro a ha b hb
  have ha := List.mem_range.1 ha
  have hb := List.mem_range.1 hb
  simp only [List.getD_eq_getElem?_getD, List.getElem?_map, List.getElem?_eq_getElem ha, List.getElem?_eq_getElem hb, Option.map_some,
    Option.getD_some]
  exact hφ.le_iff_le

end

/-- The real matrix exponential has the property used by `C27_distribution`. -/
theorem expmOK_exp (n : ℕ) : ExpmOK (K := ℝ) (n := n) NormedSpace.exp := by
  intro M hM htr
  have hH : M.IsHermitian := by
    show M.conjTranspose = M
    rw [Matrix.conjTranspose_eq_transpose_of_trivial, hM]
  have hsp := hH.spectral_theorem
  rw [Unitary.conjStarAlgAut_apply] at hsp
  set U : Matrix (Fin n) (Fin n) ℝ := (hH.eigenvectorUnitary : Matrix (Fin n) (Fin n) ℝ) with hU
  have hUinv : (star U) * U = 1 := Unitary.coe_star_mul_self hH.eigenvectorUnitary
  have hUinv' : U * (star U) = 1 := Unitary.coe_mul_star_self hH.eigenvectorUnitary
  let u : (Matrix (Fin n) (Fin n) ℝ)ˣ := ⟨U, star U, hUinv', hUinv⟩
  have hexp : NormedSpace.exp M = U * NormedSpace.exp (Matrix.diagonal (RCLike.ofReal ∘ hH.eigenvalues)) * star U := by
    conv_lhs => rw [hsp]
    exact Matrix.exp_units_conj u _
  rw [hexp, Matrix.det_mul, Matrix.det_mul, mul_right_comm, ← Matrix.det_mul, hUinv', Matrix.det_one, one_mul, Matrix.exp_diagonal, Matrix.det_diagonal]
  have h1 : ∀ i, (NormedSpace.exp (RCLike.ofReal ∘ hH.eigenvalues : Fin n → ℝ)) i = Real.exp (hH.eigenvalues i) := by
    intro i
    rw [Pi.coe_exp, Real.exp_eq_exp_ℝ]
    rfl
  simp only [h1]
  rw [← Real.exp_sum]
  have : ∑ i, hH.eigenvalues i = 0 := by
    have := hH.trace_eq_sum_eigenvalues
    rw [htr] at this
    simpa using this.symm
  rw [this, Real.exp_zero]

/-- A two-dimensional search with two samples, on rationals with stand-ins for the transcendental functions. -/
def exConf : Conf ℚ 2 :=
  { bounds := [(0, 4), (0, 4)], npop := 2, etaMu := 1, etaB := 1, util := [-1 / 2, 1 / 2], eps := 1 / 100000000, expf := fun v => 1 + v ^ 2,
    expm := fun _ => 1, argsort := stableArgsort, adasam := fun e _ _ _ _ _ => e }

def exDraw (k : ℕ) : List (Fin 2 → ℚ) := [![1, 0], ![-1, 9]]

example : BoundsOK exConf.bounds := by unfold BoundsOK; decide +kernel

example : (match evolute exConf true (fun x => x.getD 0 0 + x.getD 1 0) exDraw 2 ![2, 2] (fresh 1 1 1) with
    | .ok (o, r) => decide (o.log.length = 4 ∧ r.hist.length = 2 ∧ r.hist.getD 1 0 ≤ r.hist.getD 0 0) | _ => false) = true := by decide +kernel

example : ∀ k, (exDraw k).length = exConf.npop := fun _ => rfl

end Neorl.XNES

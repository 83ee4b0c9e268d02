import Verif.GWO

/-!
# Property theorems C16: grey wolf optimiser
-/

set_option linter.unusedSectionVars false
set_option linter.unusedVariables false

namespace Neorl.GWO

section
variable {K : Type} [Field K] [LinearOrder K] [IsStrictOrderedRing K] [FloorRing K]

/-- Everything known about the state after `g` generations. -/
structure Inv (c : Conf K) (fit : List K → K) (g : ℕ) (s : State K) : Prop where
  npos : s.pos.length = c.nwolves
  feas : ∀ p ∈ s.pos, c.S.Feasible p
  three : ThreeBest fit s.log s.lead.alpha s.lead.beta s.lead.delta
  best : RunMin fit s.log s.best
  alpha : s.best.1 = s.lead.alpha.1
  nlog : s.log.length = g * c.nwolves
  flog : ∀ p ∈ s.log, c.S.Feasible p
  lens : s.hAlpha.length = g ∧ s.hBeta.length = g ∧ s.hDelta.length = g ∧ s.hFit.length = g
  hist : ∀ k, k < g → ∃ A B D : WithTop K × List K, s.hAlpha[k]? = some A.1 ∧ s.hBeta[k]? = some B.1 ∧
    s.hDelta[k]? = some D.1 ∧ s.hFit[k]? = some A.1 ∧ ThreeBest fit (s.log.take ((k + 1) * c.nwolves)) A B D
  last : g ≠ 0 → s.last = (s.log.drop ((g - 1) * c.nwolves)).map (fun x => (x, fit x))

theorem Inv.step {c : Conf K} (hS : c.S.OK) {fit : List K → K} {g : ℕ} {dr : Draw K} {s s' : State K}
    (hi : Inv c fit g s) (h : gen c fit g dr s = .ok s') : Inv c fit (g + 1) s' := by
  obtain ⟨a, pos', ha, hp, rfl⟩ := gen_ok h
  have hclip : s.pos.map c.S.clip = s.pos := Space.map_clip hi.feas
  have hcong : ∀ p ∈ s.pos, fit (c.S.clip p) = fit p := fun p hp => by rw [Space.clip_of_inBox (hi.feas p hp).1]
  have eL : leadAll (fun p => fit (c.S.clip p)) s.lead s.pos = leadAll fit s.lead s.pos := leadAll_congr hcong _
  have eB : updAll (fun p => fit (c.S.clip p)) s.best s.pos = updAll fit s.best s.pos := updAll_congr hcong _
  have eT : s.pos.map (fun p => (p, fit (c.S.clip p))) = s.pos.map (fun p => (p, fit p)) :=
    List.map_congr_left (fun p hp => by rw [hcong p hp])
  rw [eL] at hp
  simp only [eL, eB, eT, hclip]
  have h3 := leadAll_spec hi.three s.pos
  have hb := hi.best.updAll s.pos
  obtain ⟨-, -, hA⟩ := h3.alpha_le
  have hAB : (updAll fit s.best s.pos).1 = (leadAll fit s.lead s.pos).alpha.1 := by
    apply le_antisymm
    · rcases hA.2 with h | ⟨h, e⟩
      · rw [h]; exact le_top
      · rw [e]; exact hb.1 _ h
    · rcases hb.2 with h | ⟨h, e⟩
      · rw [h]; exact le_top
      · rw [e]; exact hA.1 _ h
  obtain ⟨l1, l2, l3, l4⟩ := hi.lens
  refine ⟨?_, ?_, h3, hb, hAB, ?_, ?_, ?_, ?_, ?_⟩
  · rw [(mapRows_ok hp).1, hi.npos]
  · exact mapRows_forall hp (P := fun p => c.S.Feasible p) hi.feas
      (fun k x y hx hy => move_feasible hS hx.1.length_eq hy)
  · simp [hi.nlog, hi.npos]; ring
  · intro p hp
    rcases List.mem_append.1 hp with h | h
    · exact hi.flog p h
    · exact hi.feas p h
  · simp [l1, l2, l3, l4]
  · intro k hk
    rcases Nat.lt_succ_iff_lt_or_eq.1 hk with hk | rfl
    · obtain ⟨A, B, D, e1, e2, e3, e4, h⟩ := hi.hist k hk
      refine ⟨A, B, D, ?_, ?_, ?_, ?_, ?_⟩
      · rw [List.getElem?_append_left (by omega), e1]
      · rw [List.getElem?_append_left (by omega), e2]
      · rw [List.getElem?_append_left (by omega), e3]
      · rw [List.getElem?_append_left (by omega), e4]
      · rw [List.take_append_of_le_length]
        · exact h
        · rw [hi.nlog]; gcongr; omega
    · refine ⟨(leadAll fit s.lead s.pos).alpha, (leadAll fit s.lead s.pos).beta, (leadAll fit s.lead s.pos).delta,
        ?_, ?_, ?_, ?_, ?_⟩
      · simp [l1]
      · simp [l2]
      · simp [l3]
      · simp [l4, hAB]
      · rw [List.take_of_length_le]
        · exact h3
        · simp [hi.nlog, hi.npos]; ring_nf; omega
  · intro _
    simp only [Nat.add_sub_cancel]
    rw [List.drop_append_of_le_length (by rw [hi.nlog]), List.drop_of_length_le (by rw [hi.nlog])]
    simp

theorem run_inv {c : Conf K} (hS : c.S.OK) {fit : List K → K} {dr : ℕ → Draw K} {pos0 : List (List K)}
    (hn : pos0.length = c.nwolves) (hf : ∀ p ∈ pos0, c.S.Feasible p) {g : ℕ} {s : State K}
    (h : run c fit dr pos0 g = .ok s) : Inv c fit g s := by
  induction g generalizing s with
  | zero =>
    cases h
    exact ⟨hn, hf, threeBest_nil _ _ _ _, runMin_nil _ _, rfl, by simp, by simp, by simp, by simp, by simp⟩
  | succ g ih =>
    simp only [run] at h
    split at h
    · cases h
    · rename_i s0 h0
      exact (ih h0).step hS h

/-- **C16.** After any number of generations alpha, beta and delta hold the best, second best and third best distinct
fitness among everything evaluated so far, each with an evaluated position of that fitness; in particular
`alpha ≤ beta ≤ delta` and alpha is the minimum of everything evaluated. -/
theorem C16_leaders {c : Conf K} (hS : c.S.OK) {fit : List K → K} {dr : ℕ → Draw K} {pos0 : List (List K)}
    (hn : pos0.length = c.nwolves) (hf : ∀ p ∈ pos0, c.S.Feasible p) {g : ℕ} {s : State K}
    (h : run c fit dr pos0 g = .ok s) :
    ThreeBest fit s.log s.lead.alpha s.lead.beta s.lead.delta ∧ s.lead.alpha.1 ≤ s.lead.beta.1 ∧
    s.lead.beta.1 ≤ s.lead.delta.1 ∧ (∀ z ∈ s.log, s.lead.alpha.1 ≤ (fit z : WithTop K)) := by
  have hi := run_inv hS hn hf h
  obtain ⟨h1, h2, h3⟩ := hi.three.alpha_le
  exact ⟨hi.three, h1, h2, h3.1⟩

/-- **C16.** The same holds at every moment inside a generation, i.e. after the wolves `0..j-1` have been compared. -/
theorem C16_leaders_midway {c : Conf K} (hS : c.S.OK) {fit : List K → K} {dr : ℕ → Draw K} {pos0 : List (List K)}
    (hn : pos0.length = c.nwolves) (hf : ∀ p ∈ pos0, c.S.Feasible p) {g : ℕ} {s : State K}
    (h : run c fit dr pos0 g = .ok s) (j : ℕ) :
    let L := leadAll (fun p => fit (c.S.clip p)) s.lead (s.pos.take j)
    ThreeBest fit (s.log ++ s.pos.take j) L.alpha L.beta L.delta ∧ L.alpha.1 ≤ L.beta.1 ∧ L.beta.1 ≤ L.delta.1 := by
  have hi := run_inv hS hn hf h
  intro L
  have e : L = leadAll fit s.lead (s.pos.take j) :=
    leadAll_congr (fun p hp => by rw [Space.clip_of_inBox (hi.feas p (List.mem_of_mem_take hp)).1]) _
  have := leadAll_spec hi.three (s.pos.take j)
  rw [← e] at this
  exact ⟨this, this.alpha_le.1, this.alpha_le.2.1⟩

/-- **C16.** What `evolute` returns: the returned pair is the best evaluated point with its user-level fitness, the fitness history is
exactly the best-so-far after each generation (so it never gets worse), there are `ngen * nwolves` evaluations, all at
feasible points, the alpha history equals the fitness history, and the returned last population is the last evaluated pack
with its fitness. -/
theorem C16_evolute {c : Conf K} (hS : c.S.OK) {m : Bool} {userFit : List K → K} {dr : ℕ → Draw K}
    {pos0 : List (List K)} (hf : ∀ p ∈ pos0, c.S.Feasible p) {r : Result K}
    (h : evolute c m userFit dr pos0 = .ok r) :
    IsBest m userFit r.log r.x r.y ∧
    (∃ hist : List K, r.hFit = hist.map some ∧ hist.length = c.ngen ∧ HistBest m userFit 0 c.nwolves r.log hist ∧
      hist.Pairwise (NotWorse m) ∧ hist.getLast? = some r.y) ∧
    r.hAlpha = r.hFit ∧ r.log.length = c.ngen * c.nwolves ∧ (∀ x ∈ r.log, c.S.Feasible x) ∧ c.S.Feasible r.x ∧
    r.lastPop = (r.log.drop ((c.ngen - 1) * c.nwolves)).map (fun x => (x, userFit x)) := by
  unfold evolute at h
  by_cases hn : pos0.length = c.nwolves
  swap
  · rw [if_pos hn] at h; cases h
  rw [if_neg (by simpa using hn)] at h
  split at h
  · cases h
  rename_i s hs
  have hi := run_inv hS hn hf hs
  split at h
  · cases h
  rename_i y hy
  cases h
  obtain ⟨y0, hb, rfl⟩ := outScore_eq_some hy
  have hne : s.log ≠ [] := by
    intro h0
    rcases hi.best.2 with h | h
    · rw [hb] at h; exact absurd h WithTop.coe_ne_top
    · rw [h0] at h; simp at h
  have hpos : c.ngen ≠ 0 ∧ c.nwolves ≠ 0 := by
    have : s.log.length ≠ 0 := by simpa using hne
    rw [hi.nlog] at this
    exact ⟨fun h => this (by rw [h]; simp), fun h => this (by rw [h]; simp)⟩
  have hbest := hi.best.isBest hb
  obtain ⟨l1, l2, l3, l4⟩ := hi.lens
  -- finite history values
  have hk : ∀ k, k < c.ngen → ∃ v : K, s.hFit[k]? = some (v : WithTop K) ∧ s.hAlpha[k]? = some (v : WithTop K) ∧
      MinOn (fun x => sgn m (userFit x)) (s.log.take ((k + 1) * c.nwolves)) v := by
    intro k hk
    obtain ⟨A, B, D, e1, e2, e3, e4, h3⟩ := hi.hist k hk
    have hr := h3.alpha_le.2.2
    have : (s.log.take ((k + 1) * c.nwolves)) ≠ [] := by
      have h1 : 0 < (k + 1) * c.nwolves := Nat.mul_pos (by omega) (by omega)
      simp [hne]; omega
    obtain ⟨v, hv, hm⟩ := hr.minOn this
    exact ⟨v, by rw [e4, hv], by rw [e1, hv], hm⟩
  choose! hv h1 h2 h3 using hk
  have eF : s.hFit = (List.range c.ngen).map (fun k => ((hv k : K) : WithTop K)) := by
    apply List.ext_getElem?
    intro k
    by_cases hk : k < c.ngen
    · rw [h1 k hk]; simp [hk]
    · rw [List.getElem?_eq_none (by omega), List.getElem?_eq_none (by simp; omega)]
  have eA : s.hAlpha = (List.range c.ngen).map (fun k => ((hv k : K) : WithTop K)) := by
    apply List.ext_getElem?
    intro k
    by_cases hk : k < c.ngen
    · rw [h2 k hk]; simp [hk]
    · rw [List.getElem?_eq_none (by omega), List.getElem?_eq_none (by simp; omega)]
  have hH : HistMin (fun x => sgn m (userFit x)) 0 c.nwolves s.log ((List.range c.ngen).map hv) := by
    refine ⟨by simp [hi.nlog], ?_⟩
    intro k y hy
    rw [List.getElem?_map] at hy
    by_cases hk : k < c.ngen
    · simp [List.getElem?_range hk] at hy
      subst hy
      simpa using h3 k hk
    · rw [List.getElem?_eq_none (by simp; omega)] at hy; cases hy
  refine ⟨hbest, ⟨((List.range c.ngen).map hv).map (sgn m), ?_, by simp, hH.histBest, hH.histBest.pairwise, ?_⟩, ?_,
    hi.nlog, hi.flog, hi.flog _ hbest.1, ?_⟩
  · rw [eF]; simp only [List.map_map]; apply List.map_congr_left; intro _ _; rfl
  · have hlast := h3 (c.ngen - 1) (by omega)
    rw [Nat.sub_add_cancel (by omega), List.take_of_length_le (by rw [hi.nlog])] at hlast
    have : hv (c.ngen - 1) = y0 := by
      apply BestOn.unique (m := true) (f := fun x => sgn m (userFit x)) (l := s.log)
      · exact ⟨hlast.1, fun z hz => by simpa [NotWorse] using hlast.2 z hz⟩
      · obtain ⟨w, e1, e2⟩ := hi.best.minOn hne
        rw [hb] at e1
        have : y0 = w := by exact_mod_cast e1
        subst this
        exact ⟨e2.1, fun z hz => by simpa [NotWorse] using e2.2 z hz⟩
    rw [List.getLast?_eq_getElem?]
    simp only [List.length_map, List.length_range, List.getElem?_map]
    rw [List.getElem?_range (by omega)]
    simp [this]
  · rw [eF, eA]
  · simp only [hi.last hpos.1, List.map_map]
    apply List.map_congr_left
    intro x _
    simp

/-- **C16.** A run with the default `a` (or a list of the right length), at least one wolf and one generation and `nearest_int`
always returns. -/
theorem C16_total {c : Conf K} (hS : c.S.OK) (hm : c.S.method = .nearestInt) {m : Bool} {userFit : List K → K}
    {dr : ℕ → Draw K} {pos0 : List (List K)} (hf : ∀ p ∈ pos0, c.S.Feasible p) (hn : pos0.length = c.nwolves)
    (h0 : 0 < c.nwolves) (hg : 0 < c.ngen) (ha : ∀ as, c.a = some as → as.length = c.ngen) :
    ∃ r, evolute c m userFit dr pos0 = .ok r := by
  have hA : ∀ l, l < c.ngen → ∃ a, coefA c l = .ok a := by
    intro l hl
    unfold coefA
    cases h : c.a with
    | none => exact ⟨_, rfl⟩
    | some as =>
      have := ha as h
      simp only [this, if_true]
      rw [List.getElem?_eq_getElem (by omega)]
      exact ⟨_, rfl⟩
  have hr : ∀ g, g ≤ c.ngen → ∃ s, run c (fun x => sgn m (userFit x)) dr pos0 g = .ok s := by
    intro g
    induction g with
    | zero => intro _; exact ⟨_, rfl⟩
    | succ g ih =>
      intro hg'
      obtain ⟨s, hs⟩ := ih (by omega)
      have hi := run_inv hS hn hf hs
      obtain ⟨a, ha⟩ := hA g (by omega)
      have hrow := mapRows_total (P := fun p => c.S.Feasible p)
        (f := move c (1 - (g : K) * (1 / (c.ngen : K))) a (dr g)
          (leadAll (fun p => sgn m (userFit (c.S.clip p))) s.lead s.pos)) (i := 0) (xs := s.pos) hi.feas
        (fun k x hx => Space.disc_nearest_total hS hm _ _ (by
          rw [Space.length_clip hS (by rw [length_moveRow, hx.1.length_eq])]))
      obtain ⟨pos', hp⟩ := hrow
      cases hfin : run c (fun x => sgn m (userFit x)) dr pos0 (g + 1) with
      | ok s' => exact ⟨s', rfl⟩
      | error e => simp only [run, hs, gen, ha, hp] at hfin; cases hfin
  obtain ⟨s, hs⟩ := hr c.ngen le_rfl
  have hi := run_inv hS hn hf hs
  have hne : s.log ≠ [] := by
    intro h
    have := hi.nlog
    rw [h] at this
    have := Nat.mul_pos hg h0
    simp at *; omega
  obtain ⟨y, hy, _⟩ := hi.best.minOn hne
  unfold evolute
  rw [if_neg (by simpa using hn), hs]
  simp only [hy, outScore_coe]
  exact ⟨_, rfl⟩

/-- **C16.** With no generation nothing is evaluated and the call raises instead of returning a stale optimum. -/
theorem C16_no_generation {c : Conf K} (hg : c.ngen = 0) {m : Bool} {userFit : List K → K} {dr : ℕ → Draw K}
    {pos0 : List (List K)} (hn : pos0.length = c.nwolves) : evolute c m userFit dr pos0 = .error .unboundLocal := by
  unfold evolute
  rw [if_neg (by simpa using hn), hg]
  rfl

/-! ### A concrete run -/

def exS : Space ℚ := { bounds := [(-5, 5), (0, 3)], types := [.float, .int], method := .nearestInt, expf := fun x => x }
def exC : Conf ℚ := { S := exS, nwolves := 3, ngen := 2, a := none }
def exFit : List ℚ → ℚ := fun x => (x.map (fun v => v * v)).sum
def exPos : List (List ℚ) := [[3, 1], [-2, 2], [4, 0]]
def exDr : ℕ → Draw ℚ := fun g => { r := fun i j k => (1 : ℚ) / (g + i + j + k + 2), disc := fun _ _ => (0, 0) }

example : exS.OK := Space.ok_of_okB (by decide +kernel)

example : ∀ p ∈ exPos, exS.Feasible p := Space.feasible_all (by decide +kernel)

example : (match evolute exC true exFit exDr exPos with | .ok r => decide (r.log.length = 6 ∧ r.y = 8 ∧ r.x = [-2, 2]) | _ => false) = true := by
  decide +kernel

end
end Neorl.GWO

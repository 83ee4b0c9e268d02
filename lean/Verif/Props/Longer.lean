import Verif.Longer
import Verif.Props.DE
import Verif.Props.JAYA
import Verif.Props.CS
import Verif.Props.PSO
import Verif.Props.ACO
import Verif.Props.ES
import Verif.Props.XNES
import Verif.GWO
import Verif.WOA
import Verif.SSA
import Verif.Props.MFO

/-!
# C142: more generations, and runs continued from the last population

The documentation of every optimizer tells the user to raise `ngen` for a better answer, and AEO (`neorl/hybrid/aeo.py`, lines 323-324) continues every member of its
ensemble from the positions it ended at.  Proved here: for DE, JAYA, CS, PSO (with a weight that does not follow the generation number), ACO, ES and XNES a run with more
generations and the same random numbers is the shorter run continued, so all its records extend those of the shorter run and its answer is not worse; DE continued from its
last population is exactly the longer run, and CS continued from its last population is never worse.  The defect theorems are runs of JAYA, PSO, GWO, WOA, SSA and MFO for
which this fails.
-/

set_option linter.unusedSectionVars false
set_option linter.unusedVariables false

namespace Neorl.Longer

open Neorl.Reorder (Plain)

/-- Specification: the records of one run extend those of another: evaluated points, best-so-far history, best-per-generation history. -/
structure Extends {K : Type} (log log' : List (List K)) (best best' gens gens' : List K) : Prop where
  log : log <+: log'
  best : best <+: best'
  gens : gens <+: gens'

section
variable {K : Type} [Field K] [LinearOrder K] [IsStrictOrderedRing K] [FloorRing K]

/-- **C142, DE.** The run with `n'` generations extends the run with `n ≤ n'` generations. -/
theorem C142_longer_de {c : Neorl.DE.Conf K} (hp : Plain c.S) {m : Bool} {f : List K → K} {dr : ℕ → ℕ → Neorl.DE.Draw K} {rl : ℕ → List (ℕ × List K)}
    {pop0 : List (List K)} {n n' : ℕ} (hn : 0 < n) (hnn : n ≤ n') {r' : Neorl.DE.Result K} (h : Neorl.DE.evolute { c with ngen := n' } m f dr rl pop0 = .ok r') :
    ∃ r, Neorl.DE.evolute { c with ngen := n } m f dr rl pop0 = .ok r ∧ Extends r.log r'.log r.globalFitness r'.globalFitness r.localFitness r'.localFitness := by
  unfold Neorl.DE.evolute at h ⊢
  simp only [DE.run_ngen hp] at h ⊢
  have key : ∀ fit : List K → K, ∀ s', Neorl.DE.run c fit dr rl pop0 n' = .ok s' →
      ∃ s x, Neorl.DE.run c fit dr rl pop0 n = .ok s ∧ s.last = some x ∧ s.log <+: s'.log ∧ s.best <+: s'.best := by
    intro fit s' hs'
    obtain ⟨k, rfl⟩ := Nat.exists_eq_add_of_le hnn
    cases hr : Neorl.DE.run c fit dr rl pop0 n with
    | error e =>
      exfalso
      clear h hnn
      induction k generalizing s' with
      | zero => rw [Nat.add_zero, hr] at hs'; cases hs'
      | succ k ih =>
        rw [← Nat.add_assoc] at hs'
        simp only [Neorl.DE.run] at hs'
        cases h1 : Neorl.DE.run c fit dr rl pop0 (n + k) with
        | error e => rw [h1] at hs'; cases hs'
        | ok s1 => exact ih _ h1
    | ok s =>
      rw [DE.run_split n k hr] at hs'
      obtain ⟨x, hx⟩ := Option.ne_none_iff_exists'.1 (fun e => hn.ne' ((DE.run_last hr).1 e))
      refine ⟨s, x, rfl, hx, ?_⟩
      cases h2 : Neorl.DE.run c fit (fun g => dr (n + g)) (fun g => rl (n + g)) s.pop k with
      | error e => rw [h2] at hs'; cases hs'
      | ok s2 =>
        rw [h2] at hs'
        cases hs'
        exact ⟨List.prefix_append _ _, List.prefix_append _ _⟩
  split at h
  · cases h
  rename_i s' hs'
  obtain ⟨s, x, h1, h2, h3, h4⟩ := key _ s' hs'
  rw [h1]
  simp only [h2]
  split at h
  · cases h
  cases m
  · simp only [Bool.false_eq_true, if_false] at h ⊢
    cases h
    exact ⟨_, rfl, h3, acc_prefix false h4, h4⟩
  · simp only [if_true] at h ⊢
    cases h
    exact ⟨_, rfl, h3, acc_prefix true (h4.map _), h4.map _⟩

/-- **C142, DE.** Its answer is not worse. -/
theorem C142_better_de {c : Neorl.DE.Conf K} (hS : c.S.OK) (hm : c.S.method = .nearestInt) {m : Bool} {f : List K → K} {dr : ℕ → ℕ → Neorl.DE.Draw K}
    {pop0 : List (List K)} (hl : pop0.length = c.npop) (hp : ∀ x ∈ pop0, c.S.Feasible x) {n n' : ℕ} (hn : 0 < n) (hnn : n ≤ n') {r r' : Neorl.DE.Result K}
    (h : Neorl.DE.evolute { c with ngen := n } m f dr (fun _ => []) pop0 = .ok r) (h' : Neorl.DE.evolute { c with ngen := n' } m f dr (fun _ => []) pop0 = .ok r') :
    NotWorse m r.y r'.y := by
  obtain ⟨r0, e, hx⟩ := C142_longer_de (Or.inr hm) hn hnn h'
  rw [h] at e
  cases e
  obtain ⟨a1, a2, a3, _⟩ := Neorl.DE.C08_best_of_all (c := { c with ngen := n }) hS hm hl hp h
  obtain ⟨b1, b2, b3, _⟩ := Neorl.DE.C08_best_of_all (c := { c with ngen := n' }) hS hm hl hp h'
  rw [a1]
  exact b3 _ (hx.log.subset a2)

/-- **C142, JAYA.** -/
theorem C142_longer_jaya {c : Neorl.JAYA.Conf K} (hS : c.S.OK) (hp : Plain c.S) {m : Bool} {f : List K → K} {dr : ℕ → ℕ → Neorl.JAYA.Draw K}
    {pos0 : List (List K)} (hf : ∀ p ∈ pos0, c.S.Feasible p) {n n' : ℕ} (hn : 0 < n) (hnn : n ≤ n') {r' : Neorl.JAYA.Result K}
    (h' : Neorl.JAYA.evolute { c with ngen := n' } m f dr pos0 = .ok r') :
    ∃ r, Neorl.JAYA.evolute { c with ngen := n } m f dr pos0 = .ok r ∧ Extends r.log r'.log r.global r'.global r.locals r'.locals ∧ NotWorse m r.y r'.y := by
  have h := h'
  unfold Neorl.JAYA.evolute at h
  simp only [JAYA.run_ngen hp] at h
  by_cases hl : pos0.length = c.npop
  swap
  · rw [if_pos hl] at h; cases h
  rw [if_neg (by simpa using hl)] at h
  split at h
  · cases h
  rename_i s' hs'
  rw [if_neg (by omega)] at h
  split at h
  · cases h
  cases h
  obtain ⟨s, h0, h1, h2, h3⟩ := JAYA.run_prefix hnn hs'
  obtain ⟨x, hx, _⟩ := (Neorl.JAYA.run_inv hS hl hf h0).bidx
  have he : ∃ r, Neorl.JAYA.evolute { c with ngen := n } m f dr pos0 = .ok r ∧
      Extends r.log s'.log r.global (s'.global.map (sgn (!m))) r.locals (s'.locals.map (sgn (!m))) := by
    unfold Neorl.JAYA.evolute
    simp only [JAYA.run_ngen hp]
    rw [if_neg (by simpa using hl), h0]
    simp only
    rw [if_neg (by omega), hx]
    exact ⟨_, rfl, h1, h2.map _, h3.map _⟩
  obtain ⟨r, e, hx⟩ := he
  exact ⟨r, e, hx, best_mono (Neorl.JAYA.C21_evolute (c := { c with ngen := n }) hS hf e).1 (Neorl.JAYA.C21_evolute (c := { c with ngen := n' }) hS hf h').1 hx.log⟩

/-- **C142, CS.** -/
theorem C142_longer_cs {c : Neorl.CS.Conf K} (hS : c.S.OK) (hp : Plain c.S) {m : Bool} {f : List K → K} {dr : ℕ → Neorl.CS.Draw K}
    {pos0 : List (List K)} (hf : ∀ p ∈ pos0, c.S.Feasible p) {n n' : ℕ} (hn : 0 < n) (hnn : n ≤ n') {r' : Neorl.CS.Result K}
    (h' : Neorl.CS.evolute { c with ngen := n' } m f dr pos0 = .ok r') :
    ∃ r, Neorl.CS.evolute { c with ngen := n } m f dr pos0 = .ok r ∧ Extends r.log r'.log r.global r'.global r.locals r'.locals ∧ NotWorse m r.y r'.y := by
  have h := h'
  unfold Neorl.CS.evolute at h
  simp only [CS.run_ngen hp] at h
  by_cases hl : pos0.length = c.ncuckoos
  swap
  · rw [if_pos hl] at h; cases h
  rw [if_neg (by simpa using hl)] at h
  split at h
  · cases h
  rename_i s' hs'
  rw [if_neg (by omega)] at h
  cases h
  obtain ⟨s, h0, h1, h2, h3⟩ := CS.run_prefix hnn hs'
  have he : ∃ r, Neorl.CS.evolute { c with ngen := n } m f dr pos0 = .ok r ∧
      Extends r.log s'.log r.global (s'.global.map (sgn m)) r.locals (s'.locals.map (sgn m)) := by
    unfold Neorl.CS.evolute
    simp only [CS.run_ngen hp]
    rw [if_neg (by simpa using hl), h0]
    simp only
    rw [if_neg (by omega)]
    exact ⟨_, rfl, h1, h2.map _, h3.map _⟩
  obtain ⟨r, e, hx⟩ := he
  exact ⟨r, e, hx, best_mono (Neorl.CS.C23_evolute (c := { c with ngen := n }) hS hf e).1 (Neorl.CS.C23_evolute (c := { c with ngen := n' }) hS hf h').1 hx.log⟩

/-- **C142, PSO** with the speed mechanisms `constric` and `globw` (C142_pso_timew: false for `timew`). -/
theorem C142_longer_pso {c : Neorl.PSO.Conf K} (hS : c.S.OK) (hp : c.mech ≠ .timew) {m : Bool} {f : List K → K} {dr : ℕ → ℕ → Neorl.PSO.Draw K}
    {pos0 : List (List K)} (hf : ∀ p ∈ pos0, c.S.Feasible p) {n n' : ℕ} (hn : 0 < n) (hnn : n ≤ n') {r' : Neorl.PSO.Result K}
    (h' : Neorl.PSO.evolute { c with ngen := n' } m f dr pos0 = .ok r') :
    ∃ r, Neorl.PSO.evolute { c with ngen := n } m f dr pos0 = .ok r ∧ Extends r.log r'.log r.global r'.global r.locals r'.locals ∧ NotWorse m r.y r'.y := by
  have h := h'
  unfold Neorl.PSO.evolute at h
  simp only [PSO.run_ngen hp] at h
  by_cases hl : pos0.length = c.npar
  swap
  · rw [if_pos hl] at h; cases h
  rw [if_neg (by simpa using hl)] at h
  split at h
  · cases h
  rename_i s' hs'
  rw [if_neg (by omega)] at h
  cases h
  obtain ⟨s, h0, h1, h2⟩ := PSO.run_prefix hnn hs'
  have he : ∃ r, Neorl.PSO.evolute { c with ngen := n } m f dr pos0 = .ok r ∧
      Extends r.log s'.log r.global (acc m (s'.scores.map (sgn (!m)))) r.locals (s'.scores.map (sgn (!m))) := by
    unfold Neorl.PSO.evolute
    simp only [PSO.run_ngen hp]
    rw [if_neg (by simpa using hl), h0]
    simp only
    rw [if_neg (by omega)]
    exact ⟨_, rfl, h1, acc_prefix m (h2.map _), h2.map _⟩
  obtain ⟨r, e, hx⟩ := he
  exact ⟨r, e, hx, best_mono (Neorl.PSO.C15_evolute (c := { c with ngen := n }) hS hf e).1 (Neorl.PSO.C15_evolute (c := { c with ngen := n' }) hS hf h').1 hx.log⟩

/-- **C142, ES.** -/
theorem C142_longer_es {c : Neorl.ES.Conf K} (hS : c.S.OK) (hs : c.smin ≤ c.smax) {m : Bool} {f : List K → K} {dr : ℕ → ℕ → Neorl.ES.Draw K}
    {rl : ℕ → List (List K)} (hrl : ∀ g, ∀ v ∈ rl g, v.length = c.S.bounds.length) (hrlm : ∀ g, (rl g).length < c.mu) {pop0 : List (List K × List K)}
    (hf : ∀ p ∈ pop0, p.1.length = c.S.bounds.length ∧ p.2.length = c.S.bounds.length ∧ ∀ v ∈ p.2, c.smin ≤ v ∧ v ≤ c.smax)
    {n n' : ℕ} (hn : 0 < n) (hnn : n ≤ n') {r' : Neorl.ES.Result K} (h' : Neorl.ES.evolute { c with ngen := n' } m f dr rl pop0 = .ok r') :
    ∃ r, Neorl.ES.evolute { c with ngen := n } m f dr rl pop0 = .ok r ∧ Extends r.log r'.log r.global r'.global r.locals r'.locals ∧ NotWorse m r.y r'.y := by
  have h := h'
  unfold Neorl.ES.evolute at h
  simp only [ES.run_ngen] at h
  by_cases hl : ¬ c.mu ≤ c.lam ∨ ¬ c.cxpb + c.mutpb ≤ 1 ∨ pop0.length ≠ c.lam
  · rw [if_pos hl] at h; cases h
  rw [if_neg hl] at h
  split at h
  · cases h
  rename_i s' hs'
  split at h
  · cases h
  cases h
  obtain ⟨s, h0, h1, h2⟩ := ES.run_prefix hnn hs'
  obtain ⟨b, hb⟩ := ES.run_some hn.ne' h0
  have he : ∃ r, Neorl.ES.evolute { c with ngen := n } m f dr rl pop0 = .ok r ∧
      Extends r.log s'.log r.global (acc m (s'.scores.map (sgn (!m)))) r.locals (s'.scores.map (sgn (!m))) := by
    unfold Neorl.ES.evolute
    simp only [ES.run_ngen]
    rw [if_neg hl, h0]
    simp only [hb]
    exact ⟨_, rfl, h1, acc_prefix m (h2.map _), h2.map _⟩
  obtain ⟨r, e, hx⟩ := he
  exact ⟨r, e, hx, best_mono (Neorl.ES.C14_evolute (c := { c with ngen := n }) hS hs hrl hrlm hf e).1
    (Neorl.ES.C14_evolute (c := { c with ngen := n' }) hS hs hrl hrlm hf h').1 hx.log⟩

/-- **C142, DE continued.** Restarting DE from the positions of its last population is the longer run: same answer, same last population, histories and evaluated points are
appended, the best-so-far history is that of the appended history. -/
theorem C142_continue_de {c : Neorl.DE.Conf K} (hp : Plain c.S) {m : Bool} {f : List K → K} {dr : ℕ → ℕ → Neorl.DE.Draw K} {rl : ℕ → List (ℕ × List K)}
    {pop0 : List (List K)} {n k : ℕ} (hk : 0 < k) {r : Neorl.DE.Result K} (h : Neorl.DE.evolute { c with ngen := n } m f dr rl pop0 = .ok r) :
    Neorl.DE.evolute { c with ngen := n + k } m f dr rl pop0 =
      (Neorl.DE.evolute { c with ngen := k } m f (fun g => dr (n + g)) (fun g => rl (n + g)) (r.lastPop.map Prod.fst)).map fun r2 =>
        { x := r2.x, y := r2.y, globalFitness := acc m (r.localFitness ++ r2.localFitness), localFitness := r.localFitness ++ r2.localFitness,
          lastPop := r2.lastPop, log := r.log ++ r2.log } := by
  unfold Neorl.DE.evolute at h ⊢
  simp only [DE.run_ngen hp] at h ⊢
  split at h
  · cases h
  rename_i s hs
  split at h
  · cases h
  rename_i x y hlast
  have hn : n ≠ 0 := fun e => by
    have := (DE.run_last hs).2 e
    rw [hlast] at this
    cases this
  have hz : ∀ w : List K × K → K, (List.zip s.pop (s.sel.map w)).map Prod.fst = s.pop := fun w =>
    List.map_fst_zip (by rw [List.length_map, DE.run_sel_length hn hs])
  rw [DE.run_split n k hs]
  have hl : r.lastPop.map Prod.fst = s.pop := by
    cases m
    · simp only [Bool.false_eq_true, if_false] at h
      cases h
      exact hz _
    · simp only [if_true] at h
      cases h
      exact hz _
  rw [hl]
  cases h2 : Neorl.DE.run c (if m = true then fun x => -f x else f) (fun g => dr (n + g)) (fun g => rl (n + g)) s.pop k with
  | error e => rfl
  | ok s2 =>
    simp only [Except.map, if_neg hk.ne']
    cases s2.last with
    | none => rfl
    | some b =>
      cases m
      · simp only [Bool.false_eq_true, if_false] at h ⊢
        cases h
        rfl
      · simp only [if_true] at h ⊢
        cases h
        simp [acc]

/-- **C142, CS continued.** Restarting CS from the positions of its last population, with whatever numbers of generations, never loses the best value found. -/
theorem C142_continue_cs {c : Neorl.CS.Conf K} (hS : c.S.OK) {m : Bool} {f : List K → K} {dr dr2 : ℕ → Neorl.CS.Draw K}
    {pos0 : List (List K)} (hf : ∀ p ∈ pos0, c.S.Feasible p) {n k : ℕ} {r r2 : Neorl.CS.Result K}
    (h : Neorl.CS.evolute { c with ngen := n } m f dr pos0 = .ok r)
    (h2 : Neorl.CS.evolute { c with ngen := k } m f dr2 (r.lastPop.map Prod.fst) = .ok r2) : NotWorse m r.y r2.y := by
  obtain ⟨hb, _, _, _, _, _, hlen, _, _, hll, hslot⟩ := Neorl.CS.C23_evolute (c := { c with ngen := n }) hS hf h
  obtain ⟨j, hj⟩ := List.mem_iff_getElem?.1 hb.1
  have hjl := (List.getElem?_eq_some_iff.1 hj).1
  have hlen : r.log.length = c.ncuckoos * (2 * n + 1) := hlen
  have hll : r.lastPop.length = c.ncuckoos := hll
  rw [hlen] at hjl
  have hpos : 0 < c.ncuckoos := by
    rcases Nat.eq_zero_or_pos c.ncuckoos with e | e
    · rw [e] at hjl; omega
    · exact e
  have hi : j % c.ncuckoos < r.lastPop.length := by rw [hll]; exact Nat.mod_lt _ hpos
  have hq := hslot (j % c.ncuckoos) _ (List.getElem?_eq_getElem hi)
  set q := r.lastPop[j % c.ncuckoos] with hqd
  have h1 : NotWorse m r.y q.2 := by
    rw [hb.2.1]
    refine hq.2.2 (j / c.ncuckoos) ?_ _ ?_
    · rw [Nat.add_comm]; exact Nat.div_lt_of_lt_mul hjl
    · show r.log[j / c.ncuckoos * c.ncuckoos + j % c.ncuckoos]? = _
      rw [Nat.mul_comm, Nat.div_add_mod]; exact hj
  have h3 : q.2 = f (c.S.clip q.1) := hq.2.1
  unfold Neorl.CS.evolute at h2
  split at h2
  · cases h2
  split at h2
  · cases h2
  rename_i s2 hs2
  split at h2
  · cases h2
  cases h2
  have h4 := CS.run_best_le hs2 q.1 (List.mem_map.2 ⟨q, List.getElem_mem _, rfl⟩)
  rw [h3] at h1
  show NotWorse m r.y (sgn m s2.best.1)
  have h4 : s2.best.1 ≤ sgn m (f (c.S.clip q.1)) := h4
  cases m
  · simp only [NotWorse, sgn, Bool.false_eq_true, if_false] at *
    linarith
  · simp only [NotWorse, sgn, if_true] at *
    linarith

end

section
variable {K : Type} [Field K] [LinearOrder K] [IsStrictOrderedRing K]

/-- **C142, ACO.** -/
theorem C142_longer_aco {c : Neorl.ACO.Conf K} (hb : BoundsOK c.bounds) {m : Bool} {f : List K → K} {dr : ℕ → ℕ → ℕ → Neorl.ACO.Draw K}
    {pos0 : List (List K)} (hf : ∀ p ∈ pos0, InBox c.bounds p) {n n' : ℕ} (hn : 0 < n) (hnn : n ≤ n') {r' : Neorl.ACO.Result K}
    (h' : Neorl.ACO.evolute { c with ngen := n' } m f dr pos0 = .ok r') :
    ∃ r, Neorl.ACO.evolute { c with ngen := n } m f dr pos0 = .ok r ∧ Extends r.log r'.log r.global r'.global r.locals r'.locals ∧ NotWorse m r.y r'.y := by
  have h := h'
  unfold Neorl.ACO.evolute at h
  simp only [ACO.run_ngen] at h
  by_cases hl0 : ¬ c.narchive ≤ c.nants
  · rw [if_pos hl0] at h; cases h
  rw [if_neg hl0] at h
  by_cases hl : pos0.length = c.nants
  swap
  · rw [if_pos hl] at h; cases h
  rw [if_neg (by simpa using hl)] at h
  split at h
  · cases h
  rename_i s' hs'
  rw [if_neg (by omega)] at h
  split at h
  · cases h
  cases h
  obtain ⟨s, h0, h1, h2, h3⟩ := ACO.run_prefix hnn hs'
  obtain ⟨t, ht⟩ := ACO.run_top hn.ne' h0
  have he : ∃ r, Neorl.ACO.evolute { c with ngen := n } m f dr pos0 = .ok r ∧
      Extends r.log s'.log r.global (s'.global.map (sgn m)) r.locals (s'.locals.map (sgn m)) := by
    unfold Neorl.ACO.evolute
    simp only [ACO.run_ngen]
    rw [if_neg hl0, if_neg (by simpa using hl), h0]
    simp only
    rw [if_neg (by omega), ht]
    exact ⟨_, rfl, h1, h2.map _, h3.map _⟩
  obtain ⟨r, e, hx⟩ := he
  exact ⟨r, e, hx, best_mono (Neorl.ACO.C24_evolute (c := { c with ngen := n }) hb hf e).1 (Neorl.ACO.C24_evolute (c := { c with ngen := n' }) hb hf h').1 hx.log⟩

/-- **C142, XNES.** -/
theorem C142_longer_xnes {d : ℕ} {c : Neorl.XNES.Conf K d} (hs : Neorl.XNES.ArgsortOK c.argsort) (hb : BoundsOK c.bounds) (hd : c.bounds.length = d) (hp : 0 < c.npop)
    {m : Bool} {f : List K → K} {dr : ℕ → List (Fin d → K)} (hdr : ∀ k, (dr k).length = c.npop) {x0 : Fin d → K} {sigma eta : K}
    {bmat : Matrix (Fin d) (Fin d) K} {n n' : ℕ} (hn : 0 < n) (hnn : n ≤ n') {o' : Neorl.XNES.Obj K d} {r' : Neorl.XNES.Result K}
    (h' : Neorl.XNES.evolute c m f dr n' x0 (Neorl.XNES.fresh sigma bmat eta) = .ok (o', r')) :
    ∃ o r, Neorl.XNES.evolute c m f dr n x0 (Neorl.XNES.fresh sigma bmat eta) = .ok (o, r) ∧ Extends o.log o'.log r.hist r'.hist r.hist r'.hist ∧ NotWorse m r.y r'.y := by
  have h := h'
  unfold Neorl.XNES.evolute at h
  simp only at h
  split at h
  · cases h
  rename_i b' hb'
  cases h
  set fit : List K → K := fun x => sgn (!m) (f x) with hfit
  obtain ⟨p1, p2⟩ := XNES.run_prefix (c := c) (fit := fit) (dr := dr) (o := { Neorl.XNES.fresh sigma bmat eta with mu := x0 }) hnn
  have hrem := Neorl.XNES.run_remembers (c := c) (dr := dr) hs (o := { Neorl.XNES.fresh sigma bmat eta with mu := x0 }) (fit := fit) (by unfold Neorl.XNES.Remembers; exact rfl) n
  obtain ⟨l, hl1, hl2⟩ := Neorl.XNES.run_log (c := c) (fit := fit) hdr { Neorl.XNES.fresh sigma bmat eta with mu := x0 } n
  have he : ∃ o r, Neorl.XNES.evolute c m f dr n x0 (Neorl.XNES.fresh sigma bmat eta) = .ok (o, r) ∧
      o.log = (Neorl.XNES.run c fit dr { Neorl.XNES.fresh sigma bmat eta with mu := x0 } n).log ∧
      r.hist = (Neorl.XNES.run c fit dr { Neorl.XNES.fresh sigma bmat eta with mu := x0 } n).hist.map (sgn (!m)) := by
    unfold Neorl.XNES.evolute
    simp only [Neorl.XNES.finish]
    cases e : (Neorl.XNES.run c fit dr { Neorl.XNES.fresh sigma bmat eta with mu := x0 } n).best with
    | none =>
      exfalso
      unfold Neorl.XNES.Remembers at hrem
      rw [e] at hrem
      have hrem : (Neorl.XNES.run c fit dr { Neorl.XNES.fresh sigma bmat eta with mu := x0 } n).log = [] := hrem
      rw [hl1] at hrem
      have := congrArg List.length hrem
      rw [List.length_append, hl2] at this
      have : 0 < n * c.npop := Nat.mul_pos hn hp
      simp only [List.length_nil] at *
      omega
    | some b =>
      exact ⟨_, _, rfl, rfl, rfl⟩
  obtain ⟨o, r, e, e1, e2⟩ := he
  have hx : o.log <+: (Neorl.XNES.run c fit dr { Neorl.XNES.fresh sigma bmat eta with mu := x0 } n').log := by rw [e1]; exact p1
  refine ⟨o, r, e, ⟨hx, ?_, ?_⟩, best_mono (Neorl.XNES.C27_evolute hs hb hd hp hdr e).1 (Neorl.XNES.C27_evolute hs hb hd hp hdr h').1 hx⟩
  · rw [e2]; exact p2.map _
  · rw [e2]; exact p2.map _

end

/-! ### Examples -/

example : Neorl.CS.exS.OK ∧ Plain Neorl.CS.exC.S ∧ (∀ p ∈ Neorl.CS.exPos, Neorl.CS.exS.Feasible p) :=
  ⟨Space.ok_of_okB (by decide +kernel), Or.inr rfl, Space.feasible_all (by decide +kernel)⟩

/-- CS: two generations, three generations, and two generations continued for one: the histories. -/
example :
    (Neorl.CS.evolute { Neorl.CS.exC with ngen := 2 } false Neorl.CS.exFit Neorl.CS.exDr Neorl.CS.exPos).toOption.map (·.global) = some [-4, -4] ∧
    (Neorl.CS.evolute { Neorl.CS.exC with ngen := 3 } false Neorl.CS.exFit Neorl.CS.exDr Neorl.CS.exPos).toOption.map (·.global) = some [-4, -4, -4] := by
  refine ⟨?_, ?_⟩ <;> decide +kernel

/-- ES: two and three generations. -/
example :
    (Neorl.ES.evolute Neorl.ES.exC true Neorl.ES.exFit Neorl.ES.exDr (fun _ => []) Neorl.ES.exPop).toOption.map (·.global) = some [10, 10] ∧
    (Neorl.ES.evolute { Neorl.ES.exC with ngen := 3 } true Neorl.ES.exFit Neorl.ES.exDr (fun _ => []) Neorl.ES.exPop).toOption.map (·.global) = some [10, 10, 10] := by
  refine ⟨?_, ?_⟩ <;> decide +kernel

/-- ACO: two and three generations. -/
example :
    (Neorl.ACO.evolute Neorl.ACO.exC true Neorl.ACO.exFit Neorl.ACO.exDr Neorl.ACO.exPos).toOption.map (·.log.length) = some 9 ∧
    (Neorl.ACO.evolute { Neorl.ACO.exC with ngen := 3 } true Neorl.ACO.exFit Neorl.ACO.exDr Neorl.ACO.exPos).toOption.map (·.log.length) = some 12 := by
  refine ⟨?_, ?_⟩ <;> decide +kernel

/-- One continuous variable between 0 and 10. -/
def exS : Space ℚ := { bounds := [(0, 10)], types := [.float], method := .nearestInt, expf := fun _ => 1 }

/-- Distance to 6. -/
def exF (v : List ℚ) : ℚ := |v.getD 0 0 - 6|

/-- Distance to 6, but with a better point `t`. -/
def spike (t : ℚ) (v : List ℚ) : ℚ := if v = [t] then -1 else exF v

def exDE : Neorl.DE.Conf ℚ := { S := exS, F := 1 / 2, CR := 1 / 2, npop := 4, ngen := 2 }
def exDEd : ℕ → ℕ → Neorl.DE.Draw ℚ := fun g _ => { i1 := g % 3, i2 := (g + 2) % 3, i3 := (g + 1) % 3, cross := fun _ => 0, discT := fun _ => (0, 0), discV := fun _ => (0, 0) }
def exJAYA : Neorl.JAYA.Conf ℚ := { S := exS, npop := 2, ngen := 1 }
def exJAYAd : ℕ → ℕ → Neorl.JAYA.Draw ℚ := fun _ _ => { r1 := fun _ => 1 / 2, r2 := fun _ => 1 / 4, disc := fun _ => (0, 0) }
def exGWO : Neorl.GWO.Conf ℚ := { S := exS, nwolves := 3, ngen := 2, a := none }
def exGWOd : ℕ → Neorl.GWO.Draw ℚ := fun _ => { r := fun _ _ k => if k % 2 = 0 then 3 / 4 else 0, disc := fun _ _ => (0, 0) }
def exWOA : Neorl.WOA.Conf ℚ := { S := exS, nwhales := 2, ngen := 1, a0 := 2, spiral := fun _ => 1, kwA := none, kwFac := none }
def exWOAd : ℕ → ℕ → Neorl.WOA.Draw ℚ := fun _ _ => { r1 := 5 / 8, r2 := 0, rl := 0, p := 0, pick := fun _ => 0, disc := fun _ => (0, 0) }
/-- `2 * (1 - l / (ngen + 1))` stands for the decreasing `2 * exp(-(4 l / ngen)^2)`. -/
def exSSA : Neorl.SSA.Conf ℚ := { S := exS, nsalps := 2, ngen := 1, c1 := .default, c1fun := fun l n => 2 * (1 - l / (n + 1)) }
def exSSAd : ℕ → ℕ → Neorl.SSA.Draw ℚ := fun _ _ => { c2 := fun _ => 1 / 8, c3 := fun _ => 0, disc := fun _ => (0, 0) }
def exPSO : Neorl.PSO.Conf ℚ :=
  { S := exS, npar := 2, ngen := 1, c1 := 2, c2 := 2, mech := .constric, w0 := 1 / 2, wmin := 0, wmax := 1, kwW := none, sig := fun _ => 0, intArr := false }
def exPSOd : ℕ → ℕ → Neorl.PSO.Draw ℚ := fun _ _ => { r1 := fun _ => 0, r2 := fun _ => 0, wr := fun _ => 0, u := fun _ => 0, pick := fun _ => 0 }
def exMFO : Neorl.MFO.Conf ℚ := { S := exS, nmoths := 3, ngen := 3, kwR := none, spiral := fun t => t / 4, srt := fun l => sortAsc (fun p => p.2) l }
def exMFOd : ℕ → ℕ → Neorl.MFO.Draw ℚ := fun _ _ => { u := fun _ => 1 / 2, disc := fun _ => (0, 0) }

example : exS.OK ∧ Plain exS ∧ exPSO.mech ≠ .timew ∧ ∀ p ∈ ([[4], [6]] : List (List ℚ)), exS.Feasible p :=
  ⟨Space.ok_of_okB (by decide +kernel), Or.inr rfl, by simp [exPSO], Space.feasible_all (by decide +kernel)⟩

/-- The best values found by a run and by a run started from its last population. -/
def again {R : Type} (run : List (List ℚ) → Py R) (y : R → ℚ) (last : R → List (List ℚ × ℚ)) (p : List (List ℚ)) : Option (ℚ × ℚ) :=
  (run p).toOption.bind fun r => (run ((last r).map Prod.fst)).toOption.map fun r2 => (y r, y r2)

/-- **C142, defect.** JAYA, PSO, GWO, WOA, SSA and MFO minimizing the distance to 6 reach it, and restarted from the `last_pop` they return (as AEO does with its members) end
at a worse value: JAYA stores the trial positions of the last generation, not the survivors (jaya.py line 272), and the others keep their best point outside the population. -/
theorem C142_lost :
    again (Neorl.JAYA.evolute exJAYA true exF exJAYAd) (·.y) (·.lastPop) [[4], [6]] = some (0, 1 / 4) ∧
    again (Neorl.PSO.evolute exPSO true exF exPSOd) (·.y) (·.lastPop) [[4], [6]] = some (0, 3 / 10) ∧
    again (Neorl.GWO.evolute exGWO true exF exGWOd) (·.y) (·.lastPop) [[2], [4], [6]] = some (0, 4) ∧
    again (Neorl.WOA.evolute exWOA true exF exWOAd) (·.y) (·.lastPop) [[4], [6]] = some (0, 2) ∧
    again (Neorl.SSA.evolute exSSA true exF exSSAd) (·.y) (·.lastPop) [[4], [6]] = some (0, 5 / 8) ∧
    again (Neorl.MFO.evolute exMFO true exF exMFOd) (·.y) (·.lastPop) [[2], [4], [6]] = some (0, 1 / 72) := by
  refine ⟨?_, ?_, ?_, ?_, ?_, ?_⟩ <;> decide +kernel

/-- **C142, defect.** In PSO with `timew`, GWO, WOA, SSA and MFO the steps depend on the total number of generations, so one more generation with the same random numbers
visits other points and can return a worse answer. -/
theorem C142_worse :
    ((Neorl.PSO.evolute { exPSO with ngen := 2, mech := .timew } true (spike (129 / 20)) exPSOd [[4], [6]]).toOption.map (·.y),
     (Neorl.PSO.evolute { exPSO with ngen := 3, mech := .timew } true (spike (129 / 20)) exPSOd [[4], [6]]).toOption.map (·.y)) = (some (-1), some 0) ∧
    ((Neorl.GWO.evolute { exGWO with ngen := 3 } true (spike (8 / 3)) exGWOd [[2], [4], [6]]).toOption.map (·.y),
     (Neorl.GWO.evolute { exGWO with ngen := 4 } true (spike (8 / 3)) exGWOd [[2], [4], [6]]).toOption.map (·.y)) = (some (-1), some 0) ∧
    ((Neorl.WOA.evolute { exWOA with ngen := 2 } true (spike (21 / 4)) exWOAd [[4], [6]]).toOption.map (·.y),
     (Neorl.WOA.evolute { exWOA with ngen := 3 } true (spike (21 / 4)) exWOAd [[4], [6]]).toOption.map (·.y)) = (some (-1), some 0) ∧
    ((Neorl.SSA.evolute { exSSA with ngen := 2 } true (spike (41 / 6)) exSSAd [[4], [6]]).toOption.map (·.y),
     (Neorl.SSA.evolute { exSSA with ngen := 3 } true (spike (41 / 6)) exSSAd [[4], [6]]).toOption.map (·.y)) = (some (-1), some 0) ∧
    ((Neorl.MFO.evolute { exMFO with ngen := 2 } true (spike (23 / 4)) exMFOd [[2], [4], [6]]).toOption.map (·.y),
     (Neorl.MFO.evolute { exMFO with ngen := 3 } true (spike (23 / 4)) exMFOd [[2], [4], [6]]).toOption.map (·.y)) = (some (-1), some 0) := by
  refine ⟨?_, ?_, ?_, ?_, ?_⟩ <;> decide +kernel

/-- DE run for two generations, for three, and the first continued for one: the last two agree. -/
example :
    (Neorl.DE.evolute exDE true exF exDEd (fun _ => []) [[1], [3], [4], [9]]).toOption.map (fun r => (r.y, r.lastPop.map Prod.fst)) = some (2, [[7 / 4], [3], [4], [9]]) ∧
    (Neorl.DE.evolute { exDE with ngen := 3 } true exF exDEd (fun _ => []) [[1], [3], [4], [9]]).toOption.map (fun r => (r.y, r.lastPop.map Prod.fst))
      = some (11 / 8, [[37 / 8], [37 / 8], [37 / 8], [37 / 8]]) ∧
    (Neorl.DE.evolute { exDE with ngen := 1 } true exF (fun g => exDEd (2 + g)) (fun _ => []) [[7 / 4], [3], [4], [9]]).toOption.map (fun r => (r.y, r.lastPop.map Prod.fst))
      = some (11 / 8, [[37 / 8], [37 / 8], [37 / 8], [37 / 8]]) := by
  refine ⟨?_, ?_, ?_⟩ <;> decide +kernel

end Neorl.Longer

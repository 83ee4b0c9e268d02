import Verif.MFO

/-!
# Property theorems C22: moth-flame optimisation
-/

set_option linter.unusedSectionVars false
set_option linter.unusedVariables false

namespace Neorl.MFO

section
variable {K : Type} [Field K] [LinearOrder K] [IsStrictOrderedRing K] [FloorRing K]

/-- **C22.** The flame count lies between 1 and the number of moths, never grows, and the flame row read for moth `i` exists
(`i` itself or the last flame). -/
theorem C22_flame_count {n ngen g : ℕ} (hn : 1 ≤ n) (hg : g < ngen) :
    (1 ≤ flameNo n ngen g ∧ flameNo n ngen g ≤ n) ∧ (∀ g', g ≤ g' → flameNo n ngen g' ≤ flameNo n ngen g) ∧
    ∀ i < n, flameIdx n ngen g i < n ∧ flameIdx n ngen g i ≤ i ∧ (flameIdx n ngen g i : ℤ) ≤ flameNo n ngen g := by
  obtain ⟨h1, h2⟩ := flameNo_mem hn hg
  refine ⟨⟨h1, h2⟩, fun g' h => flameNo_anti hn h, fun i hi => ⟨flameIdx_lt hi hg, ?_, ?_⟩⟩
  · unfold flameIdx; split_ifs with h <;> omega
  · unfold flameIdx; split_ifs with h <;> omega

/-- **C22.** After `g ≥ 1` generations there are `nmoths` flames, sorted by fitness, each an evaluated moth with its own fitness; and no
good moth is ever lost: every moth of the generations before the current one (of the first one, for `g = 1`) is a flame
or is no better than every flame. -/
theorem C22_flames {c : Conf K} (hS : c.S.OK) (hsrt : SortOK c.srt) {fit : List K → K} {dr : ℕ → ℕ → Draw K} {pos0 : List (List K)}
    (hn : pos0.length = c.nmoths) (hf : ∀ p ∈ pos0, c.S.Feasible p) {g : ℕ} {s : State K}
    (h : run c fit dr pos0 (g + 1) = .ok s) :
    s.flames.length = c.nmoths ∧ s.flames.Pairwise (fun a b => a.2 ≤ b.2) ∧
    (∀ fl ∈ s.flames, fl.1 ∈ s.log.take (max 1 g * c.nmoths) ∧ fl.2 = fit fl.1) ∧
    ∀ z ∈ s.log.take (max 1 g * c.nmoths), (z, fit z) ∈ s.flames ∨ ∀ fl ∈ s.flames, fl.2 ≤ fit z :=
  let hi := run_inv hS hsrt hn hf h
  ⟨hi.nfl (by omega), hi.sorted, hi.own, hi.keep⟩

/-- **C22.** What `evolute` returns: best evaluated moth with its fitness, exact best-so-far history, `nmoths * ngen` evaluations all
feasible, last population with its own fitness.  `local_fitness` is *not* the best of each generation: entry `k` is the
best of the first `max 1 k` generations, one generation behind the global history. -/
theorem C22_evolute {c : Conf K} (hS : c.S.OK) (hsrt : SortOK c.srt) {m : Bool} {userFit : List K → K} {dr : ℕ → ℕ → Draw K}
    {pos0 : List (List K)} (hf : ∀ p ∈ pos0, c.S.Feasible p) {r : Result K} (h : evolute c m userFit dr pos0 = .ok r) :
    IsBest m userFit r.log r.x r.y ∧
    (∃ hist : List K, r.global = hist.map some ∧ hist.length = c.ngen ∧ HistBest m userFit 0 c.nmoths r.log hist ∧
      hist.Pairwise (NotWorse m) ∧ hist.getLast? = some r.y) ∧
    r.locals.length = c.ngen ∧
    (∀ (k : ℕ) (y : K), r.locals[k]? = some y → BestOn m userFit (r.log.take (max 1 k * c.nmoths)) y) ∧
    r.log.length = c.ngen * c.nmoths ∧ (∀ x ∈ r.log, c.S.Feasible x) ∧ c.S.Feasible r.x ∧
    r.lastPop = (r.log.drop ((c.ngen - 1) * c.nmoths)).map (fun x => (x, userFit x)) := by
  unfold evolute at h
  by_cases hn : pos0.length = c.nmoths
  swap
  · rw [if_pos hn] at h; cases h
  rw [if_neg (by simpa using hn)] at h
  split at h
  · cases h
  rename_i s hs
  have hi := run_inv hS hsrt hn hf hs
  split at h
  · cases h
  rename_i y hy
  cases h
  obtain ⟨y0, hb, rfl⟩ := outScore_eq_some hy
  have hg0 : c.ngen ≠ 0 := by
    intro h0
    rw [h0] at hs
    cases hs
    exact absurd hb (by simp)
  have hbest := hi.best.isBest hb
  obtain ⟨hk, e, hh⟩ := hi.hist.histMin
  have hl : hk.length = c.ngen := by have := hi.lens.1; rw [e] at this; simpa using this
  refine ⟨hbest, ⟨hk.map (sgn m), ?_, by simp [hl], hh.histBest, hh.histBest.pairwise, ?_⟩, by simp [hi.lens], ?_, hi.len, hi.flog,
    hi.flog _ hbest.1, ?_⟩
  · rw [e]; simp only [List.map_map]; exact List.map_congr_left (fun _ _ => rfl)
  · have h1 := hi.lastg hg0
    rw [e, hb, List.getLast?_map] at h1
    cases h2 : hk.getLast? with
    | none => rw [h2] at h1; cases h1
    | some v =>
      rw [h2] at h1
      simp only [Option.map_some, Option.some.injEq] at h1
      have : v = y0 := WithTop.coe_injective h1
      rw [List.getLast?_map, h2, this]; rfl
  · intro k y hy
    rw [List.getElem?_map] at hy
    cases hk : s.locals[k]? with
    | none => rw [hk] at hy; cases hy
    | some v => rw [hk] at hy; cases hy; exact (hi.locals k v hk).bestOn
  · simp only [hi.prev, List.map_map]
    exact List.map_congr_left (fun x _ => by simp)

/-- **C22.** With `nearest_int`, at least one moth and one generation and a valid `r` the call returns: no index error. -/
theorem C22_total {c : Conf K} (hS : c.S.OK) (hsrt : SortOK c.srt) (hm : c.S.method = .nearestInt) {m : Bool} {userFit : List K → K}
    {dr : ℕ → ℕ → Draw K} {pos0 : List (List K)} (hf : ∀ p ∈ pos0, c.S.Feasible p) (hn : pos0.length = c.nmoths)
    (h0 : 0 < c.nmoths) (hg : 0 < c.ngen) (hR : ∀ rs, c.kwR = some rs → rs.length = c.ngen) :
    ∃ r, evolute c m userFit dr pos0 = .ok r := by
  have hr : ∀ g, g ≤ c.ngen → ∃ s, run c (fun x => sgn m (userFit x)) dr pos0 g = .ok s := by
    intro g
    induction g with
    | zero => intro _; exact ⟨_, rfl⟩
    | succ g ih =>
      intro hg'
      obtain ⟨s, hs⟩ := ih (by omega)
      have hi := run_inv hS hsrt hn hf hs
      have hC : ∃ a, coefR c g = .ok a := by
        unfold coefR
        cases h : c.kwR with
        | none => exact ⟨_, rfl⟩
        | some es =>
          have := hR es h
          simp only [this, if_true]
          rw [List.getElem?_eq_getElem (by omega)]; exact ⟨_, rfl⟩
      obtain ⟨a, ha⟩ := hC
      cases hfin : run c (fun x => sgn m (userFit x)) dr pos0 (g + 1) with
      | ok s' => exact ⟨s', rfl⟩
      | error e =>
        exfalso
        simp only [run, hs, gen, ha] at hfin
        set flames := if g = 0 then c.srt (s.pos.map (fun p => (p, sgn m (userFit (c.S.clip p)))))
          else (c.srt (s.prev ++ s.flames)).take c.nmoths with hfl
        have hnfl : flames.length = c.nmoths := by
          rw [hfl]; split_ifs with h0
          · rw [(hsrt _).1.length_eq]; simp [hi.npos]
          · rw [List.length_take, (hsrt _).1.length_eq, List.length_append, hi.nfl h0]; omega
        have ht : flames[0]? = some (flames[0]'(by omega)) := List.getElem?_eq_getElem _
        have hrows : ∀ i row, i < c.nmoths → row.length = c.S.bounds.length → ∃ row', moveMoth c g a flames (dr g) i row = .ok row' := by
          intro i row hi' hrow
          have := flameIdx_lt hi' (show g < c.ngen by omega)
          unfold moveMoth
          rw [List.getElem?_eq_getElem (by omega)]
          exact Space.disc_nearest_total hS hm _ _ (by rw [Space.length_clip hS (by simp [hrow])])
        have hmap : ∀ (ps : List (List K)) (i : ℕ), i + ps.length ≤ c.nmoths → (∀ p ∈ ps, p.length = c.S.bounds.length) →
            ∃ ps', mapRows (moveMoth c g a flames (dr g)) i ps = .ok ps' := by
          intro ps
          induction ps with
          | nil => intro i _ _; exact ⟨[], rfl⟩
          | cons p ps ih =>
            intro i hi' hps
            simp at hi'
            obtain ⟨p', hp'⟩ := hrows i p (by omega) (hps p (by simp))
            obtain ⟨ps', hps'⟩ := ih (i + 1) (by omega) (fun q hq => hps q (by simp [hq]))
            exact ⟨p' :: ps', by simp [mapRows, hp', hps']⟩
        obtain ⟨ps', hps'⟩ := hmap s.pos 0 (by rw [hi.npos]; omega) (fun p hp => (hi.feas p hp).1.length_eq)
        rw [ht] at hfin
        simp only [hps'] at hfin
        cases hfin
  obtain ⟨s, hs⟩ := hr c.ngen le_rfl
  have hi := run_inv hS hsrt hn hf hs
  have hne : s.log ≠ [] := by
    intro h
    have := hi.len
    rw [h] at this
    have h2 : 0 < c.ngen * c.nmoths := Nat.mul_pos hg h0
    simp only [List.length_nil] at this
    omega
  obtain ⟨v, hv, -⟩ := hi.best.ne_top hne
  unfold evolute
  rw [if_neg (by simpa using hn), hs]
  simp only [hv, outScore_coe]
  exact ⟨_, rfl⟩

/-! ### A concrete run -/

/-- Python's stable sort is one admissible `argsort`. -/
theorem sortOK_sortAsc : SortOK (fun l : List (List K × K) => sortAsc (fun p => p.2) l) :=
  fun l => ⟨sortAsc_perm _ _, sortAsc_sorted _ _⟩

def exS : Space ℚ := { bounds := [(-5, 5), (0, 3)], types := [.float, .int], method := .nearestInt, expf := fun x => x }
def exC : Conf ℚ := { S := exS, nmoths := 3, ngen := 3, kwR := none, spiral := fun t => t / 4, srt := fun l => sortAsc (fun p => p.2) l }
def exFit : List ℚ → ℚ := fun x => (x.map (fun v => v * v)).sum
def exPos : List (List ℚ) := [[3, 1], [-2, 2], [5, 3]]
def exDr : ℕ → ℕ → Draw ℚ := fun g i => { u := fun _ => 1 / 2, disc := fun _ => (0, 0) }

example : exS.OK := Space.ok_of_okB (by decide +kernel)
example : ∀ p ∈ exPos, exS.Feasible p := Space.feasible_all (by decide +kernel)
example : SortOK exC.srt := sortOK_sortAsc
example : (match evolute exC false exFit exDr exPos with
    | .ok r => decide (r.log.length = 9 ∧ r.y = exFit r.x ∧ r.global.length = 3) | _ => false) = true := by decide +kernel
example : flameNo 10 5 2 = 6 := by decide +kernel

/-- **C22, defect, witness.** `local_fitness` lags one generation: on this run the second entry equals the best of the first
generation although the second generation's best moth is different. -/
theorem C22_local_lags : ∃ r, evolute exC true exFit exDr exPos = .ok r ∧ r.locals[1]? = r.locals[0]? ∧
    ∃ y, r.locals[1]? = some y ∧ ∀ z ∈ (r.log.drop 3).take 3, exFit z ≠ y := by
  have key : (match evolute exC true exFit exDr exPos with
    | .ok r => decide (r.locals[1]? = r.locals[0]? ∧ r.locals[1]? = some 8 ∧ ∀ z ∈ (r.log.drop 3).take 3, exFit z ≠ 8)
    | _ => false) = true := by decide +kernel
  split at key
  · rename_i r hr
    simp only [decide_eq_true_eq] at key
    exact ⟨r, hr, key.1, 8, key.2.1, key.2.2⟩
  · cases key

end
end Neorl.MFO

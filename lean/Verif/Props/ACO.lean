import Verif.ACO

/-!
# Property theorems C24: ant colony
-/

set_option linter.unusedSectionVars false
set_option linter.unusedVariables false

namespace Neorl.ACO

section
variable {K : Type} [Field K] [LinearOrder K] [IsStrictOrderedRing K]

/-- **C24.** After at least one iteration the archive has exactly `narchive` ants, sorted by cost, each an evaluated position with its own
cost, and no better ant is ever lost to a worse one: every position evaluated so far is in the archive or costs at least
as much as every archive member. -/
theorem C24_archive {c : Conf K} (hb : BoundsOK c.bounds) (hna : c.narchive ≤ c.nants) {fit : List K → K}
    {dr : ℕ → ℕ → ℕ → Draw K} {pos0 : List (List K)} (hn : pos0.length = c.nants) (hf : ∀ p ∈ pos0, InBox c.bounds p) {g : ℕ}
    {s : State K} (h : run c fit dr pos0 (g + 1) = .ok s) :
    s.arch.length = c.narchive ∧ s.arch.Pairwise (fun a b => a.2 ≤ b.2) ∧ (∀ a ∈ s.arch, a.1 ∈ s.log ∧ a.2 = fit a.1) ∧
    ∀ z ∈ s.log, (z, fit z) ∈ s.arch ∨ ∀ a ∈ s.arch, a.2 ≤ fit z := by
  have hi := run_inv hb hna hn hf h
  exact ⟨by have := hi.narch; simpa using this, hi.sorted, hi.own, fun z hz => (hi.keep z hz).imp id (fun h => h.2)⟩

/-- **C24.** What `evolute` returns: best evaluated position with its cost, exact global and local histories, `nants * (ngen + 1)`
evaluations inside the box, last population with its own fitness. -/
theorem C24_evolute {c : Conf K} (hb : BoundsOK c.bounds) {m : Bool} {userFit : List K → K} {dr : ℕ → ℕ → ℕ → Draw K}
    {pos0 : List (List K)} (hf : ∀ p ∈ pos0, InBox c.bounds p) {r : Result K} (h : evolute c m userFit dr pos0 = .ok r) :
    IsBest m userFit r.log r.x r.y ∧
    HistBest m userFit c.nants c.nants r.log r.global ∧ r.global.Pairwise (NotWorse m) ∧ r.global.getLast? = some r.y ∧
    BlockBest m userFit c.nants c.nants r.log r.locals ∧ r.global.length = c.ngen ∧ r.locals.length = c.ngen ∧
    r.log.length = c.nants * (c.ngen + 1) ∧ (∀ x ∈ r.log, InBox c.bounds x) ∧ InBox c.bounds r.x ∧
    r.lastPop = (r.log.drop (c.ngen * c.nants)).map (fun x => (x, userFit x)) := by
  unfold evolute at h
  by_cases hna : c.narchive ≤ c.nants
  swap
  · rw [if_pos hna] at h; cases h
  rw [if_neg (by simpa using hna)] at h
  by_cases hn : pos0.length = c.nants
  swap
  · rw [if_pos hn] at h; cases h
  rw [if_neg (by simpa using hn)] at h
  split at h
  · cases h
  rename_i s hs
  have hi := run_inv hb hna hn hf hs
  by_cases h0 : c.ngen = 0
  · rw [if_pos h0] at h; cases h
  rw [if_neg h0] at h
  split at h
  · cases h
  rename_i top htop
  cases h
  have hbest := top_best hi.sorted hi.own (fun z hz => (hi.keep z hz).imp id (fun h => h.2)) htop
  have hflip : ∀ (l : List (List K)) (y : K), BestOn true (fun x => sgn m (userFit x)) l y → BestOn m userFit l (sgn m y) :=
    fun l y h => MinOn.bestOn ⟨h.1, fun z hz => by simpa [NotWorse] using h.2 z hz⟩
  have hh : HistBest m userFit c.nants c.nants s.log (s.global.map (sgn m)) := by
    refine ⟨by simpa using hi.hist.1, ?_⟩
    intro k y hy
    rw [List.getElem?_map] at hy
    cases hk : s.global[k]? with
    | none => rw [hk] at hy; cases hy
    | some v => rw [hk] at hy; cases hy; exact hflip _ _ (hi.hist.2 k v hk)
  refine ⟨?_, hh, hh.pairwise, ?_, ?_, by simp [hi.lens], by simp [hi.lens], ?_, hi.box, hi.box _ hbest.1, ?_⟩
  · obtain ⟨b1, b2, b3⟩ := hbest
    refine ⟨b1, by rw [b2, sgn_sgn], fun z hz => ?_⟩
    rw [notWorse_iff, sgn_sgn]
    simpa [NotWorse] using b3 z hz
  · obtain ⟨t, e1, e2⟩ := hi.lastg h0
    rw [htop] at e1; cases e1
    simp only [List.getLast?_map, e2]; rfl
  · intro k y hy
    rw [List.getElem?_map] at hy
    cases hk : s.locals[k]? with
    | none => rw [hk] at hy; cases hy
    | some v => rw [hk] at hy; cases hy; exact hflip _ _ (hi.locals k v hk)
  · show s.log.length = _
    rw [hi.len]; ring
  · simp only [hi.last h0, List.map_map]
    exact List.map_congr_left (fun x _ => by simp)

theorem rouletteFrom_spec {r : K} {i : ℕ} {acc : K} {ps : List K} {k : ℕ} (h : rouletteFrom r i acc ps = .ok k) :
    ∃ j, k = i + j ∧ j < ps.length ∧ r ≤ acc + (ps.take (j + 1)).sum ∧ ∀ j' ≤ j, 0 < j' → acc + (ps.take j').sum < r := by
  induction ps generalizing i acc with
  | nil => cases h
  | cons p ps ih =>
    simp only [rouletteFrom] at h
    split_ifs at h with hc
    · cases h
      exact ⟨0, rfl, by simp, by simpa using hc, by omega⟩
    · obtain ⟨j, e, h1, h2, h3⟩ := ih h
      refine ⟨j + 1, by omega, by simpa using h1, by simpa [add_assoc] using h2, ?_⟩
      intro j' hj' hpos
      cases j' with
      | zero => omega
      | succ j' =>
        rcases Nat.eq_zero_or_pos j' with h0 | h0
        · subst h0; simpa using not_le.1 hc
        · have := h3 j' (by omega) h0
          simpa [add_assoc] using this

theorem rouletteFrom_total {r : K} {ps : List K} : ∀ (i : ℕ) (acc : K), ps ≠ [] → r ≤ acc + ps.sum → ∃ k, rouletteFrom r i acc ps = .ok k := by
  induction ps with
  | nil => intro i acc h; exact absurd rfl h
  | cons p ps ih =>
    intro i acc _ h
    simp only [rouletteFrom]
    split_ifs with hc
    · exact ⟨i, rfl⟩
    · apply ih
      · intro h0
        subst h0
        simp at h
        exact hc h
      · simpa [add_assoc] using h

/-- **C24.** The roulette wheel: the index returned is the one whose slice of the cumulative sum contains `r`; it is a valid archive
index; and for every `r ≤ 1` (positive weights) some index is returned. -/
theorem C24_roulette {c : Conf K} (hpos : ∀ l, 0 < weight c l) (h0 : 0 < c.narchive) (r : K) :
    (probs c).sum = 1 ∧ (∀ p ∈ probs c, 0 < p) ∧
    (∀ k, roulette (probs c) r = .ok k → k < c.narchive ∧ r ≤ ((probs c).take (k + 1)).sum ∧ ∀ j ≤ k, 0 < j → ((probs c).take j).sum < r) ∧
    (r ≤ 1 → ∃ k, roulette (probs c) r = .ok k) := by
  have hs : 0 < ((List.range c.narchive).map (weight c)).sum := by
    apply List.sum_pos
    · intro x hx
      obtain ⟨l, -, rfl⟩ := List.mem_map.1 hx
      exact hpos l
    · simp; omega
  have hsum : (probs c).sum = 1 := by
    have key : ∀ (l : List K) (t : K), (l.map (fun v => v / t)).sum = l.sum / t := by
      intro l t
      induction l with
      | nil => simp
      | cons a l ih => simp only [List.map_cons, List.sum_cons, ih, add_div]
    unfold probs
    simp only
    rw [key, div_self hs.ne']
  have hne : probs c ≠ [] := by
    intro h; rw [h] at hsum; simp at hsum
  refine ⟨hsum, ?_, ?_, ?_⟩
  · intro p hp
    unfold probs at hp
    obtain ⟨v, hv, rfl⟩ := List.mem_map.1 hp
    obtain ⟨l, -, rfl⟩ := List.mem_map.1 hv
    exact div_pos (hpos l) hs
  · intro k hk
    obtain ⟨j, e, h1, h2, h3⟩ := rouletteFrom_spec hk
    rw [Nat.zero_add] at e
    subst e
    exact ⟨by simpa [probs] using h1, by simpa using h2, fun j' hj hp => by simpa using h3 j' hj hp⟩
  · intro hr
    exact rouletteFrom_total 0 0 hne (by rw [hsum]; simpa using hr)

/-- **C24.** Better ranks get strictly larger kernel weights (for an increasing positive `exp`). -/
theorem C24_weights {c : Conf K} (hexp : StrictMono c.expf) (hpos : ∀ x, 0 < c.expf x) (hN : 0 < c.norm) (hQ : 0 < c.Q)
    (h0 : 0 < c.narchive) (l : ℕ) : 0 < weight c (l + 1) ∧ weight c (l + 1) < weight c l := by
  have hn : (0 : K) < c.narchive := by exact_mod_cast h0
  have hqn : 0 < c.Q * c.narchive := mul_pos hQ hn
  have hC : 0 < 1 / (c.norm * c.Q * (c.narchive : K)) := by positivity
  unfold weight
  refine ⟨mul_pos hC (pow_pos (hpos _) 2), ?_⟩
  apply mul_lt_mul_of_pos_left _ hC
  apply pow_lt_pow_left₀ _ (hpos _).le (by norm_num)
  apply hexp
  push_cast
  have : ((l : K) - 1) / (c.Q * c.narchive) < ((l : K) + 1 - 1) / (c.Q * c.narchive) :=
    (div_lt_div_iff_of_pos_right hqn).2 (by linarith)
  linarith

theorem newAnts_total {c : Conf K} (hpos : ∀ l, 0 < weight c l) (h0 : 0 < c.narchive) (arch : List (Ant K)) (dr : ℕ → ℕ → Draw K)
    (hr : ∀ i j, (dr i j).1 ≤ 1) : ∃ new, newAnts c arch dr = .ok new := by
  refine mapRows_total (P := fun _ : Unit => True) (fun _ _ => trivial) ?_
  intro i _ _
  have hco : ∃ v, mapRows (coord c arch (dr i)) 0 c.bounds = .ok v := by
    refine mapRows_total (P := fun _ : K × K => True) (fun _ _ => trivial) ?_
    intro j b _
    obtain ⟨k, hk⟩ := (C24_roulette hpos h0 (dr i j).1).2.2.2 (hr i j)
    exact ⟨_, by simp only [coord, hk]; rfl⟩
  obtain ⟨v, hv⟩ := hco
  exact ⟨_, by simp only [newAnt, hv]; rfl⟩

/-- **C24.** With at least two archive slots, at least one iteration and random numbers at most 1 the call returns. -/
theorem C24_total {c : Conf K} (hb : BoundsOK c.bounds) (hpos : ∀ l, 0 < weight c l) (h2 : 2 ≤ c.narchive) (hna : c.narchive ≤ c.nants)
    (hg : 0 < c.ngen) {m : Bool} {userFit : List K → K} {dr : ℕ → ℕ → ℕ → Draw K} (hr : ∀ g i j, (dr g i j).1 ≤ 1)
    {pos0 : List (List K)} (hn : pos0.length = c.nants) (hf : ∀ p ∈ pos0, InBox c.bounds p) :
    ∃ r, evolute c m userFit dr pos0 = .ok r := by
  have hrun : ∀ g, ∃ s, run c (fun x => sgn m (userFit x)) dr pos0 g = .ok s := by
    intro g
    induction g with
    | zero => exact ⟨_, rfl⟩
    | succ g ih =>
      obtain ⟨s, hs⟩ := ih
      have hi := run_inv hb hna hn hf hs
      obtain ⟨new, hnew⟩ := newAnts_total hpos (by omega) s.arch (dr g) (hr g)
      have hln : new.length = c.nants := by rw [(mapRows_ok hnew).1]; simp
      have hmin : ∃ mn, listMin (new.map (fun x => sgn m (userFit x))) = .ok mn := by
        cases new with
        | nil => simp at hln; omega
        | cons q qs => exact ⟨_, rfl⟩
      obtain ⟨mn, hmn⟩ := hmin
      cases hfin : run c (fun x => sgn m (userFit x)) dr pos0 (g + 1) with
      | ok s' => exact ⟨s', rfl⟩
      | error e =>
        exfalso
        simp only [run, hs, gen, hnew, hmn] at hfin
        rw [if_neg (by omega)] at hfin
        rw [List.getElem?_eq_getElem (by rw [List.length_take, length_sortAsc, List.length_append, List.length_map, hln]; omega)] at hfin
        cases hfin
  obtain ⟨s, hs⟩ := hrun c.ngen
  have hi := run_inv hb hna hn hf hs
  unfold evolute
  rw [if_neg (by simpa using hna), if_neg (by simpa using hn), hs]
  simp only
  rw [if_neg (by omega), List.getElem?_eq_getElem (by rw [hi.narch]; split_ifs <;> omega)]
  exact ⟨_, rfl⟩

/-! ### A concrete run -/

/-- `exp` replaced by a positive increasing function on the arguments used. -/
def exC : Conf ℚ := { bounds := [(-5, 5), (0, 3)], nants := 3, narchive := 2, ngen := 2, Q := 1 / 2, Z := 1, norm := 5 / 2, expf := fun x => if x ≤ 0 then 1 / (1 - x) else 1 + x }
def exFit : List ℚ → ℚ := fun x => (x.map (fun v => v * v)).sum
def exPos : List (List ℚ) := [[3, 1], [-2, 2], [1, 1]]
def exDr : ℕ → ℕ → ℕ → Draw ℚ := fun g i j => (1 / 3, if j = 0 then -1 / 2 else -2)

example : BoundsOK exC.bounds := by unfold BoundsOK; decide +kernel
example : ∀ p ∈ exPos, InBox exC.bounds p := by
  intro p hp
  have : p ∈ [[3, 1], [-2, 2], [1, 1]] := hp
  simp at this
  rcases this with rfl | rfl | rfl <;> refine .cons ?_ (.cons ?_ .nil) <;> norm_num
example : ∀ l, 0 < weight exC l := by
  intro l
  unfold weight
  refine mul_pos (by norm_num [exC]) (pow_pos ?_ 2)
  show (0 : ℚ) < if _ ≤ (0 : ℚ) then _ else _
  split_ifs with h
  · apply div_pos one_pos; linarith
  · linarith [not_le.1 h]
example : (match evolute exC true exFit exDr exPos with
    | .ok r => decide (r.log.length = 9 ∧ r.y < 2 ∧ r.y = exFit r.x) | _ => false) = true := by decide +kernel

end
end Neorl.ACO

import Verif.DE
import Verif.Best

/-!
# Property theorems C07-C09: differential evolution
-/

set_option linter.unusedSectionVars false
set_option linter.unusedVariables false

namespace Neorl.DE

section
variable {K : Type} [Field K] [LinearOrder K] [IsStrictOrderedRing K] [FloorRing K]

/-- Generic invariant: population size, predicate `P` on the population, `Q` on the selected individuals. -/
private theorem run_inv {c : Conf K} {P Q : List K → Prop} (hc : Closed c P Q) {fit : List K → K}
    {dr : ℕ → ℕ → Draw K} {rl : ℕ → List (ℕ × List K)} {pop0 : List (List K)} (hl : pop0.length = c.npop)
    (hp : ∀ x ∈ pop0, P x) (hr : ∀ g i x, (i, x) ∈ rl g → P x) {g : ℕ} {s : State K}
    (h : run c fit dr rl pop0 g = .ok s) :
    s.pop.length = c.npop ∧ (∀ x ∈ s.pop, P x) ∧ s.log.length = g * (2 * c.npop) ∧
    (∀ x ∈ s.log, ∃ y, Q y ∧ x = c.S.clip y) ∧ (∀ p ∈ s.sel, Q p.1 ∧ p.2 = fit (c.S.clip p.1) ∧ c.S.clip p.1 ∈ s.log) ∧
    s.best.length = g ∧
    (∀ b, s.last = some b → b ∈ s.sel ∧ ∀ p ∈ s.sel, p.2 ≤ b.2) ∧ (g ≠ 0 → s.last.isSome) ∧
    (g ≠ 0 → s.sel.length = c.npop) := by
  induction g generalizing s with
  | zero => cases h; exact ⟨hl, hp, by simp, by simp, by simp, rfl, by simp, by simp, by simp⟩
  | succ g ih =>
    simp only [run] at h
    split at h
    · cases h
    · rename_i s0 h0
      obtain ⟨a1, a2, a3, a4, _, a6, _⟩ := ih h0
      obtain ⟨targets, trials, b, hs, hb, rfl⟩ := gen_ok h
      obtain ⟨b1, b2, b3, b4⟩ := sweep_full hc hs a2 a1
      have hsl := select_length (fun x => fit (c.S.clip x)) (xs := targets) (ts := trials) (by omega)
      refine ⟨?_, ?_, ?_, ?_, ?_, ?_, ?_, by simp, ?_⟩
      · rw [length_mix, List.length_map, hsl, b1]
      · intro x hx
        rcases mem_mix hx with hx | ⟨i, hi⟩
        · obtain ⟨p, hp, rfl⟩ := List.mem_map.1 hx
          rcases (mem_select hp).2 with hh | hh
          · exact hc.weaken _ (b3 _ hh)
          · exact hc.weaken _ (b4 _ hh)
        · exact hr g i x hi
      · simp only [List.length_append, List.length_map, a3, b1, b2]; ring
      · intro x hx
        simp only [List.mem_append, List.mem_map] at hx
        rcases hx with (hx | ⟨y, hy, rfl⟩) | ⟨y, hy, rfl⟩
        · exact a4 x hx
        · exact ⟨y, b4 y hy, rfl⟩
        · exact ⟨y, b3 y hy, rfl⟩
      · intro p hp
        obtain ⟨h1, h2⟩ := mem_select hp
        refine ⟨?_, h1, ?_⟩
        · rcases h2 with hh | hh
          · exact b3 _ hh
          · exact b4 _ hh
        · simp only [List.mem_append, List.mem_map]
          rcases h2 with hh | hh
          · exact Or.inr ⟨_, hh, rfl⟩
          · exact Or.inl (Or.inr ⟨_, hh, rfl⟩)
      · simp [a6]
      · intro b' hb'
        cases hb'
        exact bestOf_spec hb
      · intro _; rw [hsl, b1]

/-- **C07.** Every point DE hands to the fitness function is feasible (inside the box, integers in the int dimensions),
whatever `F`, `CR`, the draws, the integer transform and the RL rows mixed in; and exactly `2 * npop` points are
evaluated per generation. -/
theorem C07_feasible {c : Conf K} (hS : c.S.OK) {fit : List K → K} {dr : ℕ → ℕ → Draw K}
    {rl : ℕ → List (ℕ × List K)} {pop0 : List (List K)} (hl : pop0.length = c.npop)
    (hp : ∀ x ∈ pop0, x.length = c.S.bounds.length) (hr : ∀ g i x, (i, x) ∈ rl g → x.length = c.S.bounds.length)
    {g : ℕ} {s : State K} (h : run c fit dr rl pop0 g = .ok s) :
    (∀ x ∈ s.log, c.S.Feasible x) ∧ s.log.length = g * (2 * c.npop) := by
  obtain ⟨_, _, h3, h4, _⟩ := run_inv (closed_length hS) hl hp hr h
  refine ⟨?_, h3⟩
  intro x hx
  obtain ⟨y, hy, rfl⟩ := h4 x hx
  exact c.S.clip_feasible hS hy.1 hy.2

private theorem target_total {c : Conf K} (hS : c.S.OK) (hm : c.S.method = .nearestInt) {j : ℕ} {dr : Draw K}
    {pop : List (List K)} (hp : ∀ x ∈ pop, x.length = c.S.bounds.length) (h1 : dr.i1 < pop.length)
    (h2 : dr.i2 < pop.length) (h3 : dr.i3 < pop.length) (hj : j < pop.length) :
    ∃ r, target c j dr pop = .ok r := by
  unfold target
  rw [getIdx_lt h1, getIdx_lt h2, getIdx_lt h3, getIdx_lt hj]
  have l1 := hp _ (List.getElem_mem h1)
  have l2 := hp _ (List.getElem_mem h2)
  have l3 := hp _ (List.getElem_mem h3)
  have lj := hp _ (List.getElem_mem hj)
  obtain ⟨v, hv⟩ := c.S.disc_nearest_total hS hm (1 - (j : K) * (1 / (c.ngen : K))) dr.discT lj
  obtain ⟨w, hw⟩ := c.S.disc_nearest_total hS hm (1 - (j : K) * (1 / (c.ngen : K))) dr.discV
    ((closed_length hS).trial dr.cross _ _ _ _ l1 l2 l3 lj)
  simp only [hv, hw]
  exact ⟨_, rfl⟩

private theorem sweep_total {c : Conf K} (hS : c.S.OK) (hm : c.S.method = .nearestInt) {dr : ℕ → Draw K}
    {pop : List (List K)} (hp : ∀ x ∈ pop, x.length = c.S.bounds.length)
    (hd : ∀ j, (dr j).i1 < pop.length ∧ (dr j).i2 < pop.length ∧ (dr j).i3 < pop.length) {n : ℕ} (hn : n ≤ pop.length) :
    ∃ r, sweep c dr n pop = .ok r := by
  induction n with
  | zero => exact ⟨_, rfl⟩
  | succ n ih =>
    obtain ⟨⟨p, ts⟩, h1⟩ := ih (by omega)
    obtain ⟨a1, _, _, a4, _⟩ := sweep_spec (closed_length hS) h1 hp
    simp only [sweep, h1]
    obtain ⟨q1, q2, q3⟩ := hd n
    obtain ⟨⟨p', t⟩, h2⟩ := target_total hS hm (j := n) (dr := dr n) a4 (by omega) (by omega) (by omega) (by omega)
    rw [h2]
    exact ⟨_, rfl⟩

/-- **C07, no exception.** With `nearest_int`, vectors of the right length and sampled indices inside the population a
DE run never raises. -/
theorem C07_total {c : Conf K} (hS : c.S.OK) (hm : c.S.method = .nearestInt) (hn : 0 < c.npop) {fit : List K → K}
    {dr : ℕ → ℕ → Draw K} {rl : ℕ → List (ℕ × List K)} {pop0 : List (List K)} (hl : pop0.length = c.npop)
    (hp : ∀ x ∈ pop0, x.length = c.S.bounds.length) (hr : ∀ g i x, (i, x) ∈ rl g → x.length = c.S.bounds.length)
    (hd : ∀ g j, (dr g j).i1 < c.npop ∧ (dr g j).i2 < c.npop ∧ (dr g j).i3 < c.npop) (g : ℕ) :
    ∃ s, run c fit dr rl pop0 g = .ok s := by
  induction g with
  | zero => exact ⟨_, rfl⟩
  | succ g ih =>
    obtain ⟨s, hs⟩ := ih
    obtain ⟨a1, a2, _⟩ := run_inv (closed_length hS) hl hp hr hs
    simp only [run, hs, gen]
    obtain ⟨⟨p, ts⟩, h1⟩ := sweep_total hS hm a2 (dr := dr g) (n := c.npop) (by rw [a1]; exact hd g) (by omega)
    obtain ⟨b1, b2, _⟩ := sweep_full (closed_length hS) h1 a2 a1
    obtain ⟨b, hb⟩ := bestOf_isSome (l := select (fun x => fit (c.S.clip x)) p ts)
      (by intro h0; have := select_length (fun x => fit (c.S.clip x)) (xs := p) (ts := ts) (by omega)
          rw [h0] at this; simp at this; omega)
    simp only [h1, hb]
    exact ⟨_, rfl⟩

/-- **C07, no exception.** The same for the whole call, with at least one generation. -/
theorem C07_evolute_total {c : Conf K} (hS : c.S.OK) (hm : c.S.method = .nearestInt) (hn : 0 < c.npop) (hg : 0 < c.ngen) {minMode : Bool}
    {userFit : List K → K} {dr : ℕ → ℕ → Draw K} {rl : ℕ → List (ℕ × List K)} {pop0 : List (List K)} (hl : pop0.length = c.npop)
    (hp : ∀ x ∈ pop0, x.length = c.S.bounds.length) (hr : ∀ g i x, (i, x) ∈ rl g → x.length = c.S.bounds.length)
    (hd : ∀ g j, (dr g j).i1 < c.npop ∧ (dr g j).i2 < c.npop ∧ (dr g j).i3 < c.npop) :
    ∃ r, evolute c minMode userFit dr rl pop0 = .ok r := by
  obtain ⟨s, hs⟩ := C07_total hS hm hn (fit := if minMode then (fun x => -userFit x) else userFit) hl hp hr hd c.ngen
  obtain ⟨b, hb⟩ : ∃ b, s.last = some b := by
    obtain ⟨k, hk⟩ := Nat.exists_eq_succ_of_ne_zero (Nat.pos_iff_ne_zero.1 hg)
    rw [hk] at hs
    simp only [run] at hs
    split at hs
    · cases hs
    unfold gen at hs
    split at hs
    · cases hs
    dsimp only at hs
    split at hs
    · cases hs
    cases hs
    exact ⟨_, rfl⟩
  obtain ⟨x, y⟩ := b
  unfold evolute
  simp only [hs, hb]
  cases minMode
  · exact ⟨_, rfl⟩
  · exact ⟨_, rfl⟩

/-- **C08, greedy selection.** In every generation, for every slot, the survivor is the target or the trial, its score
is the larger of the two scores (the target wins ties), and both were evaluated; this holds for every integer transform. -/
theorem C08_greedy {c : Conf K} (hS : c.S.OK) {fit : List K → K} {dr : ℕ → Draw K} {rl : List (ℕ × List K)}
    {s s' : State K} (hl : s.pop.length = c.npop) (hp : ∀ x ∈ s.pop, x.length = c.S.bounds.length)
    (h : gen c fit dr rl s = .ok s') (i : ℕ) (hi : i < c.npop) :
    ∃ x t, s'.sel[i]? = some (if fit (c.S.clip t) > fit (c.S.clip x) then (t, fit (c.S.clip t)) else (x, fit (c.S.clip x)))
      ∧ c.S.clip x ∈ s'.log ∧ c.S.clip t ∈ s'.log ∧
      (∀ p, s'.sel[i]? = some p → p.2 = max (fit (c.S.clip x)) (fit (c.S.clip t))) := by
  obtain ⟨targets, trials, b, hs, hb, rfl⟩ := gen_ok h
  obtain ⟨b1, b2, b3, b4⟩ := sweep_full (closed_length hS) hs hp hl
  have hx := List.getElem?_eq_getElem (l := targets) (i := i) (by omega)
  have ht := List.getElem?_eq_getElem (l := trials) (i := i) (by omega)
  have hsel := select_getElem? (fun x => fit (c.S.clip x)) hx ht
  refine ⟨_, _, hsel, ?_, ?_, ?_⟩
  · simp only [List.mem_append, List.mem_map]
    exact Or.inr ⟨_, List.getElem_mem _, rfl⟩
  · simp only [List.mem_append, List.mem_map]
    exact Or.inl (Or.inr ⟨_, List.getElem_mem _, rfl⟩)
  · intro p hp'
    rw [hsel] at hp'
    cases hp'
    split_ifs with hh
    · exact (max_eq_right hh.le).symm
    · exact (max_eq_left (not_lt.1 hh)).symm

/-- One generation with `nearest_int` on a feasible population whose members are all evaluated. -/
theorem gen_mono {c : Conf K} (hS : c.S.OK) (hm : c.S.method = .nearestInt) {fit : List K → K}
    {dr : ℕ → Draw K} {s s' : State K} (hl : s.pop.length = c.npop) (hp : ∀ x ∈ s.pop, c.S.Feasible x)
    (h : gen c fit dr [] s = .ok s') :
    (∀ x ∈ s'.pop, c.S.Feasible x) ∧ s'.pop.length = c.npop ∧
    (∀ (i : ℕ) (x : List K), s.pop[i]? = some x → ∃ p, s'.sel[i]? = some p ∧ fit x ≤ p.2) ∧
    (∀ x ∈ s'.log, x ∈ s.log ∨ ∃ p ∈ s'.sel, fit x ≤ p.2) ∧
    s'.pop = s'.sel.map Prod.fst ∧ (∀ p ∈ s'.sel, p.2 = fit p.1) := by
  obtain ⟨targets, trials, b, hs, hb, rfl⟩ := gen_ok h
  have he : targets = s.pop := sweep_nearest hS hm hs hp
  subst he
  obtain ⟨b1, b2, b3, b4⟩ := sweep_full (closed_box hS) hs (fun x hx => (hp x hx).1) hl
  have hsl := select_length (fun x => fit (c.S.clip x)) (xs := s.pop) (ts := trials) (by omega)
  have hfe : ∀ p ∈ select (fun x => fit (c.S.clip x)) s.pop trials, c.S.Feasible p.1 ∧ p.2 = fit p.1 := by
    intro p hp'
    obtain ⟨h1, h2⟩ := mem_select hp'
    have : c.S.Feasible p.1 := by rcases h2 with hh | hh; exacts [b3 _ hh, b4 _ hh]
    exact ⟨this, by rw [h1, c.S.clip_of_inBox this.1]⟩
  have hslot : ∀ (i : ℕ) (x t : List K), s.pop[i]? = some x → trials[i]? = some t →
      ∃ p, (select (fun x => fit (c.S.clip x)) s.pop trials)[i]? = some p ∧ fit x ≤ p.2 ∧ fit t ≤ p.2 := by
    intro i x t hx ht
    refine ⟨_, select_getElem? _ hx ht, ?_⟩
    have e1 := c.S.clip_of_inBox (hp x (List.mem_of_getElem? hx)).1
    have e2 := c.S.clip_of_inBox (b4 t (List.mem_of_getElem? ht)).1
    rw [e1, e2]
    split_ifs with hh
    · exact ⟨hh.le, le_rfl⟩
    · exact ⟨le_rfl, not_lt.1 hh⟩
  refine ⟨?_, ?_, ?_, ?_, rfl, fun p hp' => (hfe p hp').2⟩
  · intro x hx
    simp only [mix] at hx
    obtain ⟨p, hp', rfl⟩ := List.mem_map.1 hx
    exact (hfe p hp').1
  · simp [mix, hsl, hl]
  · intro i x hx
    have hlt : i < trials.length := by have := (List.getElem?_eq_some_iff.1 hx).1; omega
    obtain ⟨p, h1, h2, _⟩ := hslot i x _ hx (List.getElem?_eq_getElem hlt)
    exact ⟨p, h1, h2⟩
  · intro x hx
    simp only [List.mem_append, List.mem_map] at hx
    rcases hx with (hx | ⟨y, hy, rfl⟩) | ⟨y, hy, rfl⟩
    · exact Or.inl hx
    · right
      obtain ⟨i, hi⟩ := List.mem_iff_getElem?.1 hy
      have hlt : i < s.pop.length := by have := (List.getElem?_eq_some_iff.1 hi).1; omega
      obtain ⟨p, h1, _, h3⟩ := hslot i _ y (List.getElem?_eq_getElem hlt) hi
      exact ⟨p, List.mem_of_getElem? h1, by rw [c.S.clip_of_inBox (b4 y hy).1]; exact h3⟩
    · right
      obtain ⟨i, hi⟩ := List.mem_iff_getElem?.1 hy
      have hlt : i < trials.length := by have := (List.getElem?_eq_some_iff.1 hi).1; omega
      obtain ⟨p, h1, h2, _⟩ := hslot i y _ hi (List.getElem?_eq_getElem hlt)
      exact ⟨p, List.mem_of_getElem? h1, by rw [c.S.clip_of_inBox (hp y hy).1]; exact h2⟩

private theorem run_mono_inv {c : Conf K} (hS : c.S.OK) (hm : c.S.method = .nearestInt) {fit : List K → K}
    {dr : ℕ → ℕ → Draw K} {pop0 : List (List K)} (hl : pop0.length = c.npop) (hp : ∀ x ∈ pop0, c.S.Feasible x)
    {g : ℕ} {s : State K} (h : run c fit dr (fun _ => []) pop0 g = .ok s) :
    (∀ x ∈ s.pop, c.S.Feasible x) ∧ s.pop.length = c.npop ∧ (∀ x ∈ s.log, ∃ y ∈ s.pop, fit x ≤ fit y) ∧
    s.best.Pairwise (· ≤ ·) ∧ (∀ v ∈ s.best, ∃ b, s.last = some b ∧ v ≤ b.2) ∧
    (g ≠ 0 → s.pop = s.sel.map Prod.fst ∧ ∀ p ∈ s.sel, p.2 = fit p.1) := by
  induction g generalizing s with
  | zero => cases h; exact ⟨hp, hl, by simp, .nil, by simp, by simp⟩
  | succ g ih =>
    simp only [run] at h
    split at h
    · cases h
    · rename_i s0 h0
      obtain ⟨a1, a2, a3, a4, a5, a6⟩ := ih h0
      obtain ⟨b1, b2, b3, b4, b5, b6⟩ := gen_mono hS hm a2 a1 h
      have hlast := run_inv (closed_box hS) (fit := fit) (dr := dr) (rl := fun _ => []) hl
        (fun x hx => (hp x hx).1) (by simp) h0
      obtain ⟨targets, trials, b, hs, hb, hs'⟩ := gen_ok h
      have hlast' : s.last = some b := by rw [hs']
      have hbest : s.best = s0.best ++ [b.2] := by rw [hs']
      have hsel : bestOf s.sel = some b := by rw [hs']; exact hb
      have hbs := bestOf_spec hsel
      have hpop : ∀ y ∈ s0.pop, ∃ z ∈ s.pop, fit y ≤ fit z ∧ fit y ≤ b.2 := by
        intro y hy
        obtain ⟨i, hi⟩ := List.mem_iff_getElem?.1 hy
        obtain ⟨p, h1, h2⟩ := b3 i y hi
        have hm' := List.mem_of_getElem? h1
        refine ⟨p.1, ?_, ?_, h2.trans (hbs.2 p hm')⟩
        · rw [b5]; exact List.mem_map_of_mem hm'
        · rw [← b6 p hm']; exact h2
      have hstep : ∀ v ∈ s0.best, v ≤ b.2 := by
        intro v hv
        obtain ⟨b0, hb0, hvb⟩ := a5 v hv
        have hg : g ≠ 0 := by
          rintro rfl
          cases h0
          cases hb0
        obtain ⟨q1, q2⟩ := a6 hg
        obtain ⟨m1, _⟩ := hlast.2.2.2.2.2.2.1 b0 hb0
        have : b0.1 ∈ s0.pop := by rw [q1]; exact List.mem_map_of_mem m1
        obtain ⟨_, _, _, hh⟩ := hpop _ this
        rw [← q2 b0 m1] at hh
        exact hvb.trans hh
      refine ⟨b1, b2, ?_, ?_, ?_, fun _ => ⟨b5, b6⟩⟩
      · intro x hx
        rcases b4 x hx with hx | ⟨p, hp', hle⟩
        · obtain ⟨y, hy, hle⟩ := a3 x hx
          obtain ⟨z, hz, hle', _⟩ := hpop y hy
          exact ⟨z, hz, hle.trans hle'⟩
        · exact ⟨p.1, by rw [b5]; exact List.mem_map_of_mem hp', by rw [← b6 p hp']; exact hle⟩
      · rw [hbest, List.pairwise_append]
        exact ⟨a4, by simp, by simpa using hstep⟩
      · intro v hv
        refine ⟨b, hlast', ?_⟩
        rw [hbest] at hv
        rcases List.mem_append.1 hv with hv | hv
        · exact hstep v hv
        · rw [List.mem_singleton] at hv; rw [hv]

/-- **C08, slots never get worse.** With `nearest_int` and without RL mixing, from one generation to the next the score of
every slot of the population does not decrease. -/
theorem C08_slots_monotone {c : Conf K} (hS : c.S.OK) (hm : c.S.method = .nearestInt) {fit : List K → K}
    {dr : ℕ → ℕ → Draw K} {pop0 : List (List K)} (hl : pop0.length = c.npop) (hp : ∀ x ∈ pop0, c.S.Feasible x)
    {g : ℕ} {s s' : State K} (hg : g ≠ 0) (h : run c fit dr (fun _ => []) pop0 g = .ok s)
    (h' : run c fit dr (fun _ => []) pop0 (g + 1) = .ok s') (i : ℕ) (p : List K × K) (hi : s.sel[i]? = some p) :
    ∃ q, s'.sel[i]? = some q ∧ p.2 ≤ q.2 := by
  obtain ⟨a1, a2, _, _, _, a6⟩ := run_mono_inv hS hm hl hp h
  simp only [run, h] at h'
  obtain ⟨_, _, b3, _⟩ := gen_mono hS hm a2 a1 h'
  obtain ⟨q1, q2⟩ := a6 hg
  have : s.pop[i]? = some p.1 := by rw [q1, List.getElem?_map, hi]; rfl
  obtain ⟨q, h1, h2⟩ := b3 i p.1 this
  exact ⟨q, h1, by rw [q2 p (List.mem_of_getElem? hi)]; exact h2⟩

/-- **C08/C09.** With `nearest_int` and without RL mixing: the returned fitness is the user's fitness of the returned
individual, which was evaluated and is feasible; no evaluated point is better; and the recorded per-generation
history never gets worse (both modes). -/
theorem C08_best_of_all {c : Conf K} (hS : c.S.OK) (hm : c.S.method = .nearestInt) {minMode : Bool}
    {userFit : List K → K} {dr : ℕ → ℕ → Draw K} {pop0 : List (List K)} (hl : pop0.length = c.npop)
    (hp : ∀ x ∈ pop0, c.S.Feasible x) {r : Result K}
    (h : evolute c minMode userFit dr (fun _ => []) pop0 = .ok r) :
    r.y = userFit r.x ∧ r.x ∈ r.log ∧ (∀ x ∈ r.log, NotWorse minMode (userFit x) r.y) ∧
    r.localFitness.Pairwise (NotWorse minMode) ∧ r.log.length = c.ngen * (2 * c.npop) := by
  unfold evolute at h
  simp only at h
  split at h
  · cases h
  · rename_i s hs
    split at h
    · cases h
    · rename_i x y hlast
      obtain ⟨a1, a2, a3, a4, a5, a6⟩ := run_mono_inv hS hm hl hp hs
      obtain ⟨_, _, c3, _, c5, _, c7, _⟩ := run_inv (closed_box hS) hl (fun x hx => (hp x hx).1) (by simp) hs
      obtain ⟨m1, m2⟩ := c7 _ hlast
      have hg : c.ngen ≠ 0 := by
        intro hg; rw [hg] at hs; cases hs; cases hlast
      obtain ⟨q1, q2⟩ := a6 hg
      obtain ⟨d1, d2, d3⟩ := c5 _ m1
      have hall : ∀ z ∈ s.log, (if minMode then (fun x => -userFit x) else userFit) z ≤ y := by
        intro z hz
        obtain ⟨w, hw, hle⟩ := a3 z hz
        rw [q1] at hw
        obtain ⟨p, hp', rfl⟩ := List.mem_map.1 hw
        rw [← q2 p hp'] at hle
        exact hle.trans (m2 p hp')
      have hy := q2 _ m1
      simp only at hy
      have hx : x ∈ s.log := by
        have := d3
        simp only at this d1
        rwa [c.S.clip_of_inBox d1.1] at this
      cases minMode with
      | true =>
        simp only [if_true] at h hy hall
        cases h
        refine ⟨by simp [hy], hx, ?_, ?_, c3⟩
        · intro z hz
          have := hall z hz
          simp only [NotWorse, if_true]; linarith
        · rw [List.pairwise_map]
          exact a4.imp (fun h => by simpa [NotWorse] using h)
      | false =>
        simp only [Bool.false_eq_true, if_false] at h hy hall
        cases h
        exact ⟨hy, hx, fun z hz => by simpa [NotWorse] using hall z hz, a4.imp (fun h => by simpa [NotWorse] using h), c3⟩

/-- **C09.** For every integer transform, with or without RL rows (inside the box): the returned fitness is the user's fitness
of the returned individual, in both modes, and the individual is feasible and was evaluated. -/
theorem C09_result_consistent {c : Conf K} (hS : c.S.OK) {minMode : Bool} {userFit : List K → K}
    {dr : ℕ → ℕ → Draw K} {rl : ℕ → List (ℕ × List K)} {pop0 : List (List K)} (hl : pop0.length = c.npop)
    (hp : ∀ x ∈ pop0, InBox c.S.bounds x) (hr : ∀ g i x, (i, x) ∈ rl g → InBox c.S.bounds x) {r : Result K}
    (h : evolute c minMode userFit dr rl pop0 = .ok r) :
    r.y = userFit r.x ∧ c.S.Feasible r.x ∧ r.x ∈ r.log ∧ r.localFitness.getLast? = some r.y ∧
    r.localFitness.length = c.ngen := by
  unfold evolute at h
  simp only at h
  split at h
  · cases h
  · rename_i s hs
    split at h
    · cases h
    · rename_i x y hlast
      obtain ⟨_, _, _, _, c5, c6, c7, _⟩ := run_inv (closed_box hS) hl hp hr hs
      obtain ⟨m1, m2⟩ := c7 _ hlast
      obtain ⟨d1, d2, d3⟩ := c5 _ m1
      simp only at d1 d2 d3
      rw [c.S.clip_of_inBox d1.1] at d2 d3
      have hbl : s.best.getLast? = some y := by
        cases hgen : c.ngen with
        | zero => rw [hgen] at hs; cases hs; cases hlast
        | succ g =>
          rw [hgen] at hs
          simp only [run] at hs
          split at hs
          · cases hs
          · obtain ⟨targets, trials, b, _, hb, rfl⟩ := gen_ok hs
            simp only [Option.some.injEq] at hlast
            simp [hlast]
      cases minMode with
      | true =>
        simp only [if_true] at h d2
        cases h
        exact ⟨by simp [d2], d1, d3, by simp [List.getLast?_map, hbl], by simpa using c6⟩
      | false =>
        simp only [Bool.false_eq_true, if_false] at h d2
        cases h
        exact ⟨d2, d1, d3, hbl, c6⟩

/-- **C09.** Without RL rows the returned last population has `npop` members, each evaluated, feasible and listed with its own fitness, and the
returned individual is one of them. -/
theorem C09_last_pop {c : Conf K} (hS : c.S.OK) {minMode : Bool} {userFit : List K → K}
    {dr : ℕ → ℕ → Draw K} {pop0 : List (List K)} (hl : pop0.length = c.npop)
    (hp : ∀ x ∈ pop0, InBox c.S.bounds x) {r : Result K} (h : evolute c minMode userFit dr (fun _ => []) pop0 = .ok r) :
    r.lastPop.length = c.npop ∧ (r.x, r.y) ∈ r.lastPop ∧
    (∀ p ∈ r.lastPop, p.2 = userFit p.1 ∧ p.1 ∈ r.log ∧ NotWorse minMode p.2 r.y) ∧
    (∀ x ∈ r.log, c.S.Feasible x) ∧ r.log.length = c.ngen * (2 * c.npop) := by
  have hfeas : ∀ g s, run c (if minMode then (fun x => -userFit x) else userFit) dr (fun _ => []) pop0 g = .ok s →
      (∀ x ∈ s.log, c.S.Feasible x) ∧ s.log.length = g * (2 * c.npop) := fun g s hs =>
    C07_feasible hS hl (fun x hx => (hp x hx).length_eq) (by simp) hs
  unfold evolute at h
  simp only at h
  split at h
  · cases h
  · rename_i s hs
    split at h
    · cases h
    · rename_i x y hlast
      obtain ⟨_, _, _, _, c5, c6, c7, _, c9⟩ := run_inv (closed_box hS) hl hp (by simp) hs
      obtain ⟨m1, m2⟩ := c7 _ hlast
      obtain ⟨f1, f2⟩ := hfeas _ _ hs
      have hg : c.ngen ≠ 0 := by
        intro hg; rw [hg] at hs; cases hs; cases hlast
      have hpop : s.pop = s.sel.map Prod.fst := by
        cases hgen : c.ngen with
        | zero => exact absurd hgen hg
        | succ g =>
          rw [hgen] at hs
          simp only [run] at hs
          split at hs
          · cases hs
          · obtain ⟨targets, trials, b, _, hb, rfl⟩ := gen_ok hs
            rfl
      have hzip : ∀ f : List K × K → K, List.zip s.pop (s.sel.map f) = s.sel.map (fun p => (p.1, f p)) := by
        intro f; rw [hpop, List.zip_map']
      cases minMode with
      | true =>
        simp only [if_true] at h c5
        cases h
        simp only [hzip]
        refine ⟨by simp [c9 hg], List.mem_map.2 ⟨_, m1, rfl⟩, ?_, f1, f2⟩
        intro p hp'
        obtain ⟨q, hq, rfl⟩ := List.mem_map.1 hp'
        obtain ⟨d1, d2, d3⟩ := c5 q hq
        rw [c.S.clip_of_inBox d1.1] at d2 d3
        exact ⟨by simp [d2], d3, by simpa [NotWorse] using m2 q hq⟩
      | false =>
        simp only [Bool.false_eq_true, if_false] at h c5
        cases h
        simp only [hzip]
        refine ⟨by simp [c9 hg], List.mem_map.2 ⟨_, m1, rfl⟩, ?_, f1, f2⟩
        intro p hp'
        obtain ⟨q, hq, rfl⟩ := List.mem_map.1 hp'
        obtain ⟨d1, d2, d3⟩ := c5 q hq
        rw [c.S.clip_of_inBox d1.1] at d2 d3
        exact ⟨by simp [d2], d3, by simpa [NotWorse] using m2 q hq⟩

/-- With `nearest_int` the repair of an int dimension truncates (and clamps) its value. -/
theorem ensureDiscrete_nearest_val {expf : K → K} {types : List VType} {bounds : List (K × K)} {alpha : K} {draw : ℕ → K × ℕ} {n : ℕ}
    {vec v' : List K} (hb : BoundsOK bounds) (h : ensureDiscrete expf types bounds alpha .nearestInt draw n vec = .ok v') {d : ℕ} (hd : d < n)
    (ht : types[d]? = some VType.int) {x : K} {b : K × K} (hx : vec[d]? = some x) (hbd : bounds[d]? = some b) :
    v'[d]? = some ((clampInt (truncZ b.1) (truncZ b.2) (truncZ x) : ℤ) : K) := by
  induction n generalizing v' with
  | zero => omega
  | succ n ih =>
    simp only [ensureDiscrete] at h
    cases hv : ensureDiscrete expf types bounds alpha .nearestInt draw n vec with
    | error e => rw [hv] at h; cases h
    | ok v =>
      rw [hv] at h
      have h' : discStep expf types bounds alpha .nearestInt draw n v = .ok v' := h
      by_cases hdn : d = n
      · subst hdn
        have hvd : v[d]? = some x := by rw [(ensureDiscrete_spec hb hv).2.2 d (Or.inr le_rfl)]; exact hx
        unfold discStep at h'
        rw [ht, hvd, hbd] at h'
        simp only at h'
        split at h'
        · rename_i a b c e e1 e2 e3 e4
          cases e1; cases e4
          simp only [mutateDiscrete] at h'
          cases h'
          rw [List.getElem?_set_self (List.getElem?_eq_some_iff.1 hvd).1]
        · cases h'
      · rw [discStep_other h' hdn]
        exact ih hv (by omega)

theorem recombine_getElem? (CR : K) {cross : ℕ → K} {d x : List K} {i : ℕ} {a b : K} (hd : d[i]? = some a) (hx : x[i]? = some b) :
    (recombine CR cross d x)[i]? = some (if cross i ≤ CR then a else b) := by
  induction i generalizing d x cross with
  | zero =>
    cases d <;> cases x <;> simp at hd hx
    subst hd hx; simp [recombine]
  | succ i ih =>
    cases d <;> cases x <;> simp at hd hx
    simp only [recombine, List.getElem?_cons_succ]
    exact ih (cross := fun k => cross (k + 1)) hd hx

/-- **C08, trial vectors.** For one slot, spelled out coordinate by coordinate: a float coordinate of the trial is the clamped
`x1 + F (x2 - x3)` of the three sampled members if its crossover draw is at most `CR`, otherwise that of the target; with `nearest_int` an
int coordinate is the truncation of the same number.  The target itself is only rounded in its int coordinates. -/
theorem C08_trial {c : Conf K} (hS : c.S.OK) {j : ℕ} {dr : Draw K} {pop p' : List (List K)} {t' : List K}
    (hp : ∀ x ∈ pop, x.length = c.S.bounds.length) (h : target c j dr pop = .ok (p', t')) :
    ∃ x1 x2 x3 xt xt', pop[dr.i1]? = some x1 ∧ pop[dr.i2]? = some x2 ∧ pop[dr.i3]? = some x3 ∧ pop[j]? = some xt ∧
      (∀ (i : ℕ), i ≠ j → p'[i]? = pop[i]?) ∧ p'[j]? = some xt' ∧
      ∀ (d : ℕ) (a1 a2 a3 a : K) (b : K × K), x1[d]? = some a1 → x2[d]? = some a2 → x3[d]? = some a3 → xt[d]? = some a → c.S.bounds[d]? = some b →
        let z := if dr.cross d ≤ c.CR then max b.1 (min (a1 + c.F * (a2 - a3)) b.2) else a
        (c.S.types[d]? = some VType.float → t'[d]? = some z ∧ xt'[d]? = some a) ∧
        (c.S.types[d]? = some VType.int → c.S.method = .nearestInt → b.1 ≤ a → a ≤ b.2 →
          t'[d]? = some ((truncZ z : ℤ) : K) ∧ xt'[d]? = some ((truncZ a : ℤ) : K)) := by
  obtain ⟨x1, x2, x3, xt, xt', h1, h2, h3, h4, h5, h6, rfl⟩ := target_ok h
  have l1 := hp _ (List.mem_of_getElem? h1)
  have l2 := hp _ (List.mem_of_getElem? h2)
  have l3 := hp _ (List.mem_of_getElem? h3)
  refine ⟨x1, x2, x3, xt, xt', h1, h2, h3, h4, ?_, ?_, ?_⟩
  · intro i hi
    rw [List.getElem?_set_ne (Ne.symm hi)]
  · rw [List.getElem?_set_self (List.getElem?_eq_some_iff.1 h4).1]
  · intro d a1 a2 a3 a b e1 e2 e3 e4 hb z
    have hz : (recombine c.CR dr.cross (c.S.clip (donor c.F x1 x2 x3)) xt)[d]? = some z := by
      refine recombine_getElem? c.CR ?_ e4
      unfold Space.clip
      rw [ensureBounds_eq_zipWith hS.ordered]
      simp [List.getElem?_zipWith, donor, e1, e2, e3, hb, clamp]
    have hbl := hS.ordered b (List.mem_of_getElem? hb)
    refine ⟨fun ht => ?_, fun ht hm ha1 ha2 => ?_⟩
    · have hne : c.S.types[d]? ≠ some VType.int := by rw [ht]; simp
      exact ⟨((ensureDiscrete_spec hS.ordered h6).2.2 d (Or.inl hne)).trans hz, ((ensureDiscrete_spec hS.ordered h5).2.2 d (Or.inl hne)).trans e4⟩
    · have hdl := (List.getElem?_eq_some_iff.1 hb).1
      unfold Space.disc at h5 h6
      rw [hm] at h5 h6
      have hz1 : b.1 ≤ z ∧ z ≤ b.2 := by
        simp only [z]
        split_ifs
        · exact ⟨le_max_left _ _, max_le hbl (min_le_right _ _)⟩
        · exact ⟨ha1, ha2⟩
      rw [ensureDiscrete_nearest_val hS.ordered h6 hdl ht hz hb, ensureDiscrete_nearest_val hS.ordered h5 hdl ht e4 hb,
        clampInt_of_mem (truncZ_mono hz1.1) (truncZ_mono hz1.2), clampInt_of_mem (truncZ_mono ha1) (truncZ_mono ha2)]
      exact ⟨rfl, rfl⟩

private theorem run_block {c : Conf K} (hS : c.S.OK) {fit : List K → K} {dr : ℕ → ℕ → Draw K} {rl : ℕ → List (ℕ × List K)}
    {pop0 : List (List K)} (hl : pop0.length = c.npop) (hp : ∀ x ∈ pop0, x.length = c.S.bounds.length)
    (hr : ∀ g i x, (i, x) ∈ rl g → x.length = c.S.bounds.length) {g : ℕ} {s : State K} (h : run c fit dr rl pop0 g = .ok s) :
    BlockBest false fit 0 (2 * c.npop) s.log s.best := by
  induction g generalizing s with
  | zero => cases h; exact blockBest_nil _ _ _ _ _
  | succ g ih =>
    simp only [run] at h
    split at h
    · cases h
    · rename_i s0 h0
      obtain ⟨a1, a2, a3, _, _, a6, _⟩ := run_inv (closed_length hS) hl hp hr h0
      obtain ⟨targets, trials, b, hs, hb, rfl⟩ := gen_ok h
      obtain ⟨b1, b2, b3, b4⟩ := sweep_full (closed_length hS) hs a2 a1
      have hbs := bestOf_spec hb
      show BlockBest false fit 0 (2 * c.npop) (s0.log ++ trials.map c.S.clip ++ targets.map c.S.clip) (s0.best ++ [b.2])
      rw [List.append_assoc]
      refine (ih h0).step (by rw [a3, a6]; ring) (by simp [b1, b2]; ring) ⟨?_, ?_⟩
      · obtain ⟨e1, e2⟩ := mem_select hbs.1
        refine ⟨c.S.clip b.1, ?_, e1.symm⟩
        rcases e2 with e2 | e2
        · exact List.mem_append_right _ (List.mem_map_of_mem e2)
        · exact List.mem_append_left _ (List.mem_map_of_mem e2)
      · intro z hz
        show fit z ≤ b.2
        rcases List.mem_append.1 hz with hz | hz <;> obtain ⟨y, hy, rfl⟩ := List.mem_map.1 hz <;> obtain ⟨i, hi⟩ := List.mem_iff_getElem?.1 hy
        · have hlt : i < targets.length := by have := (List.getElem?_eq_some_iff.1 hi).1; omega
          have hsel := select_getElem? (fun x => fit (c.S.clip x)) (List.getElem?_eq_getElem hlt) hi
          refine le_trans ?_ (hbs.2 _ (List.mem_of_getElem? hsel))
          split_ifs with hh
          · exact le_rfl
          · exact not_lt.1 hh
        · have hlt : i < trials.length := by have := (List.getElem?_eq_some_iff.1 hi).1; omega
          have hsel := select_getElem? (fun x => fit (c.S.clip x)) hi (List.getElem?_eq_getElem hlt)
          refine le_trans ?_ (hbs.2 _ (List.mem_of_getElem? hsel))
          split_ifs with hh
          · exact (not_lt.1 (fun hc => (lt_irrefl _ (hc.trans hh)))).trans le_rfl
          · exact le_rfl

/-- **C09, histories.** For every integer transform, with or without RL rows: entry `k` of the local history is the best user fitness of all
points evaluated in generation `k`; entry `k` of the global history is the best of all points evaluated up to generation `k`, so it
never gets worse. -/
theorem C09_histories {c : Conf K} (hS : c.S.OK) {minMode : Bool} {userFit : List K → K}
    {dr : ℕ → ℕ → Draw K} {rl : ℕ → List (ℕ × List K)} {pop0 : List (List K)} (hl : pop0.length = c.npop)
    (hp : ∀ x ∈ pop0, x.length = c.S.bounds.length) (hr : ∀ g i x, (i, x) ∈ rl g → x.length = c.S.bounds.length) {r : Result K}
    (h : evolute c minMode userFit dr rl pop0 = .ok r) :
    BlockBest minMode userFit 0 (2 * c.npop) r.log r.localFitness ∧ HistBest minMode userFit 0 (2 * c.npop) r.log r.globalFitness ∧
    r.globalFitness.Pairwise (NotWorse minMode) ∧ r.localFitness.length = c.ngen ∧ r.globalFitness.length = c.ngen := by
  unfold evolute at h
  simp only at h
  split at h
  · cases h
  · rename_i s hs
    split at h
    · cases h
    · rename_i x y hlast
      obtain ⟨_, _, c3, _, c5, c6, c7, _⟩ := run_inv (closed_length hS) hl hp hr hs
      have hblk := run_block hS hl hp hr hs
      cases minMode with
      | true =>
        simp only [if_true] at h hblk
        cases h
        have hb2 : BlockBest true userFit 0 (2 * c.npop) s.log (s.best.map (fun v => -v)) := by
          intro k y hy
          rw [List.getElem?_map] at hy
          cases e : s.best[k]? with
          | none => rw [e] at hy; cases hy
          | some v =>
            rw [e] at hy; cases hy
            obtain ⟨⟨z, hz, e1⟩, h2⟩ := hblk k v e
            refine ⟨⟨z, hz, by beta_reduce at e1; rw [← e1]; simp⟩, fun w hw => ?_⟩
            have := h2 w hw
            simp only [NotWorse, Bool.false_eq_true, if_false] at this
            simp only [NotWorse, if_true]
            linarith
        have hh := hb2.histBest (by rw [List.length_map, c3, c6])
        exact ⟨hb2, hh, hh.pairwise, by simpa using c6, by simpa [length_accMin] using c6⟩
      | false =>
        simp only [Bool.false_eq_true, if_false] at h hblk
        cases h
        have hh := hblk.histBest (by rw [c3, c6])
        exact ⟨hblk, hh, hh.pairwise, c6, by simpa [length_accMax] using c6⟩

end

/-! ### Concrete cases -/

/-- One int variable in `[0, 3]`. -/
def demoSpace (m : IntMethod) : Space ℚ := ⟨[(0, 3)], [.int], m, fun _ => 1⟩
def demoConf (m : IntMethod) : Conf ℚ := ⟨demoSpace m, 1/2, 1, 5, 2⟩
def demoPop : List (List ℚ) := [[0], [1], [2], [1], [0]]
/-- Draws: generation 0 flips to the last choice, generation 1 to the first one. -/
def demoDraw : ℕ → ℕ → Draw ℚ := fun g j =>
  { i1 := (j + 1) % 5, i2 := (j + 2) % 5, i3 := (j + 3) % 5, cross := fun _ => 0,
    discT := fun _ => (0, if g = 0 then 2 else 0), discV := fun _ => (0, if g = 0 then 2 else 0) }

theorem demoSpace_ok (m : IntMethod) : (demoSpace m).OK where
  ordered := by intro b hb; simp [demoSpace] at hb; subst hb; norm_num
  ntypes := rfl
  intBounds := by
    intro d b ht hb
    match d with
    | 0 => simp [demoSpace] at hb; subst hb; exact ⟨0, 3, by norm_num, by norm_num⟩
    | n + 1 => simp [demoSpace] at hb

/-- The hypotheses of C07-C09 hold for a concrete run and the run returns. -/
theorem demo_nonvacuous : (demoSpace .nearestInt).OK ∧ demoPop.length = (demoConf .nearestInt).npop ∧
    (∀ x ∈ demoPop, (demoSpace .nearestInt).Feasible x) ∧
    ((evolute (demoConf .nearestInt) false (fun x => x.sum) demoDraw (fun _ => []) demoPop).map
      (fun r => (r.x, r.y, r.localFitness))) = .ok ([2], 2, [2, 2]) := by
  refine ⟨demoSpace_ok _, rfl, ?_, by decide +kernel⟩
  intro x hx
  simp [demoPop] at hx
  refine ⟨?_, ?_⟩
  · rcases hx with rfl | rfl | rfl | rfl | rfl <;> norm_num [demoSpace, InBox]
  · intro d y _ hy
    have hz : y = 0 ∨ y = 1 ∨ y = 2 := by
      have := List.mem_of_getElem? hy
      rcases hx with rfl | rfl | rfl | rfl | rfl <;> simp at this <;> simp [this]
    rcases hz with rfl | rfl | rfl
    · exact ⟨0, by norm_num⟩
    · exact ⟨1, by norm_num⟩
    · exact ⟨2, by norm_num⟩

/-- **C08, negation for the other transforms.** With `sigmoid` the recorded best fitness can get worse from one generation to the
next and the returned fitness be worse than one already evaluated: here the history of a maximisation run is 3, then 1. -/
theorem C08_sigmoid_regresses : ∃ r, evolute (demoConf .sigmoid) false (fun x => x.sum) demoDraw (fun _ => []) demoPop = .ok r
    ∧ r.localFitness = [3, 1] ∧ r.y = 1 ∧ [3] ∈ r.log := by
  have h : ((evolute (demoConf .sigmoid) false (fun x => x.sum) demoDraw (fun _ => []) demoPop).map
      (fun r => (r.localFitness, r.y, decide ([3] ∈ r.log)))) = .ok ([3, 1], 1, true) := by decide +kernel
  cases hr : evolute (demoConf .sigmoid) false (fun x => x.sum) demoDraw (fun _ => []) demoPop with
  | error e => rw [hr] at h; cases h
  | ok r =>
    rw [hr] at h
    simp only [Except.map, Except.ok.injEq, Prod.mk.injEq, decide_eq_true_eq] at h
    exact ⟨r, rfl, h.1, h.2.1, h.2.2⟩

end Neorl.DE

import Verif.BAT

/-!
# Property theorems C19: bat algorithm
-/

set_option linter.unusedSectionVars false
set_option linter.unusedVariables false

namespace Neorl.BAT

open Swarm (select Inc)

section
variable {K : Type} [Field K] [LinearOrder K] [IsStrictOrderedRing K] [FloorRing K]

/-- Everything known about the state after `g` generations. -/
structure Inv (c : Conf K) (fit : List K → K) (pos0 : List (List K)) (g : ℕ) (s : State K) : Prop where
  npos : s.pos.length = c.nbats
  feas : ∀ p ∈ s.pos, c.S.Feasible p
  best : RunMin fit s.log s.best
  bfeas : c.S.Feasible s.best.2
  log0 : s.log0 = pos0
  flog : ∀ p ∈ s.log, c.S.Feasible p
  hist : HistTop fit 0 (3 * c.nbats) s.log s.global
  lens : s.global.length = g ∧ s.locals.length = g ∧ s.hA.length = g ∧ s.hr.length = g
  locals : ∀ (k : ℕ) (y : K), s.locals[k]? = some y → MinOn fit ((s.log.drop (k * (3 * c.nbats))).take (3 * c.nbats)) y
  last : g ≠ 0 → s.pos = s.log.drop ((g - 1) * (3 * c.nbats) + 2 * c.nbats)
  lastg : g ≠ 0 → s.global.getLast? = some s.best.1
  curA : (c.A :: s.hA).getLast? = some s.A
  curr : (c.r0 :: s.hr).getLast? = some s.r
  anneal : ∀ k, k < g → ∃ (v : WithTop K) (y A A' r r' : K), s.global[k]? = some v ∧ s.locals[k]? = some y ∧
    (c.A :: s.hA)[k]? = some A ∧ s.hA[k]? = some A' ∧ (c.r0 :: s.hr)[k]? = some r ∧ s.hr[k]? = some r' ∧
    (v = (y : WithTop K) → A' = c.alpha * A ∧ r' = c.r0 * c.pulse k) ∧ (v ≠ (y : WithTop K) → A' = A ∧ r' = r)

theorem gen_ok {c : Conf K} {fit : List K → K} {l : ℕ} {dr : ℕ → Draw K} {s s' : State K} (h : gen c fit l dr s = .ok s') :
    ∃ p1 s1 b1 p2 s2 b2 p3 s3 b3, stage c fit (stage1 c l dr) s.pos s.best = .ok (p1, s1, b1) ∧
      stage c fit (stage2 c l s.A s.r dr) p1 b1 = .ok (p2, s2, b2) ∧
      stage c fit (stage3 c l s.A s.r dr) p2 b2 = .ok (p3, s3, b3) ∧
      s' = { pos := p3, best := b3,
             A := if ((min (min s1.1 s2.1) s3.1 : K) : WithTop K) ≤ b3.1 then c.alpha * s.A else s.A,
             r := if ((min (min s1.1 s2.1) s3.1 : K) : WithTop K) ≤ b3.1 then c.r0 * c.pulse l else s.r,
             global := s.global ++ [b3.1], locals := s.locals ++ [min (min s1.1 s2.1) s3.1],
             hA := s.hA ++ [if ((min (min s1.1 s2.1) s3.1 : K) : WithTop K) ≤ b3.1 then c.alpha * s.A else s.A],
             hr := s.hr ++ [if ((min (min s1.1 s2.1) s3.1 : K) : WithTop K) ≤ b3.1 then c.r0 * c.pulse l else s.r],
             log0 := s.log0,
             log := s.log ++ (p1.map c.S.clip ++ p2.map c.S.clip ++ p3.map c.S.clip) } := by
  unfold gen at h
  split at h
  · cases h
  · rename_i p1 s1 b1 h1
    split at h
    · cases h
    · rename_i p2 s2 b2 h2
      split at h
      · cases h
      · rename_i p3 s3 b3 h3
        cases h
        exact ⟨p1, s1, b1, p2, s2, b2, p3, s3, b3, h1, h2, h3, rfl⟩

theorem Inc.append {f : List K → K} {l1 l2 : List (List K)} {a b : K} (h1 : MinOn f l1 a) (h2 : MinOn f l2 b) :
    MinOn f (l1 ++ l2) (min a b) := by
  obtain ⟨⟨z1, m1, e1⟩, g1⟩ := h1
  obtain ⟨⟨z2, m2, e2⟩, g2⟩ := h2
  refine ⟨?_, ?_⟩
  · rcases min_choice a b with h | h
    · exact ⟨z1, by simp [m1], by rw [h, e1]⟩
    · exact ⟨z2, by simp [m2], by rw [h, e2]⟩
  · intro z hz
    rcases List.mem_append.1 hz with hz | hz
    · exact (min_le_left _ _).trans (g1 z hz)
    · exact (min_le_right _ _).trans (g2 z hz)

theorem Inv.step {c : Conf K} (hS : c.S.OK) (h0 : 0 < c.nbats) {fit : List K → K} {pos0 : List (List K)} {g : ℕ}
    {dr : ℕ → Draw K} {s s' : State K} (hi : Inv c fit pos0 g s) (h : gen c fit g dr s = .ok s') :
    Inv c fit pos0 (g + 1) s' := by
  obtain ⟨p1, s1, b1, p2, s2, b2, p3, s3, b3, e1, e2, e3, rfl⟩ := gen_ok h
  obtain ⟨n1, f1, i1, r1, bf1⟩ := stage_spec (stage1_ok hS g dr) hi.npos hi.feas hi.bfeas hi.best e1
  obtain ⟨n2, f2, i2, r2, bf2⟩ := stage_spec (stage2_ok hS g s.A s.r dr) n1 f1 bf1 r1 e2
  obtain ⟨n3, f3, i3, r3, bf3⟩ := stage_spec (stage3_ok hS g s.A s.r dr) n2 f2 bf2 r2 e3
  simp only [Space.map_clip f1, Space.map_clip f2, Space.map_clip f3]
  have elog : s.log ++ p1 ++ p2 ++ p3 = s.log ++ (p1 ++ p2 ++ p3) := by simp
  rw [elog] at r3
  have hlen : (p1 ++ p2 ++ p3).length = 3 * c.nbats := by simp [n1, n2, n3]; ring
  obtain ⟨l1, l2, l3, l4⟩ := hi.lens
  have hnlog : s.log.length = g * (3 * c.nbats) := by rw [hi.hist.1, l1]; ring
  have hloc : MinOn fit (p1 ++ p2 ++ p3) (min (min s1.1 s2.1) s3.1) :=
    Inc.append (Inc.append i1.minOn i2.minOn) i3.minOn
  have hne : p1 ≠ [] := by intro h; rw [h] at n1; simp at n1; omega
  have hb3 := r3.minOn (by simp [hne])
  refine ⟨n3, f3, r3, bf3, hi.log0, ?_, hi.hist.step hlen hb3, by simp [l1, l2, l3, l4], ?_, ?_, by simp,
    by simp only [← List.cons_append, List.getLast?_concat], by simp only [← List.cons_append, List.getLast?_concat], ?_⟩
  · intro p hp
    simp only [List.mem_append] at hp
    rcases hp with hp | (hp | hp) | hp
    · exact hi.flog p hp
    · exact f1 p hp
    · exact f2 p hp
    · exact f3 p hp
  · intro k y hy
    rcases Nat.lt_or_ge k g with hk | hk
    · rw [List.getElem?_append_left (by omega)] at hy
      have h1 : (k + 1) * (3 * c.nbats) ≤ g * (3 * c.nbats) := Nat.mul_le_mul_right _ hk
      have h2 : (k + 1) * (3 * c.nbats) = k * (3 * c.nbats) + 3 * c.nbats := by ring
      rw [List.drop_append_of_le_length (by rw [hnlog]; omega), List.take_append_of_le_length]
      · exact hi.locals k y hy
      · rw [List.length_drop, hnlog]; omega
    · rw [List.getElem?_append_right (by omega)] at hy
      have hk' : k = g := by
        have := (List.getElem?_eq_some_iff.1 hy).1
        simp at this; omega
      subst hk'
      simp [l2] at hy
      subst hy
      rw [List.drop_append_of_le_length (by rw [hnlog]), List.drop_of_length_le (by rw [hnlog])]
      rw [List.nil_append, List.take_of_length_le (by rw [hlen])]
      simpa [min_assoc] using hloc
  · intro _
    simp only [Nat.add_sub_cancel]
    have : s.log ++ (p1 ++ p2 ++ p3) = (s.log ++ (p1 ++ p2)) ++ p3 := by simp
    rw [this, List.drop_append_of_le_length (by simp [hnlog, n1, n2]; omega),
      List.drop_of_length_le (by simp [hnlog, n1, n2]; omega)]
    simp
  · intro k hk
    rcases Nat.lt_succ_iff_lt_or_eq.1 hk with hk | rfl
    · obtain ⟨v, y, A, A', r, r', q1, q2, q3, q4, q5, q6, q7⟩ := hi.anneal k hk
      refine ⟨v, y, A, A', r, r', ?_, ?_, ?_, ?_, ?_, ?_, q7⟩
      · rw [List.getElem?_append_left (by omega), q1]
      · rw [List.getElem?_append_left (by omega), q2]
      · rw [← List.cons_append, List.getElem?_append_left (by simp; omega), q3]
      · rw [List.getElem?_append_left (by omega), q4]
      · rw [← List.cons_append, List.getElem?_append_left (by simp; omega), q5]
      · rw [List.getElem?_append_left (by omega), q6]
    · have hA : (c.A :: s.hA)[k]? = some s.A := by
        have := hi.curA
        rw [List.getLast?_eq_getElem?] at this
        simpa [l3] using this
      have hr : (c.r0 :: s.hr)[k]? = some s.r := by
        have := hi.curr
        rw [List.getLast?_eq_getElem?] at this
        simpa [l4] using this
      refine ⟨b3.1, min (min s1.1 s2.1) s3.1, s.A,
        if ((min (min s1.1 s2.1) s3.1 : K) : WithTop K) ≤ b3.1 then c.alpha * s.A else s.A, s.r,
        if ((min (min s1.1 s2.1) s3.1 : K) : WithTop K) ≤ b3.1 then c.r0 * c.pulse k else s.r,
        by rw [List.getElem?_append_right (by omega)]; simp [l1], by rw [List.getElem?_append_right (by omega)]; simp [l2],
        by rw [← List.cons_append, List.getElem?_append_left (by simp; omega), hA], ?_,
        by rw [← List.cons_append, List.getElem?_append_left (by simp; omega), hr], ?_, ?_, ?_⟩
      · rw [List.getElem?_append_right (by omega)]; simp [l3]
      · rw [List.getElem?_append_right (by omega)]; simp [l4]
      · intro e
        rw [if_pos e.ge, if_pos e.ge]; exact ⟨rfl, rfl⟩
      · intro e
        have : ¬ ((min (min s1.1 s2.1) s3.1 : K) : WithTop K) ≤ b3.1 := by
          intro hle
          apply e
          apply le_antisymm _ hle
          obtain ⟨⟨z, hz, ez⟩, _⟩ := hloc
          rw [← ez]
          exact r3.1 z (by simp at hz; simp; tauto)
        rw [if_neg this, if_neg this]; exact ⟨rfl, rfl⟩

theorem run_inv {c : Conf K} (hS : c.S.OK) (h0 : 0 < c.nbats) {fit : List K → K} {dr : ℕ → ℕ → Draw K}
    {pos0 : List (List K)} (hn : pos0.length = c.nbats) (hf : ∀ p ∈ pos0, c.S.Feasible p) {g : ℕ} {s : State K}
    (h : run c fit dr pos0 g = .ok s) : Inv c fit pos0 g s := by
  induction g generalizing s with
  | zero =>
    simp only [run] at h
    split at h
    · cases h
    · rename_i t ht
      cases h
      rw [Swarm.select_congr (g := fit) (fun p hp => by rw [Space.clip_of_inBox (hf p hp).1])] at ht
      have hi := Swarm.select_inc ht
      refine ⟨hn, hf, runMin_nil _ _, hf _ hi.1, Space.map_clip hf, by simp, ?_, by simp, by simp, by simp, by simp,
        by simp, by simp, by simp⟩
      exact histTop_nil fit _ []
  | succ g ih =>
    simp only [run] at h
    split at h
    · cases h
    · rename_i s0 h0'
      exact (ih h0').step hS h0 h

/-- **C19.** What `evolute` returns, for every draw sequence: the pair is the best point of the three evaluation stages of
all generations (the initial evaluation, `log0`, does not take part), `global_fitness` is exactly the best so far and never gets
worse, `local_fitness` is the best of each generation, `3 * nbats` evaluations per generation plus `nbats` initial ones, all
feasible; the last population is that of the last stage with its own fitness. -/
theorem C19_evolute {c : Conf K} (hS : c.S.OK) (h0 : 0 < c.nbats) {m : Bool} {userFit : List K → K} {dr : ℕ → ℕ → Draw K}
    {pos0 : List (List K)} (hf : ∀ p ∈ pos0, c.S.Feasible p) {r : Result K}
    (h : evolute c m userFit dr pos0 = .ok r) :
    IsBest m userFit r.log r.x r.y ∧
    (∃ hist : List K, r.global = hist.map some ∧ hist.length = c.ngen ∧ HistBest m userFit 0 (3 * c.nbats) r.log hist ∧
      hist.Pairwise (NotWorse m) ∧ hist.getLast? = some r.y) ∧
    (r.locals.length = c.ngen ∧ ∀ (k : ℕ) (y : K), r.locals[k]? = some y →
      BestOn m userFit ((r.log.drop (k * (3 * c.nbats))).take (3 * c.nbats)) y) ∧
    r.log0 = pos0 ∧ r.log.length = c.ngen * (3 * c.nbats) ∧ (∀ x ∈ r.log, c.S.Feasible x) ∧ c.S.Feasible r.x ∧
    r.lastPop = (r.log.drop ((c.ngen - 1) * (3 * c.nbats) + 2 * c.nbats)).map (fun x => (x, userFit x)) := by
  unfold evolute at h
  by_cases hn : pos0.length = c.nbats
  swap
  · rw [if_pos hn] at h; cases h
  rw [if_neg (by simpa using hn)] at h
  split at h
  · cases h
  rename_i s hs
  have hi := run_inv hS h0 hn hf hs
  split at h
  · cases h
  rename_i y hy
  cases h
  obtain ⟨y0, hb, rfl⟩ := outScore_eq_some hy
  have hbest := hi.best.isBest hb
  obtain ⟨hk, ek, hH⟩ := hi.hist.histMin
  have hg0 : c.ngen ≠ 0 := by
    intro h0'
    have := hi.hist.1
    rw [hi.lens.1, h0'] at this
    have hnil : s.log = [] := by simpa using this
    rw [hnil] at hbest
    exact absurd hbest.1 (by simp)
  refine ⟨hbest, ⟨hk.map (sgn m), ?_, ?_, hH.histBest, hH.histBest.pairwise, ?_⟩, ⟨by simpa using hi.lens.2.1, ?_⟩, hi.log0,
    ?_, hi.flog, hi.bfeas, ?_⟩
  · simp only [ek, List.map_map]; apply List.map_congr_left; intro _ _; rfl
  · have := hi.lens.1
    rw [ek] at this; simpa using this
  · have := hi.lastg hg0
    rw [ek, hb, List.getLast?_map] at this
    rw [List.getLast?_map]
    cases hl : hk.getLast? with
    | none => rw [hl] at this; cases this
    | some z =>
      rw [hl] at this
      have : (z : WithTop K) = (y0 : WithTop K) := by simpa using this
      have : z = y0 := by exact_mod_cast this
      subst this; rfl
  · intro k y hy
    rw [List.getElem?_map] at hy
    cases hk : s.locals[k]? with
    | none => rw [hk] at hy; cases hy
    | some z =>
      rw [hk] at hy; cases hy
      exact (hi.locals k z hk).bestOn
  · show s.log.length = _
    rw [hi.hist.1, hi.lens.1]; ring
  · simp only [sgn_sgn]
    rw [← hi.last hg0]
    exact List.map_congr_left (fun p hp => by rw [Space.clip_of_inBox (hi.feas p hp).1])

/-- **C19.** Loudness and pulse rate: in every generation whose best equals the overall best, loudness is multiplied by `alpha` and
the pulse rate is reset to `r0 * (1 - exp(-gamma * k))`; in every other generation both stay. -/
theorem C19_loudness {c : Conf K} (hS : c.S.OK) (h0 : 0 < c.nbats) {m : Bool} {userFit : List K → K} {dr : ℕ → ℕ → Draw K}
    {pos0 : List (List K)} (hf : ∀ p ∈ pos0, c.S.Feasible p) {r : Result K}
    (h : evolute c m userFit dr pos0 = .ok r) {k : ℕ} (hk : k < c.ngen) :
    ∃ v y A A' q q' : K, r.global[k]? = some (some v) ∧ r.locals[k]? = some y ∧
      (c.A :: r.hA)[k]? = some A ∧ r.hA[k]? = some A' ∧ (c.r0 :: r.hr)[k]? = some q ∧ r.hr[k]? = some q' ∧
      (v = y → A' = c.alpha * A ∧ q' = c.r0 * c.pulse k) ∧ (v ≠ y → A' = A ∧ q' = q) := by
  unfold evolute at h
  by_cases hn : pos0.length = c.nbats
  swap
  · rw [if_pos hn] at h; cases h
  rw [if_neg (by simpa using hn)] at h
  split at h
  · cases h
  rename_i s hs
  have hi := run_inv hS h0 hn hf hs
  split at h
  · cases h
  rename_i y hy
  cases h
  obtain ⟨v, y, A, A', q, q', g1, g2, g3, g4, g5, g6, g7, g8⟩ := hi.anneal k hk
  obtain ⟨v0, rfl, _⟩ := hi.hist.2 k v g1
  refine ⟨sgn m v0, sgn m y, A, A', q, q', ?_, ?_, g3, g4, g5, g6, ?_, ?_⟩
  · simp only [List.getElem?_map, g1]; rfl
  · simp only [List.getElem?_map, g2]; rfl
  · intro e
    have := congrArg (sgn m) e
    simp only [sgn_sgn] at this
    exact g7 (by rw [this])
  · intro e
    exact g8 (fun h => e (by rw [show v0 = y by exact_mod_cast h]))

/-- **C19.** With `nearest_int`, at least one bat and one generation, and sampled indices in range, the call returns. -/
theorem C19_total {c : Conf K} (hS : c.S.OK) (hm : c.S.method = .nearestInt) {m : Bool} {userFit : List K → K}
    {dr : ℕ → ℕ → Draw K} {pos0 : List (List K)} (hf : ∀ p ∈ pos0, c.S.Feasible p) (hn : pos0.length = c.nbats)
    (h0 : 0 < c.nbats) (hg : 0 < c.ngen) (hd : ∀ g i, (dr g i).b0 < c.nbats ∧ (dr g i).b1 < c.nbats) :
    ∃ r, evolute c m userFit dr pos0 = .ok r := by
  set fit := fun x => sgn m (userFit x) with hfit
  have hr : ∀ g, g ≤ c.ngen → ∃ s, run c fit dr pos0 g = .ok s := by
    intro g
    induction g with
    | zero =>
      intro _
      obtain ⟨b, hb⟩ := Swarm.select_total (f := fun p => fit (c.S.clip p)) (ps := pos0) (by
        intro h; rw [h] at hn; simp at hn; omega)
      exact ⟨_, by simp only [run, hb]; rfl⟩
    | succ g ih =>
      intro hg'
      obtain ⟨s, hs⟩ := ih (by omega)
      have hi := run_inv hS h0 hn hf hs
      obtain ⟨⟨p1, s1, b1⟩, e1⟩ := stage_total (fit := fit) (stage1_ok hS g (dr g)) hi.npos h0 hi.feas hi.bfeas (by
        intro k ps x hk hl hp hx
        have hx' := hp x (List.mem_of_getElem? hx)
        unfold stage1
        simp only
        obtain ⟨d0, d1⟩ := hd g k
        generalize hP : (if c.levy = true then ps.set k (x.mapIdx fun j x => x + (dr g k).jump j) else ps) = P
        have hPl : P.length = c.nbats := by rw [← hP]; split_ifs <;> simp [hl]
        have hlen : ∀ q ∈ P, q.length = c.S.bounds.length := by
          intro q hq
          rw [← hP] at hq
          split_ifs at hq
          · rcases List.mem_or_eq_of_mem_set hq with hq | rfl
            · exact (hp q hq).1.length_eq
            · simp [hx'.1.length_eq]
          · exact (hp q hq).1.length_eq
        rw [List.getElem?_eq_getElem (by omega), List.getElem?_eq_getElem (by omega)]
        apply repair_total hS hm
        simp [hi.bfeas.1.length_eq, hlen _ (List.getElem_mem (by omega : (dr g k).b0 < P.length)),
          hlen _ (List.getElem_mem (by omega : (dr g k).b1 < P.length))])
      obtain ⟨n1, f1, i1, r1, bf1⟩ := stage_spec (stage1_ok hS g (dr g)) hi.npos hi.feas hi.bfeas hi.best e1
      obtain ⟨⟨p2, s2, b2⟩, e2⟩ := stage_total (fit := fit) (stage2_ok hS g s.A s.r (dr g)) n1 h0 f1 bf1 (by
        intro k ps x hk hl hp hx
        apply repair_total hS hm
        have hx' := hp x (List.mem_of_getElem? hx)
        split_ifs
        · simp [bf1.1.length_eq]
        · exact hx'.1.length_eq)
      obtain ⟨n2, f2, i2, r2, bf2⟩ := stage_spec (stage2_ok hS g s.A s.r (dr g)) n1 f1 bf1 r1 e2
      obtain ⟨⟨p3, s3, b3⟩, e3⟩ := stage_total (fit := fit) (stage3_ok hS g s.A s.r (dr g)) n2 h0 f2 bf2 (by
        intro k ps x hk hl hp hx
        apply repair_total hS hm
        have hx' := hp x (List.mem_of_getElem? hx)
        split_ifs
        · simp [bf2.1.length_eq]
        · exact hx'.1.length_eq)
      cases hfin : run c fit dr pos0 (g + 1) with
      | ok s' => exact ⟨s', rfl⟩
      | error e => simp only [run, hs, gen, e1, e2, e3] at hfin; cases hfin
  obtain ⟨s, hs⟩ := hr c.ngen le_rfl
  have hi := run_inv hS h0 hn hf hs
  have hne : s.log ≠ [] := by
    intro h
    have := hi.hist.1
    rw [h, hi.lens.1] at this
    have := Nat.mul_pos hg (by omega : 0 < 3 * c.nbats)
    simp at *; omega
  obtain ⟨y, hy, _⟩ := hi.best.minOn hne
  unfold evolute
  rw [if_neg (by simpa using hn), ← hfit, hs]
  simp only [hy, outScore_coe]
  exact ⟨_, rfl⟩

/-! ### A concrete run, and the lost initial optimum -/

def exS : Space ℚ := { bounds := [(-5, 5), (0, 3)], types := [.float, .int], method := .nearestInt, expf := fun x => x }
def exC : Conf ℚ := { S := exS, nbats := 5, ngen := 1, fmin := 0, fmax := 1, A := 1 / 2, alpha := 9 / 10, r0 := 1 / 2, pulse := fun l => l,
                      levy := true }
def exFit : List ℚ → ℚ := fun x => (x.map (fun v => v * v)).sum
def exPos : List (List ℚ) := [[3, 1], [-2, 2], [0, 0], [1, 1], [4, 3]]
def exDr : ℕ → ℕ → Draw ℚ := fun g i =>
  { jump := fun j => j, u1 := 1, b0 := (i + 1) % 5, b1 := (i + 3) % 5, t2 := 1, w2 := fun j => 1, t3 := 1, w3 := fun j => 1,
    d1 := fun _ => (0, 0), d2 := fun _ => (0, 0), d3 := fun _ => (0, 0) }

example : exS.OK := Space.ok_of_okB (by decide +kernel)
example : ∀ p ∈ exPos, exS.Feasible p := Space.feasible_all (by decide +kernel)
example : ∀ g i, (exDr g i).b0 < exC.nbats ∧ (exDr g i).b1 < exC.nbats :=
  fun g i => ⟨Nat.mod_lt _ (by decide), Nat.mod_lt _ (by decide)⟩

/-- **C19 (defect).** The initial evaluation is not counted: the user's starting pack contains the exact optimum (fitness 0), it is
evaluated, and the run reports a strictly worse one. -/
theorem C19_initial_lost : ∃ r, evolute exC true exFit exDr exPos = .ok r ∧ ∃ z ∈ r.log0, exFit z < r.y := by
  have h : (match evolute exC true exFit exDr exPos with
      | .ok r => r.log0.any (fun z => decide (exFit z < r.y)) | _ => false) = true := by decide +kernel
  revert h
  cases evolute exC true exFit exDr exPos with
  | error e => intro h; cases h
  | ok r =>
    intro h
    obtain ⟨z, hz, hlt⟩ := List.any_eq_true.1 h
    exact ⟨r, rfl, z, hz, by simpa using hlt⟩

end
end Neorl.BAT

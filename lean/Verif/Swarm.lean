import Verif.Feasible
import Verif.Best

/-!
# Swarm skeleton: evaluate, remember the best, move, evaluate, ...

`neorl/evolu/woa.py` and `neorl/evolu/ssa.py` share the same main loop and only differ in the way the population is moved.
This file models that loop with the move as a parameter; `Verif/WOA.lean` and `Verif/SSA.lean` supply the moves.
-/

set_option linter.unusedSectionVars false
set_option linter.unusedVariables false

namespace Neorl.Swarm

section
variable {K : Type} [Field K] [LinearOrder K] [IsStrictOrderedRing K] [FloorRing K]

/-- `if fits < self.best_fitness: ...`, `neorl/evolu/woa.py` lines 285-289, `neorl/evolu/ssa.py` lines 277-281. -/
def better (f : List K → K) : K × List K → List (List K) → K × List K
  | b, [] => b
  | b, p :: ps => better f (if f p < b.1 then (f p, p) else b) ps

/-- `select`, `neorl/evolu/woa.py` lines 130-136 (`np.min`, first `np.argmin`); `np.min` of nothing raises. -/
def select (f : List K → K) : List (List K) → Py (K × List K)
  | [] => .error .valueError
  | p :: ps => .ok (better f (f p, p) ps)

/-- Specification of the incumbent: an evaluated point, its fitness, nothing evaluated is smaller. -/
def Inc (f : List K → K) (log : List (List K)) (b : K × List K) : Prop :=
  b.2 ∈ log ∧ b.1 = f b.2 ∧ ∀ z ∈ log, b.1 ≤ f z

theorem Inc.better {f : List K → K} {log : List (List K)} {b : K × List K} (h : Inc f log b) (ps : List (List K)) :
    Inc f (log ++ ps) (better f b ps) := by
  induction ps generalizing log b with
  | nil => simpa [Swarm.better] using h
  | cons p ps ih =>
    have : Inc f (log ++ [p]) (if f p < b.1 then (f p, p) else b) := by
      obtain ⟨h1, h2, h3⟩ := h
      split_ifs with hc
      · refine ⟨by simp, rfl, ?_⟩
        intro z hz
        rcases List.mem_append.1 hz with hz | hz
        · exact hc.le.trans (h3 z hz)
        · simp at hz; subst hz; exact le_rfl
      · refine ⟨by simp [h1], h2, ?_⟩
        intro z hz
        rcases List.mem_append.1 hz with hz | hz
        · exact h3 z hz
        · simp at hz; subst hz; exact not_lt.1 hc
    have := ih this
    simpa [Swarm.better] using this

theorem select_inc {f : List K → K} {ps : List (List K)} {b : K × List K} (h : select f ps = .ok b) : Inc f ps b := by
  cases ps with
  | nil => cases h
  | cons p ps =>
    cases h
    have : Inc f [p] (f p, p) := ⟨by simp, rfl, by simp⟩
    exact this.better ps

theorem select_total {f : List K → K} {ps : List (List K)} (h : ps ≠ []) : ∃ b, select f ps = .ok b := by
  cases ps with
  | nil => exact absurd rfl h
  | cons p ps => exact ⟨_, rfl⟩

theorem Inc.minOn {f : List K → K} {log : List (List K)} {b : K × List K} (h : Inc f log b) : MinOn f log b.1 :=
  ⟨⟨b.2, h.1, h.2.1.symm⟩, h.2.2⟩

theorem Inc.isBest {m : Bool} {f : List K → K} {log : List (List K)} {b : K × List K}
    (h : Inc (fun x => sgn m (f x)) log b) : IsBest m f log b.2 (sgn m b.1) := by
  obtain ⟨h1, h2, h3⟩ := h
  refine ⟨h1, by rw [h2, sgn_sgn], fun z hz => ?_⟩
  rw [notWorse_iff, sgn_sgn]
  exact h3 z hz

/-- How the population moves in generation `k`, given the incumbent position. -/
abbrev Move (K : Type) := ℕ → List K → List (List K) → Py (List (List K))

/-- State between generations. -/
structure State (K : Type) where
  pos : List (List K)
  best : K × List K
  /-- `history['global_fitness']`, `history['local_fitness']`, internal sign -/
  global : List K
  locals : List K
  log : List (List K)

/-- One generation: move (`woa.py` 278, `ssa.py` 271), evaluate (`fit_worker` clamps first), update the incumbent, record. -/
def gen (S : Space K) (mv : Move K) (fit : List K → K) (k : ℕ) (s : State K) : Py (State K) :=
  let f := fun p => fit (S.clip p)
  match mv k s.best.2 s.pos with
  | .error e => .error e
  | .ok pos =>
    let b := better f s.best pos
    match select f pos with
    | .error e => .error e
    | .ok l =>
      .ok { pos := pos, best := b, global := s.global ++ [b.1], locals := s.locals ++ [l.1],
            log := s.log ++ pos.map S.clip }

/-- Initial evaluation (`woa.py` 252-254, `ssa.py` 251-253) and `g` generations. -/
def run (S : Space K) (mv : Move K) (fit : List K → K) (pos0 : List (List K)) : ℕ → Py (State K)
  | 0 =>
    match select (fun p => fit (S.clip p)) pos0 with
    | .error e => .error e
    | .ok b => .ok { pos := pos0, best := b, global := [], locals := [], log := pos0.map S.clip }
  | g + 1 =>
    match run S mv fit pos0 g with
    | .error e => .error e
    | .ok s => gen S mv fit g s

/-- What `evolute` returns, plus the ghost log. -/
structure Result (K : Type) where
  x : List K
  y : K
  global : List K
  locals : List K
  lastPop : List (List K × K)
  log : List (List K)

/-- `evolute`, `woa.py` lines 225-344, `ssa.py` lines 220-333.  With `ngen = 0` the attribute `fitness_best_correct` does not
exist.  Signs are turned back for `mode='max'`. -/
def evolute (S : Space K) (n ngen : ℕ) (mv : Move K) (m : Bool) (userFit : List K → K) (pos0 : List (List K)) :
    Py (Result K) :=
  if pos0.length ≠ n then .error .assertion else
  match run S mv (fun x => sgn m (userFit x)) pos0 ngen with
  | .error e => .error e
  | .ok s =>
    if ngen = 0 then .error .unboundLocal else
    .ok { x := s.best.2, y := sgn m s.best.1, global := s.global.map (sgn m), locals := s.locals.map (sgn m),
          lastPop := s.pos.map (fun p => (p, sgn m (sgn m (userFit (S.clip p))))), log := s.log }

/-- What a move must do: keep the number of rows and produce feasible rows. -/
def MoveOK (S : Space K) (n : ℕ) (mv : Move K) : Prop :=
  ∀ k b ps ps', S.Feasible b → (∀ p ∈ ps, S.Feasible p) → ps.length = n → mv k b ps = .ok ps' →
    ps'.length = ps.length ∧ ∀ p ∈ ps', S.Feasible p

/-- Everything known about the state after `g` generations. -/
structure Inv (S : Space K) (n : ℕ) (fit : List K → K) (g : ℕ) (s : State K) : Prop where
  npos : s.pos.length = n
  feas : ∀ p ∈ s.pos, S.Feasible p
  best : Inc fit s.log s.best
  flog : ∀ p ∈ s.log, S.Feasible p
  hist : HistMin fit n n s.log s.global
  lens : s.global.length = g ∧ s.locals.length = g
  locals : ∀ (k : ℕ) (y : K), s.locals[k]? = some y → MinOn fit ((s.log.drop (n + k * n)).take n) y
  last : s.pos = s.log.drop (g * n)
  lastg : g ≠ 0 → s.global.getLast? = some s.best.1

theorem better_congr {f g : List K → K} {ps : List (List K)} (h : ∀ p ∈ ps, f p = g p) (b : K × List K) :
    better f b ps = better g b ps := by
  induction ps generalizing b with
  | nil => rfl
  | cons p ps ih =>
    simp only [better]
    rw [h p (by simp)]
    exact ih (fun q hq => h q (by simp [hq])) _

theorem select_congr {f g : List K → K} {ps : List (List K)} (h : ∀ p ∈ ps, f p = g p) :
    select f ps = select g ps := by
  cases ps with
  | nil => rfl
  | cons p ps =>
    simp only [select]
    rw [h p (by simp), better_congr (fun q hq => h q (by simp [hq]))]

theorem run_inv {S : Space K} {mv : Move K} {n : ℕ} (hm : MoveOK S n mv) {fit : List K → K} {pos0 : List (List K)}
    (hn : pos0.length = n) (hf : ∀ p ∈ pos0, S.Feasible p) {g : ℕ} {s : State K}
    (h : run S mv fit pos0 g = .ok s) : Inv S n fit g s := by
  induction g generalizing s with
  | zero =>
    simp only [run] at h
    split at h
    · cases h
    · rename_i b hb
      cases h
      rw [select_congr (g := fit) (fun p hp => by rw [Space.clip_of_inBox (hf p hp).1])] at hb
      simp only [Space.map_clip hf]
      refine ⟨hn, hf, select_inc hb, hf, ?_, by simp, by simp, by simp, by simp⟩
      have := histMin_nil fit n pos0
      rw [hn] at this
      exact this
  | succ g ih =>
    simp only [run] at h
    split at h
    · cases h
    · rename_i s0 h0
      have hi := ih h0
      simp only [gen] at h
      split at h
      · cases h
      · rename_i pos hp
        obtain ⟨q1, q2⟩ := hm g s0.best.2 s0.pos pos (hi.flog _ hi.best.1) hi.feas hi.npos hp
        have hcong : ∀ p ∈ pos, fit (S.clip p) = fit p := fun p hp => by rw [Space.clip_of_inBox (q2 p hp).1]
        split at h
        · cases h
        · rename_i l hl
          cases h
          rw [select_congr (g := fit) hcong] at hl
          simp only [Space.map_clip q2, better_congr hcong]
          have hb := hi.best.better pos
          have hlen : pos.length = n := by rw [q1, hi.npos]
          obtain ⟨l1, l2⟩ := hi.lens
          have hlog : s0.log.length = n + g * n := by rw [hi.hist.1, l1]
          refine ⟨hlen, q2, hb, ?_, hi.hist.step hlen hb.minOn, by simp [l1, l2], ?_, ?_, by simp⟩
          · intro p hp
            rcases List.mem_append.1 hp with hp | hp
            · exact hi.flog p hp
            · exact q2 p hp
          · intro k y hy
            rcases Nat.lt_or_ge k g with hk | hk
            · rw [List.getElem?_append_left (by omega)] at hy
              have h1 : (k + 1) * n ≤ g * n := Nat.mul_le_mul_right n hk
              rw [List.drop_append_of_le_length (by rw [hlog]; nlinarith), List.take_append_of_le_length]
              · exact hi.locals k y hy
              · rw [List.length_drop, hlog]
                have : (k + 1) * n = k * n + n := by ring
                omega
            · rw [List.getElem?_append_right (by omega)] at hy
              have hk' : k = g := by
                have := (List.getElem?_eq_some_iff.1 hy).1
                simp at this; omega
              subst hk'
              simp [l2] at hy
              subst hy
              rw [List.drop_append_of_le_length (by rw [hlog]), List.drop_of_length_le (by rw [hlog])]
              rw [List.nil_append, List.take_of_length_le (by rw [hlen])]
              exact (select_inc hl).minOn
          · have e : (g + 1) * n = n + g * n := by ring
            rw [List.drop_append_of_le_length (by rw [hlog, e]), List.drop_of_length_le (by rw [hlog, e])]
            simp

/-- The observable contract of the loop. -/
structure Contract (S : Space K) (n ngen : ℕ) (m : Bool) (userFit : List K → K) (r : Result K) : Prop where
  /-- the returned pair is the best evaluated point with its fitness -/
  best : IsBest m userFit r.log r.x r.y
  /-- `global_fitness` is exactly the best so far after each generation, initial population included -/
  hist : HistBest m userFit n n r.log r.global
  mono : r.global.Pairwise (NotWorse m)
  nhist : r.global.length = ngen ∧ r.locals.length = ngen
  last : r.global.getLast? = some r.y
  /-- `local_fitness` is exactly the best of each generation's population -/
  locals : ∀ (k : ℕ) (y : K), r.locals[k]? = some y → BestOn m userFit ((r.log.drop (n + k * n)).take n) y
  evals : r.log.length = n * (ngen + 1)
  feas : ∀ x ∈ r.log, S.Feasible x
  xfeas : S.Feasible r.x
  /-- the returned last population is the last evaluated one with its fitness -/
  lastPop : r.lastPop = (r.log.drop (ngen * n)).map (fun x => (x, userFit x))

theorem evolute_contract {S : Space K} {mv : Move K} {n ngen : ℕ} (hm : MoveOK S n mv) {m : Bool}
    {userFit : List K → K} {pos0 : List (List K)} (hf : ∀ p ∈ pos0, S.Feasible p) {r : Result K}
    (h : evolute S n ngen mv m userFit pos0 = .ok r) : Contract S n ngen m userFit r := by
  unfold evolute at h
  by_cases hn : pos0.length = n
  swap
  · rw [if_pos hn] at h; cases h
  rw [if_neg (by simpa using hn)] at h
  split at h
  · cases h
  rename_i s hs
  have hi := run_inv hm hn hf hs
  by_cases h0 : ngen = 0
  · rw [if_pos h0] at h; cases h
  rw [if_neg h0] at h
  cases h
  refine ⟨hi.best.isBest, hi.hist.histBest, hi.hist.histBest.pairwise, by simpa using hi.lens, ?_, ?_, ?_, hi.flog,
    hi.flog _ hi.best.1, ?_⟩
  · simp only [List.getLast?_map, hi.lastg h0]; rfl
  · intro k y hy
    rw [List.getElem?_map] at hy
    cases hk : s.locals[k]? with
    | none => rw [hk] at hy; cases hy
    | some z =>
      rw [hk] at hy; cases hy
      exact (hi.locals k z hk).bestOn
  · show s.log.length = _
    rw [hi.hist.1, hi.lens.1]; ring
  · simp only [sgn_sgn]
    rw [← hi.last]
    exact List.map_congr_left (fun p hp => by rw [Space.clip_of_inBox (hi.feas p hp).1])

/-- The loop returns whenever the moves do, with a non-empty population and at least one generation. -/
theorem evolute_total {S : Space K} {mv : Move K} {n ngen : ℕ} (hm : MoveOK S n mv) {m : Bool}
    {userFit : List K → K} {pos0 : List (List K)} (hf : ∀ p ∈ pos0, S.Feasible p) (hn : pos0.length = n) (h0 : 0 < n)
    (hg : 0 < ngen)
    (ht : ∀ k b ps, k < ngen → S.Feasible b → (∀ p ∈ ps, S.Feasible p) → ps.length = n → ∃ ps', mv k b ps = .ok ps') :
    ∃ r, evolute S n ngen mv m userFit pos0 = .ok r := by
  have hr : ∀ g, g ≤ ngen → ∃ s, run S mv (fun x => sgn m (userFit x)) pos0 g = .ok s := by
    intro g
    induction g with
    | zero =>
      intro _
      obtain ⟨b, hb⟩ := select_total (f := fun p => sgn m (userFit (S.clip p))) (ps := pos0) (by
        intro h; rw [h] at hn; simp at hn; omega)
      exact ⟨_, by simp only [run, hb]; rfl⟩
    | succ g ih =>
      intro hg'
      obtain ⟨s, hs⟩ := ih (by omega)
      have hi := run_inv hm hn hf hs
      obtain ⟨ps', hps⟩ := ht g s.best.2 s.pos (by omega) (hi.flog _ hi.best.1) hi.feas hi.npos
      have hlen := (hm g _ _ _ (hi.flog _ hi.best.1) hi.feas hi.npos hps).1
      obtain ⟨b, hb⟩ := select_total (f := fun p => sgn m (userFit (S.clip p))) (ps := ps') (by
        intro h; rw [h, hi.npos] at hlen; simp at hlen; omega)
      cases hfin : run S mv (fun x => sgn m (userFit x)) pos0 (g + 1) with
      | ok s' => exact ⟨s', rfl⟩
      | error e => simp only [run, hs, gen, hps, hb] at hfin; cases hfin
  obtain ⟨s, hs⟩ := hr ngen le_rfl
  unfold evolute
  rw [if_neg (by simpa using hn), hs]
  simp only
  rw [if_neg (by omega)]
  exact ⟨_, rfl⟩

end
end Neorl.Swarm

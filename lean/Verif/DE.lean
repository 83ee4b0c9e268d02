import Verif.Feasible
import Verif.Best

/-!
# Differential evolution

Model of `neorl/evolu/de.py`.  Fitness is an arbitrary function of the encoded vector (the grid decoding of `fit_worker`,
lines 171-173, is part of that function).  The points handed to the fitness function are collected in `log`.
-/

set_option linter.unusedSectionVars false
set_option linter.unusedVariables false

namespace Neorl.DE

section
variable {K : Type} [Field K] [LinearOrder K] [IsStrictOrderedRing K] [FloorRing K]

/-- Constructor arguments, `neorl/evolu/de.py` lines 41-99. -/
structure Conf (K : Type) where
  S : Space K
  F : K
  CR : K
  npop : ℕ
  ngen : ℕ

/-- Draws used for one target: the three sampled indices (line 255), the crossover draws (line 275) and the draws of the two
discrete repairs (lines 282-283). -/
structure Draw (K : Type) where
  i1 : ℕ
  i2 : ℕ
  i3 : ℕ
  cross : ℕ → K
  discT : ℕ → K × ℕ
  discV : ℕ → K × ℕ

/-- List access with Python's `IndexError`. -/
def getIdx {α : Type} (l : List α) (i : ℕ) : Py α :=
  match l[i]? with
  | some a => .ok a
  | none => .error .indexError

/-- Mutation, lines 263-266: `x1 + F * (x2 - x3)` entry-wise (`zip`). -/
def donor (F : K) (x1 x2 x3 : List K) : List K :=
  List.zipWith (fun a d => a + F * d) x1 (List.zipWith (fun a b => a - b) x2 x3)

/-- Recombination, lines 273-280.  Simplification: for a donor shorter than the target the code raises, the model stops;
lengths are equal for well-formed populations. -/
def recombine (CR : K) : (ℕ → K) → List K → List K → List K
  | cross, d :: ds, x :: xs => (if cross 0 ≤ CR then d else x) :: recombine CR (fun k => cross (k + 1)) ds xs
  | _, _, _ => []

/-- Body of the loop over targets, lines 247-286.  `x_t` aliases `population[j]`, so its in-place discrete repair (line 282) is
visible to the later targets: the returned population has entry `j` replaced. -/
def target (c : Conf K) (j : ℕ) (dr : Draw K) (pop : List (List K)) : Py (List (List K) × List K) :=
  match getIdx pop dr.i1, getIdx pop dr.i2, getIdx pop dr.i3, getIdx pop j with
  | .ok x1, .ok x2, .ok x3, .ok xt =>
    let b : K := 1 - (j : K) * (1 / (c.ngen : K))
    let v := c.S.clip (donor c.F x1 x2 x3)
    let t := recombine c.CR dr.cross v xt
    match c.S.disc b dr.discT xt with
    | .error e => .error e
    | .ok xt' =>
      match c.S.disc b dr.discV t with
      | .error e => .error e
      | .ok t' => .ok (pop.set j xt', t')
  | _, _, _, _ => .error .indexError

/-- The loop over targets, lines 243-286, for targets `0 .. n-1`.  The list `x_t_lst` consists of aliases of the
population entries, so it is the returned population itself. -/
def sweep (c : Conf K) (dr : ℕ → Draw K) : ℕ → List (List K) → Py (List (List K) × List (List K))
  | 0, pop => .ok (pop, [])
  | j + 1, pop =>
    match sweep c dr j pop with
    | .error e => .error e
    | .ok (p, ts) =>
      match target c j (dr j) p with
      | .error e => .error e
      | .ok (p', t) => .ok (p', ts ++ [t])

/-- Selection, lines 308-316: zip of trial scores, target scores and trials; the trial wins only if strictly better. -/
def select (score : List K → K) : List (List K) → List (List K) → List (List K × K)
  | x :: xs, t :: ts => (if score t > score x then (t, score t) else (x, score x)) :: select score xs ts
  | _, _ => []

/-- `x_best = population[gen_scores.index(max(gen_scores))]`, `y_best = max(gen_scores)`, lines 322-323: the first
maximal entry. -/
def bestOf : List (List K × K) → Option (List K × K)
  | [] => none
  | p :: ps =>
    match bestOf ps with
    | none => some p
    | some q => if p.2 ≥ q.2 then some p else some q

/-- `mix_population`, lines 204-213: rows of the population overwritten with RL samples (empty when RL mode is off). -/
def mix : List (ℕ × List K) → List (List K) → List (List K)
  | [], pop => pop
  | (i, x) :: r, pop => mix r (pop.set i x)

/-- Observable state after some generations. -/
structure State (K : Type) where
  pop : List (List K)
  /-- result of the last selection: individuals with their scores -/
  sel : List (List K × K)
  /-- `self.best_scores` -/
  best : List K
  /-- last `(x_best, y_best)`; `none` before the first generation -/
  last : Option (List K × K)
  /-- points handed to the fitness function -/
  log : List (List K)

/-- One generation, lines 238-327.  `fit` is the internal (maximised) fitness; `fit_worker` clamps first (line 169). -/
def gen (c : Conf K) (fit : List K → K) (dr : ℕ → Draw K) (rl : List (ℕ × List K)) (s : State K) : Py (State K) :=
  match sweep c dr c.npop s.pop with
  | .error e => .error e
  | .ok (targets, trials) =>
    let score := fun x => fit (c.S.clip x)
    let sel := select score targets trials
    match bestOf sel with
    | none => .error .valueError
    | some b =>
      .ok { pop := mix rl (sel.map Prod.fst), sel := sel, best := s.best ++ [b.2], last := some b,
            log := s.log ++ trials.map c.S.clip ++ targets.map c.S.clip }

/-- The generation loop, lines 237-347, run for `g` generations. -/
def run (c : Conf K) (fit : List K → K) (dr : ℕ → ℕ → Draw K) (rl : ℕ → List (ℕ × List K)) (pop0 : List (List K)) :
    ℕ → Py (State K)
  | 0 => .ok { pop := pop0, sel := [], best := [], last := none, log := [] }
  | g + 1 =>
    match run c fit dr rl pop0 g with
    | .error e => .error e
    | .ok s => gen c fit (dr g) (rl g) s

/-- What `evolute` returns. -/
structure Result (K : Type) where
  x : List K
  y : K
  globalFitness : List K
  localFitness : List K
  /-- `de_hist['last_pop']`, lines 362-372: the final population (after the RL rows are mixed in) beside the scores of the last selection -/
  lastPop : List (List K × K)
  /-- not returned by the code: the points at which the user's fitness was called -/
  log : List (List K)

/-- `evolute`, lines 216-378, with the sign handling of `__init__` lines 65-72 and of lines 330-334 and 369-376. -/
def evolute (c : Conf K) (minMode : Bool) (userFit : List K → K) (dr : ℕ → ℕ → Draw K) (rl : ℕ → List (ℕ × List K))
    (pop0 : List (List K)) : Py (Result K) :=
  let fit := if minMode then (fun x => -userFit x) else userFit
  match run c fit dr rl pop0 c.ngen with
  | .error e => .error e
  | .ok s =>
    match s.last with
    | none => .error .unboundLocal
    | some (x, y) =>
      if minMode then
        let h := s.best.map (fun v => -v)
        .ok { x := x, y := -y, globalFitness := accMin h, localFitness := h,
              lastPop := List.zip s.pop (s.sel.map (fun p => -p.2)), log := s.log }
      else .ok { x := x, y := y, globalFitness := accMax s.best, localFitness := s.best,
                 lastPop := List.zip s.pop (s.sel.map Prod.snd), log := s.log }

/-! ### Helper lemmas -/

theorem length_donor (F : K) {x1 x2 x3 : List K} {n : ℕ} (h1 : x1.length = n) (h2 : x2.length = n) (h3 : x3.length = n) :
    (donor F x1 x2 x3).length = n := by simp [donor, h1, h2, h3]

theorem length_recombine (CR : K) (cross : ℕ → K) {d x : List K} (h : d.length = x.length) :
    (recombine CR cross d x).length = x.length := by
  induction x generalizing d cross with
  | nil => cases d <;> simp [recombine]
  | cons a l ih =>
    cases d with
    | nil => simp at h
    | cons b m => simp [recombine, ih (fun k => cross (k + 1)) (by simpa using h)]

theorem recombine_inBox (CR : K) (cross : ℕ → K) {bs : List (K × K)} {d x : List K} (hd : InBox bs d) (hx : InBox bs x) :
    InBox bs (recombine CR cross d x) := by
  unfold InBox at *
  induction hd generalizing x cross with
  | nil => cases hx; exact .nil
  | cons h _ ih =>
    cases hx with
    | cons h' ht =>
      refine .cons ?_ (ih _ ht)
      split_ifs <;> assumption

theorem getIdx_ok {α : Type} {l : List α} {i : ℕ} {a : α} (h : getIdx l i = .ok a) : l[i]? = some a := by
  unfold getIdx at h
  cases h' : l[i]? with
  | none => rw [h'] at h; cases h
  | some b => rw [h'] at h; cases h; rfl

theorem getIdx_lt {α : Type} {l : List α} {i : ℕ} (h : i < l.length) : getIdx l i = .ok l[i] := by
  simp [getIdx, List.getElem?_eq_getElem h]

theorem target_ok {c : Conf K} {j : ℕ} {dr : Draw K} {pop p' : List (List K)} {t' : List K}
    (h : target c j dr pop = .ok (p', t')) :
    ∃ x1 x2 x3 xt xt', pop[dr.i1]? = some x1 ∧ pop[dr.i2]? = some x2 ∧ pop[dr.i3]? = some x3 ∧ pop[j]? = some xt ∧
      c.S.disc (1 - (j : K) * (1 / (c.ngen : K))) dr.discT xt = .ok xt' ∧
      c.S.disc (1 - (j : K) * (1 / (c.ngen : K))) dr.discV
        (recombine c.CR dr.cross (c.S.clip (donor c.F x1 x2 x3)) xt) = .ok t' ∧ p' = pop.set j xt' := by
  unfold target at h
  split at h
  · rename_i x1 x2 x3 xt h1 h2 h3 h4
    simp only at h
    split at h
    · cases h
    · rename_i xt' h5
      split at h
      · cases h
      · rename_i t'' h6
        cases h
        exact ⟨x1, x2, x3, xt, xt', getIdx_ok h1, getIdx_ok h2, getIdx_ok h3, getIdx_ok h4, h5, h6, rfl⟩
  · cases h

/-- Closure data for the population predicate `P` (before repair) and `Q` (after repair). -/
structure Closed (c : Conf K) (P Q : List K → Prop) : Prop where
  weaken : ∀ v, Q v → P v
  disc : ∀ a dr v v', P v → c.S.disc a dr v = .ok v' → Q v'
  trial : ∀ cross x1 x2 x3 xt, P x1 → P x2 → P x3 → P xt →
    P (recombine c.CR cross (c.S.clip (donor c.F x1 x2 x3)) xt)

theorem closed_length {c : Conf K} (hS : c.S.OK) :
    Closed c (fun v => v.length = c.S.bounds.length) (fun v => v.length = c.S.bounds.length ∧ c.S.Integral v) where
  weaken _ h := h.1
  disc a dr v v' hv h := by
    obtain ⟨h1, h2⟩ := c.S.disc_integral hS hv h
    exact ⟨h1.trans hv, h2⟩
  trial cross x1 x2 x3 xt h1 h2 h3 ht := by
    rw [length_recombine]
    · exact ht
    · rw [c.S.length_clip hS (length_donor _ h1 h2 h3), ht]

theorem closed_box {c : Conf K} (hS : c.S.OK) : Closed c (InBox c.S.bounds) c.S.Feasible where
  weaken _ h := h.1
  disc a dr v v' hv h := c.S.disc_feasible hS hv h
  trial cross x1 x2 x3 xt h1 h2 h3 ht :=
    recombine_inBox _ _ (c.S.clip_inBox hS (length_donor _ h1.length_eq h2.length_eq h3.length_eq)) ht

theorem sweep_spec {c : Conf K} {P Q : List K → Prop} (hc : Closed c P Q) {dr : ℕ → Draw K} {n : ℕ}
    {pop p ts : List (List K)} (h : sweep c dr n pop = .ok (p, ts)) (hp : ∀ x ∈ pop, P x) :
    p.length = pop.length ∧ ts.length = n ∧ n ≤ pop.length ∧ (∀ x ∈ p, P x) ∧ (∀ t ∈ ts, Q t) ∧
      (∀ (i : ℕ) (x : List K), i < n → p[i]? = some x → Q x) := by
  induction n generalizing p ts with
  | zero => cases h; exact ⟨rfl, rfl, Nat.zero_le _, hp, by simp, by omega⟩
  | succ n ih =>
    simp only [sweep] at h
    split at h
    · cases h
    · rename_i p1 ts1 h1
      split at h
      · cases h
      · rename_i p' t ht
        cases h
        obtain ⟨a1, a2, a3, a4, a5, a6⟩ := ih h1
        obtain ⟨x1, x2, x3, xt, xt', g1, g2, g3, g4, d1, d2, rfl⟩ := target_ok ht
        have hxt : P xt := a4 _ (List.mem_of_getElem? g4)
        have hlt : n < p1.length := (List.getElem?_eq_some_iff.1 g4).1
        have q1 : Q xt' := hc.disc _ _ _ _ hxt d1
        have q2 : Q t := hc.disc _ _ _ _ (hc.trial _ _ _ _ _ (a4 _ (List.mem_of_getElem? g1))
          (a4 _ (List.mem_of_getElem? g2)) (a4 _ (List.mem_of_getElem? g3)) hxt) d2
        refine ⟨by simpa using a1, by simp [a2], by omega, ?_, ?_, ?_⟩
        · intro x hx
          rcases List.mem_or_eq_of_mem_set hx with hx | rfl
          · exact a4 x hx
          · exact hc.weaken _ q1
        · intro t0 ht0
          rcases List.mem_append.1 ht0 with ht0 | ht0
          · exact a5 t0 ht0
          · rw [List.mem_singleton] at ht0; rw [ht0]; exact q2
        · intro i x hi hx
          by_cases hin : i = n
          · subst hin
            rw [List.getElem?_set_self hlt] at hx
            cases hx; exact q1
          · rw [List.getElem?_set_ne (Ne.symm hin)] at hx
            exact a6 i x (by omega) hx

/-- A full sweep over a population of `npop` individuals leaves only repaired individuals. -/
theorem sweep_full {c : Conf K} {P Q : List K → Prop} (hc : Closed c P Q) {dr : ℕ → Draw K}
    {pop p ts : List (List K)} (h : sweep c dr c.npop pop = .ok (p, ts)) (hp : ∀ x ∈ pop, P x)
    (hl : pop.length = c.npop) :
    p.length = c.npop ∧ ts.length = c.npop ∧ (∀ x ∈ p, Q x) ∧ (∀ t ∈ ts, Q t) := by
  obtain ⟨a1, a2, _, _, a5, a6⟩ := sweep_spec hc h hp
  refine ⟨by omega, a2, ?_, a5⟩
  intro x hx
  obtain ⟨i, hi⟩ := List.mem_iff_getElem?.1 hx
  have : i < p.length := (List.getElem?_eq_some_iff.1 hi).1
  exact a6 i x (by omega) hi

/-- With `nearest_int`, a sweep over feasible individuals does not change them. -/
theorem sweep_nearest {c : Conf K} (hS : c.S.OK) (hm : c.S.method = .nearestInt) {dr : ℕ → Draw K} {n : ℕ}
    {pop p ts : List (List K)} (h : sweep c dr n pop = .ok (p, ts)) (hp : ∀ x ∈ pop, c.S.Feasible x) : p = pop := by
  induction n generalizing p ts with
  | zero => cases h; rfl
  | succ n ih =>
    simp only [sweep] at h
    split at h
    · cases h
    · rename_i p1 ts1 h1
      split at h
      · cases h
      · rename_i p' t ht
        cases h
        obtain ⟨x1, x2, x3, xt, xt', g1, g2, g3, g4, d1, d2, rfl⟩ := target_ok ht
        have := ih h1
        subst this
        rw [c.S.disc_nearest_id hS hm (hp _ (List.mem_of_getElem? g4))] at d1
        cases d1
        obtain ⟨hlt, he⟩ := List.getElem?_eq_some_iff.1 g4
        rw [← he, List.set_getElem_self]

theorem select_length (score : List K → K) {xs ts : List (List K)} (h : ts.length = xs.length) :
    (select score xs ts).length = xs.length := by
  induction xs generalizing ts with
  | nil => cases ts <;> simp [select]
  | cons x xs ih =>
    cases ts with
    | nil => simp at h
    | cons t ts => simp [select, ih (by simpa using h)]

theorem select_getElem? (score : List K → K) {xs ts : List (List K)} {i : ℕ} {x t : List K}
    (hx : xs[i]? = some x) (ht : ts[i]? = some t) :
    (select score xs ts)[i]? = some (if score t > score x then (t, score t) else (x, score x)) := by
  induction xs generalizing ts i with
  | nil => simp at hx
  | cons x0 xs ih =>
    cases ts with
    | nil => simp at ht
    | cons t0 ts =>
      cases i with
      | zero => simp at hx ht; subst hx; subst ht; simp [select]
      | succ i => simp at hx ht; simp [select, ih hx ht]

theorem mem_select {score : List K → K} {xs ts : List (List K)} {p : List K × K} (h : p ∈ select score xs ts) :
    p.2 = score p.1 ∧ (p.1 ∈ xs ∨ p.1 ∈ ts) := by
  induction xs generalizing ts with
  | nil => cases ts <;> simp [select] at h
  | cons x xs ih =>
    cases ts with
    | nil => simp [select] at h
    | cons t ts =>
      simp only [select, List.mem_cons] at h
      rcases h with h | h
      · subst h; split_ifs <;> simp
      · obtain ⟨h1, h2⟩ := ih h
        refine ⟨h1, ?_⟩
        rcases h2 with h2 | h2
        · exact Or.inl (List.mem_cons_of_mem _ h2)
        · exact Or.inr (List.mem_cons_of_mem _ h2)

theorem bestOf_spec {l : List (List K × K)} {b : List K × K} (h : bestOf l = some b) :
    b ∈ l ∧ ∀ p ∈ l, p.2 ≤ b.2 := by
  induction l generalizing b with
  | nil => cases h
  | cons p ps ih =>
    simp only [bestOf] at h
    cases hb : bestOf ps with
    | none =>
      rw [hb] at h; cases h
      have : ps = [] := by
        cases ps with
        | nil => rfl
        | cons q qs =>
          simp only [bestOf] at hb
          split at hb
          · cases hb
          · split_ifs at hb
      subst this; simp
    | some q =>
      rw [hb] at h
      obtain ⟨i1, i2⟩ := ih hb
      simp only at h
      split_ifs at h with hpq
      · cases h
        refine ⟨by simp, ?_⟩
        intro r hr
        rcases List.mem_cons.1 hr with rfl | hr
        · exact le_rfl
        · exact (i2 r hr).trans hpq
      · cases h
        refine ⟨by simp [i1], ?_⟩
        intro r hr
        rcases List.mem_cons.1 hr with rfl | hr
        · exact (not_le.1 hpq).le
        · exact i2 r hr

theorem bestOf_isSome {l : List (List K × K)} (h : l ≠ []) : ∃ b, bestOf l = some b := by
  cases l with
  | nil => exact absurd rfl h
  | cons p ps =>
    simp only [bestOf]
    split
    · exact ⟨_, rfl⟩
    · split_ifs <;> exact ⟨_, rfl⟩

theorem mem_mix {r : List (ℕ × List K)} {pop : List (List K)} {x : List K} (h : x ∈ mix r pop) :
    x ∈ pop ∨ ∃ i, (i, x) ∈ r := by
  induction r generalizing pop with
  | nil => exact Or.inl h
  | cons p r ih =>
    obtain ⟨i, y⟩ := p
    simp only [mix] at h
    rcases ih h with h | ⟨k, hk⟩
    · rcases List.mem_or_eq_of_mem_set h with h | rfl
      · exact Or.inl h
      · exact Or.inr ⟨i, by simp⟩
    · exact Or.inr ⟨k, by simp [hk]⟩

theorem length_mix (r : List (ℕ × List K)) (pop : List (List K)) : (mix r pop).length = pop.length := by
  induction r generalizing pop with
  | nil => rfl
  | cons p r ih => obtain ⟨i, y⟩ := p; simp [mix, ih]

theorem gen_ok {c : Conf K} {fit : List K → K} {dr : ℕ → Draw K} {rl : List (ℕ × List K)} {s s' : State K}
    (h : gen c fit dr rl s = .ok s') :
    ∃ targets trials b, sweep c dr c.npop s.pop = .ok (targets, trials) ∧
      bestOf (select (fun x => fit (c.S.clip x)) targets trials) = some b ∧
      s' = { pop := mix rl ((select (fun x => fit (c.S.clip x)) targets trials).map Prod.fst),
             sel := select (fun x => fit (c.S.clip x)) targets trials, best := s.best ++ [b.2], last := some b,
             log := s.log ++ trials.map c.S.clip ++ targets.map c.S.clip } := by
  unfold gen at h
  split at h
  · cases h
  · rename_i targets trials h1
    simp only at h
    split at h
    · cases h
    · rename_i b hb
      cases h
      exact ⟨targets, trials, b, h1, hb, rfl⟩

end
end Neorl.DE

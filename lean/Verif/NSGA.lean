import Verif.ES
import Verif.Niche

/-!
# NSGA-II and NSGA-III: the main loop

Model of `neorl/multi/nsgaII.py` lines 139-331 and `neorl/multi/nsgaIII.py` lines 170-371 (identical but for the selection).  Both derive from `ES`
with `mu = lambda_`; `GenOffspring` is that of `ES` except for the dictionary keys.  The fitness is an arbitrary function to vectors of a fixed
length; internally everything is maximised.  Grid spaces are encoded as in `ES`.
-/

set_option linter.unusedSectionVars false
set_option linter.unusedVariables false

namespace Neorl.NSGA

open Neorl.ND Neorl.ES

section
variable {K : Type} [Field K] [LinearOrder K] [IsStrictOrderedRing K] [FloorRing K]

/-- `[individual, strategy, fitness]` of the population dictionaries. -/
structure MInd (K : Type) where
  ind : List K
  strat : List K
  fit : List K

/-- `GenOffspring`, `nsgaII.py` lines 139-205: the loop over the offspring; it also returns the parents, because reproduction writes the
discretised parent back into the population, line 190, without evaluating it again. -/
def genLoopP (c : Conf K) (dr : ℕ → Draw K) : ℕ → ℕ → List (Ind K) → Py (List (List K × List K) × List (Ind K))
  | _, 0, pop => .ok ([], pop)
  | i, k + 1, pop =>
    match genOne c (dr i) pop with
    | .error e => .error e
    | .ok (o, pop') =>
      match genLoopP c dr (i + 1) k pop' with
      | .error e => .error e
      | .ok (os, pop'') => .ok (o :: os, pop'')

/-- Least value of a column, `np.min(rwd_par, axis=0)[f]`. -/
def listMin : List K → K
  | [] => 0
  | a :: l => l.foldl min a

/-- Column `f` of the fitness vectors. -/
def col (rwd : List (List K)) (f : ℕ) : List K := rwd.map fun v => v.getD f 0

/-- The update of `self.y_opt`, lines 268-277; `none` stands for the initial list of `-inf`. -/
def yStep (m : Bool) (old : Option (List K)) (mins : List K) : List K :=
  match old with
  | none => mins
  | some y => List.zipWith (fun o v => if (if m then -v else v) > o then v else o) y mins

/-- State between generations; `x`, `front` and `y` are those of the last generation. -/
structure State (K : Type) where
  pop : List (MInd K)
  y : Option (List K)
  /-- `self.x_opt_correct` -/
  x : List (List K)
  /-- individuals and fitness of the last Pareto front (`inds_par`, `rwd_par`) -/
  front : List (List K × List K)
  /-- `self.best_scores`, `self.best_indvs` -/
  hist : List (List (List K × List K))
  log : List (List K)

/-- One generation, lines 233-297. `sel` is the survivor selection, `lg` says whether `self.sorting` is `'log'`. -/
def gen (c : Conf K) (m : Bool) (sel : List (List K) → ℕ → Py (List ℕ)) (lg : Bool) (F : List K → List K) (dr : ℕ → Draw K) (s : State K) : Py (State K) :=
  match genLoopP c dr 0 c.lam (s.pop.map fun p => { ind := p.ind, strat := p.strat, fit := 0 }) with
  | .error e => .error e
  | .ok (os, par) =>
    let os := if c.clip then os.map (fun o => (o.1, clipS c.smin c.smax o.2)) else os
    let off : List (MInd K) := os.map fun o => { ind := o.1, strat := o.2, fit := F o.1 }
    let parents := List.zipWith (fun (p : MInd K) (q : Ind K) => { p with ind := q.ind }) s.pop par
    let all := off ++ parents
    match sel (all.map fun p => p.fit) c.lam with
    | .error e => .error e
    | .ok idx =>
      let pop := idx.filterMap fun i => all[i]?
      match ndSort lg (pop.map fun p => p.fit) pop.length with
      | .error e => .error e
      | .ok fronts =>
        match fronts.head? with
        | none => .error .indexError
        | some f =>
          let fr := f.filterMap fun i => (pop[i]?).map fun p => (p.ind, p.fit)
          let rwd := fr.map fun p => p.2
          let nobj := (rwd.headD []).length
          let mins := (List.range nobj).map fun f => listMin (col rwd f)
          .ok { pop := pop
                y := some (yStep m s.y mins)
                x := (List.range nobj).map fun f => (fr.map fun p => p.1).getD ((col rwd f).idxOf (listMin (col rwd f))) []
                front := fr
                hist := s.hist ++ [fr]
                log := s.log ++ os.map (fun o => o.1) }

/-- The initial population and `g` generations, lines 218-232. -/
def run (c : Conf K) (m : Bool) (sel : ℕ → List (List K) → ℕ → Py (List ℕ)) (lg : Bool) (F : List K → List K) (dr : ℕ → ℕ → Draw K)
    (pop0 : List (List K × List K)) : ℕ → Py (State K)
  | 0 => .ok { pop := pop0.map fun p => { ind := p.1, strat := p.2, fit := F p.1 }, y := none, x := [], front := [], hist := [], log := [] }
  | g + 1 =>
    match run c m sel lg F dr pop0 g with
    | .error e => .error e
    | .ok s => gen c m (sel g) lg F (dr g) s

/-- What `evolute` returns: `x_opt_correct`, `y_opt_correct`, and of the history `global_pop` with `global_fitness`, `local_pop` with
`local_fitness`, `last_pop`. -/
structure Result (K : Type) where
  x : List (List K)
  y : List K
  front : List (List K × List K)
  hist : List (List (List K × List K))
  lastPop : List (List K × List K)
  log : List (List K)

/-- `evolute`, lines 207-331.  `sel lg` is the selection with the sort `lg`; a single objective switches to the standard sort, line 229.  Fewer than
two individuals raise at `self.population[1][2]`; no generation leaves `rwd_par` unbound. -/
def evolute (c : Conf K) (m : Bool) (sel : Bool → ℕ → List (List K) → ℕ → Py (List ℕ)) (lg : Bool) (userFit : List K → List K)
    (dr : ℕ → ℕ → Draw K) (pop0 : List (List K × List K)) : Py (Result K) :=
  if ¬ c.cxpb + c.mutpb ≤ 1 ∨ pop0.length ≠ c.lam then .error .assertion else
  match pop0[1]? with
  | none => .error .indexError
  | some p1 =>
    let F := fun x => (userFit x).map (sgn (!m))
    let lg' := if (F p1.1).length = 1 then false else lg
    match run c m (sel lg') lg' F dr pop0 c.ngen with
    | .error e => .error e
    | .ok s =>
      match s.y with
      | none => .error .unboundLocal
      | some y =>
        let fix := fun p : List K × List K => (p.1, p.2.map (sgn (!m)))
        .ok { x := s.x, y := y.map (sgn (!m)), front := s.front.map fix, hist := s.hist.map (fun f => f.map fix),
              lastPop := s.pop.map (fun p => fix (p.ind, p.fit)), log := s.log }

/-! ### Lemmas -/

/-- All members of a population are feasible with strategies of the right length. -/
def FeasOK (c : Conf K) (pop : List (Ind K)) : Prop := ∀ p ∈ pop, c.S.Feasible p.ind ∧ p.strat.length = c.S.bounds.length

theorem FeasOK.len {c : Conf K} {pop : List (Ind K)} (h : FeasOK c pop) : LenOK c pop :=
  fun p hp => ⟨(h p hp).1.1.length_eq, (h p hp).2⟩

/-- On a feasible population reproduction writes back the same parent. -/
theorem genOne_pop {c : Conf K} {d : Draw K} {pop pop' : List (Ind K)} {o : List K × List K} (hf : FeasOK c pop)
    (h : genOne c d pop = .ok (o, pop')) : pop' = pop := by
  unfold genOne at h
  simp only at h
  split_ifs at h with h1 h2 h3 h4 h5 h6
  · split at h
    · cases h; rfl
    · cases h
  · split at h
    · split at h
      · cases h
      · cases h; rfl
    · cases h
  · split at h
    · cases h
    · split at h
      · cases h
      · cases h; rfl
  · split at h
    · cases h
    · rename_i p hp
      cases h
      rw [ensDisc_id (hf p (List.mem_of_getElem? hp)).1]
      obtain ⟨hi, he⟩ := List.getElem?_eq_some_iff.1 hp
      have : ({ ind := p.ind, strat := p.strat, fit := p.fit } : Ind K) = pop[d.i1 % pop.length] := he.symm
      rw [this, List.set_getElem_self]

theorem genLoopP_ok {c : Conf K} (hS : c.S.OK) (hs : c.smin ≤ c.smax) {dr : ℕ → Draw K} {k : ℕ} : ∀ {i : ℕ} {pop pop' : List (Ind K)}
    {os : List (List K × List K)}, FeasOK c pop → genLoopP c dr i k pop = .ok (os, pop') →
    pop' = pop ∧ os.length = k ∧ ∀ o ∈ os, c.S.Feasible o.1 ∧ o.2.length = c.S.bounds.length := by
  induction k with
  | zero => intro i pop pop' os hf h; cases h; simp
  | succ k ih =>
    intro i pop pop' os hf h
    simp only [genLoopP] at h
    split at h
    · cases h
    · rename_i o p1 ho
      obtain ⟨h1, h2, _, _⟩ := genOne_ok hS hs hf.len ho
      have hp := genOne_pop hf ho
      subst hp
      split at h
      · cases h
      · rename_i os' p2 hos
        cases h
        obtain ⟨g1, g2, g3⟩ := ih hf hos
        refine ⟨g1, by simp [g2], ?_⟩
        intro q hq
        rcases List.mem_cons.1 hq with rfl | hq
        · exact ⟨h1, h2⟩
        · exact g3 q hq

theorem zipWith_self {pop : List (MInd K)} :
    List.zipWith (fun (p : MInd K) (q : Ind K) => { p with ind := q.ind }) pop (pop.map fun p => { ind := p.ind, strat := p.strat, fit := 0 }) = pop := by
  induction pop with
  | nil => rfl
  | cons a l ih => rw [List.map_cons, List.zipWith_cons_cons, ih]

theorem listMin_mem {l : List K} (h : l ≠ []) : listMin l ∈ l := by
  cases l with
  | nil => exact absurd rfl h
  | cons a l =>
    have : ∀ (l : List K) (a : K), l.foldl min a ∈ a :: l := by
      intro l
      induction l with
      | nil => intro a; simp
      | cons b l ih =>
        intro a
        rw [List.foldl_cons]
        rcases List.mem_cons.1 (ih (min a b)) with h | h
        · rw [h]
          rcases min_choice a b with e | e <;> rw [e] <;> simp
        · simp [h]
    exact this l a

theorem listMin_le {l : List K} {v : K} (h : v ∈ l) : listMin l ≤ v := by
  cases l with
  | nil => simp at h
  | cons a l =>
    have : ∀ (l : List K) (a v : K), v ∈ a :: l → l.foldl min a ≤ v := by
      intro l
      induction l with
      | nil => intro a v hv; simp at hv; rw [hv]; exact le_rfl
      | cons b l ih =>
        intro a v hv
        rw [List.foldl_cons]
        rcases List.mem_cons.1 hv with rfl | hv
        · exact (ih _ _ List.mem_cons_self).trans (min_le_left _ _)
        · rcases List.mem_cons.1 hv with rfl | hv
          · exact (ih _ _ List.mem_cons_self).trans (min_le_right _ _)
          · exact ih _ _ (List.mem_cons_of_mem _ hv)
    exact this l a v h

/-- The entries of a list at given valid positions. -/
theorem filterMap_get {β : Type} {l : List β} {idx : List ℕ} (h : ∀ i ∈ idx, i < l.length) : (idx.filterMap fun i => l[i]?).length = idx.length := by
  induction idx with
  | nil => rfl
  | cons a t ih =>
    rw [List.filterMap_cons, List.getElem?_eq_getElem (h a List.mem_cons_self)]
    simp only [List.length_cons]
    rw [ih fun i hi => h i (List.mem_cons_of_mem _ hi)]

/-- The selection used fulfils the specification of C30/C33 on populations of `n` vectors with `mm` entries. -/
def SelOK (sel : List (List K) → ℕ → Py (List ℕ)) (mm : ℕ) : Prop :=
  ∀ (vals : List (List K)) (k : ℕ), (∀ v ∈ vals, v.length = mm) → vals ≠ [] → k ≠ 0 → k ≤ vals.length →
    ∃ out, sel vals k = .ok out ∧ SelectSpec vals k out

/-- The selection keeps a best individual of each objective. -/
def KeepsBest (sel : List (List K) → ℕ → Py (List ℕ)) (mm k : ℕ) : Prop :=
  ∀ (vals : List (List K)), (∀ v ∈ vals, v.length = mm) → vals ≠ [] → k ≤ vals.length → ∀ out, sel vals k = .ok out → ∀ i < mm,
    ∃ a ∈ out, ∀ j < vals.length, obj vals i j ≤ obj vals i a

/-- Specification of a Pareto front: the entries are, up to order, the individuals of the population which no individual of it dominates. -/
def IsFront (pop : List (MInd K)) (fr : List (List K × List K)) : Prop :=
  fr.Perm ((pop.filter fun p => pop.all fun q => !isDominated p.fit q.fit).map fun p => (p.ind, p.fit))

theorem isFront_of {pop : List (MInd K)} {f : List ℕ} (hf : ∀ i, i ∈ f ↔ Rank (pop.map fun p => p.fit) i 0) (hn : f.Nodup) :
    IsFront pop (f.filterMap fun i => (pop[i]?).map fun p => (p.ind, p.fit)) := by
  have hval : ∀ i (hi : i < pop.length), val (pop.map fun p => p.fit) i = pop[i].fit := by
    intro i hi
    unfold val
    rw [List.getD_eq_getElem?_getD, List.getElem?_map, List.getElem?_eq_getElem hi]
    rfl
  have hr : ∀ i, i ∈ f ↔ ∃ hi : i < pop.length, (pop.all fun q => !isDominated pop[i].fit q.fit) = true := by
    intro i
    rw [hf, rank_zero_iff, List.length_map]
    constructor
    · rintro ⟨h1, h2⟩
      refine ⟨h1, List.all_eq_true.2 fun q hq => ?_⟩
      obtain ⟨j, hj, rfl⟩ := List.mem_iff_getElem.1 hq
      rw [Bool.not_eq_true']
      cases e : isDominated pop[i].fit pop[j].fit with
      | false => rfl
      | true => exact absurd ⟨by simpa using hj, by simpa using h1, by rw [hval j hj, hval i h1]; exact (isDominated_iff _ _).1 e⟩ (h2 j)
    · rintro ⟨h1, h2⟩
      refine ⟨h1, fun j hj => ?_⟩
      have hjl : j < pop.length := by simpa using hj.1
      have h3 := List.all_eq_true.1 h2 pop[j] (List.getElem_mem _)
      have h4 := hj.2.2
      rw [hval j hjl, hval i h1] at h4
      rw [(isDominated_iff _ _).2 h4] at h3
      exact Bool.false_ne_true h3
  have hperm : f.Perm ((List.range pop.length).filter fun i => match pop[i]? with | some p => pop.all fun q => !isDominated p.fit q.fit | none => false) := by
    rw [List.perm_ext_iff_of_nodup hn (List.nodup_range.filter _)]
    intro i
    rw [hr, List.mem_filter, List.mem_range]
    constructor
    · rintro ⟨h1, h2⟩
      exact ⟨h1, by rw [List.getElem?_eq_getElem h1]; exact h2⟩
    · rintro ⟨h1, h2⟩
      rw [List.getElem?_eq_getElem h1] at h2
      exact ⟨h1, h2⟩
  unfold IsFront
  refine (hperm.filterMap _).trans ?_
  rw [List.filterMap_filter]
  have h5 : pop.filter (fun p => pop.all fun q => !isDominated p.fit q.fit) =
      (List.range pop.length).filterMap fun i => (pop[i]?).bind fun p => if (pop.all fun q => !isDominated p.fit q.fit) = true then some p else none := by
    have h6 : ∀ (l : List (MInd K)) (P : MInd K → Bool), l.filter P =
        (List.range l.length).filterMap fun i => (l[i]?).bind fun p => if P p = true then some p else none := by
      intro l P
      induction l with
      | nil => rfl
      | cons a l ih =>
        rw [List.length_cons, List.range_succ_eq_map, List.filterMap_cons, List.filterMap_map, List.filter_cons]
        simp only [List.getElem?_cons_zero, Option.bind_some, Function.comp_def, List.getElem?_cons_succ]
        rw [← ih]
        by_cases hP : P a = true
        · simp [hP]
        · simp [hP]
    exact h6 pop _
  rw [h5, List.map_filterMap]
  apply List.Perm.of_eq
  apply List.filterMap_congr
  intro i _
  cases pop[i]? with
  | none => rfl
  | some p =>
    simp only [Option.bind_some, Option.map_some]
    split_ifs <;> rfl

/-- Invariant of the run after `g` generations, over the initial individuals `xs`. -/
structure Inv (c : Conf K) (F : List K → List K) (xs : List (List K)) (s : State K) (g : ℕ) : Prop where
  size : s.pop.length = c.lam
  feas : ∀ p ∈ s.pop, c.S.Feasible p.ind ∧ p.strat.length = c.S.bounds.length
  fit : ∀ p ∈ s.pop, p.fit = F p.ind
  seen : ∀ p ∈ s.pop, p.ind ∈ xs ++ s.log
  logFeas : ∀ x ∈ s.log, c.S.Feasible x
  logLen : s.log.length = c.lam * g
  front : g ≠ 0 → IsFront s.pop s.front
  y : g ≠ 0 → ∃ y, s.y = some y
  hist : s.hist.length = g
  last : g ≠ 0 → s.hist.getLast? = some s.front

/-- One generation in terms of the specification. -/
theorem gen_inv {c : Conf K} (hS : c.S.OK) (hs : c.smin ≤ c.smax) (hlam : c.lam ≠ 0) {m : Bool} {sel : List (List K) → ℕ → Py (List ℕ)} {lg : Bool}
    {mm : ℕ} (hsel : SelOK sel mm) (hlg : lg = true → 2 ≤ mm) {F : List K → List K} (hF : ∀ x, (F x).length = mm) {dr : ℕ → Draw K} {xs : List (List K)}
    {s s' : State K} {g : ℕ} (inv : Inv c F xs s g) (h : gen c m sel lg F dr s = .ok s') :
    Inv c F xs s' (g + 1) ∧ ∃ (os : List (List K)) (all : List (MInd K)) (idx : List ℕ), s'.log = s.log ++ os ∧
      all.map (fun p => p.ind) = os ++ s.pop.map (fun p => p.ind) ∧ (∀ p ∈ all, p.fit = F p.ind) ∧ sel (all.map fun p => p.fit) c.lam = .ok idx ∧
      SelectSpec (all.map fun p => p.fit) c.lam idx ∧ s'.pop = idx.filterMap (fun i => all[i]?) ∧
      s'.y = some (yStep m s.y ((List.range mm).map fun f => listMin (col (s'.front.map fun p => p.2) f))) ∧
      s'.x = ((List.range mm).map fun f => (s'.front.map fun p => p.1).getD ((col (s'.front.map fun p => p.2) f).idxOf (listMin (col (s'.front.map fun p => p.2) f))) []) ∧
      s'.hist = s.hist ++ [s'.front] := by
  unfold gen at h
  split at h
  · cases h
  · rename_i os par hgen
    have hfeas : FeasOK c (s.pop.map fun p => ({ ind := p.ind, strat := p.strat, fit := 0 } : Ind K)) := by
      intro q hq
      obtain ⟨p, hp, rfl⟩ := List.mem_map.1 hq
      exact inv.feas p hp
    obtain ⟨h1, h2, h3⟩ := genLoopP_ok hS hs hfeas hgen
    subst h1
    simp only [zipWith_self] at h
    generalize hos' : (if c.clip = true then os.map (fun o => (o.1, clipS c.smin c.smax o.2)) else os) = os' at h
    have hl' : os'.length = c.lam := by rw [← hos']; split_ifs <;> simp [h2]
    have hf' : ∀ o ∈ os', c.S.Feasible o.1 ∧ o.2.length = c.S.bounds.length := by
      rw [← hos']
      split_ifs
      · intro o ho
        obtain ⟨o1, ho1, rfl⟩ := List.mem_map.1 ho
        exact ⟨(h3 o1 ho1).1, by simpa [clipS] using (h3 o1 ho1).2⟩
      · exact h3
    generalize hall : os'.map (fun o => ({ ind := o.1, strat := o.2, fit := F o.1 } : MInd K)) ++ s.pop = all at h
    have hallfit : ∀ p ∈ all, p.fit = F p.ind := by
      intro p hp
      rw [← hall] at hp
      rcases List.mem_append.1 hp with hp | hp
      · obtain ⟨o, _, rfl⟩ := List.mem_map.1 hp; rfl
      · exact inv.fit p hp
    have hallfeas : ∀ p ∈ all, c.S.Feasible p.ind ∧ p.strat.length = c.S.bounds.length := by
      intro p hp
      rw [← hall] at hp
      rcases List.mem_append.1 hp with hp | hp
      · obtain ⟨o, ho, rfl⟩ := List.mem_map.1 hp; exact hf' o ho
      · exact inv.feas p hp
    have hallseen : ∀ p ∈ all, p.ind ∈ xs ++ (s.log ++ os'.map fun o => o.1) := by
      intro p hp
      rw [← hall] at hp
      rcases List.mem_append.1 hp with hp | hp
      · obtain ⟨o, ho, rfl⟩ := List.mem_map.1 hp
        exact List.mem_append_right _ (List.mem_append_right _ (List.mem_map.2 ⟨o, ho, rfl⟩))
      · rcases List.mem_append.1 (inv.seen p hp) with h | h
        · exact List.mem_append_left _ h
        · exact List.mem_append_right _ (List.mem_append_left _ h)
    have hallind : all.map (fun p => p.ind) = os'.map (fun o => o.1) ++ s.pop.map (fun p => p.ind) := by
      rw [← hall, List.map_append, List.map_map]
      rfl
    have halllen : all.length = c.lam + c.lam := by rw [← hall, List.length_append, List.length_map, hl', inv.size]
    have hvl : ∀ v ∈ all.map (fun p => p.fit), v.length = mm := by
      intro v hv
      obtain ⟨p, hp, rfl⟩ := List.mem_map.1 hv
      rw [hallfit p hp]
      exact hF _
    obtain ⟨out, e1, e2⟩ := hsel (all.map fun p => p.fit) c.lam hvl (by
      intro e
      rw [List.map_eq_nil_iff] at e
      rw [e] at halllen
      simp at halllen
      omega) hlam (by rw [List.length_map]; omega)
    rw [e1] at h
    simp only at h
    generalize hpop : out.filterMap (fun i => all[i]?) = pop at h
    have hpoplen : pop.length = c.lam := by
      rw [← hpop, filterMap_get (fun i hi => by have := e2.lt i hi; rwa [List.length_map] at this), e2.length, List.length_map]
      omega
    have hpopmem : ∀ p ∈ pop, p ∈ all := by
      intro p hp
      rw [← hpop] at hp
      obtain ⟨i, _, hi⟩ := List.mem_filterMap.1 hp
      exact List.mem_of_getElem? hi
    have hpopne : pop ≠ [] := by
      intro e
      rw [e] at hpoplen
      simp at hpoplen
      omega
    obtain ⟨fronts, g1, g2, g3⟩ := ndSort_spec (log := lg) (vals := pop.map fun p => p.fit) (m := mm) (by
      intro v hv
      obtain ⟨p, hp, rfl⟩ := List.mem_map.1 hv
      rw [hallfit p (hpopmem p hp)]
      exact hF _) hlg (by simpa using hpopne) (k := pop.length) (by omega)
    rw [g1] at h
    simp only at h
    cases hfr : fronts with
    | nil => exact absurd hfr g3
    | cons f rest =>
      rw [hfr] at h g2
      simp only [List.head?_cons] at h
      have hff : ∀ i, i ∈ f ↔ Rank (pop.map fun p => p.fit) i 0 := g2.mem 0 f rfl
      have hfn : f.Nodup := g2.nodup f (by simp)
      have hfront := isFront_of hff hfn
      have hfl : ∀ i ∈ f, i < pop.length := fun i hi => by simpa using ((hff i).1 hi).lt
      have hfne : (f.filterMap fun i => (pop[i]?).map fun p => (p.ind, p.fit)) ≠ [] := by
        obtain ⟨y, hy, _⟩ := exists_rank_zero (vals := pop.map fun p => p.fit) (m := mm) (by
          intro v hv
          obtain ⟨p, hp, rfl⟩ := List.mem_map.1 hv
          rw [hallfit p (hpopmem p hp)]
          exact hF _) (j := 0) (by rw [List.length_map]; omega)
        intro e
        have hyl := hfl y ((hff y).2 hy)
        have : (pop[y].ind, pop[y].fit) ∈ (f.filterMap fun i => (pop[i]?).map fun p => (p.ind, p.fit)) :=
          List.mem_filterMap.2 ⟨y, (hff y).2 hy, by rw [List.getElem?_eq_getElem hyl]; rfl⟩
        rw [e] at this
        simp at this
      have hnobj : (((f.filterMap fun i => (pop[i]?).map fun p => (p.ind, p.fit)).map fun p => p.2).headD []).length = mm := by
        cases hc : (f.filterMap fun i => (pop[i]?).map fun p => (p.ind, p.fit)) with
        | nil => exact absurd hc hfne
        | cons a t =>
          have : a ∈ (f.filterMap fun i => (pop[i]?).map fun p => (p.ind, p.fit)) := by rw [hc]; simp
          obtain ⟨i, _, hi⟩ := List.mem_filterMap.1 this
          obtain ⟨p, hp, rfl⟩ := Option.map_eq_some_iff.1 hi
          show p.fit.length = mm
          rw [hallfit p (hpopmem p (List.mem_of_getElem? hp))]
          exact hF _
      rw [hnobj] at h
      cases h
      refine ⟨⟨hpoplen, fun p hp => hallfeas p (hpopmem p hp), fun p hp => hallfit p (hpopmem p hp), fun p hp => hallseen p (hpopmem p hp), ?_, ?_,
        fun _ => hfront, fun _ => ⟨_, rfl⟩, ?_, fun _ => by simp⟩, os'.map (fun o => o.1), all, out, rfl, hallind, hallfit, e1, e2, hpop.symm, rfl, rfl, rfl⟩
      · intro x hx
        rcases List.mem_append.1 hx with hx | hx
        · exact inv.logFeas x hx
        · obtain ⟨o, ho, rfl⟩ := List.mem_map.1 hx
          exact (hf' o ho).1
      · show (s.log ++ _).length = _
        rw [List.length_append, inv.logLen, List.length_map, hl']
        ring
      · show (s.hist ++ _).length = _
        rw [List.length_append, inv.hist]
        rfl

theorem run_inv {c : Conf K} (hS : c.S.OK) (hs : c.smin ≤ c.smax) (hlam : c.lam ≠ 0) {m : Bool} {sel : ℕ → List (List K) → ℕ → Py (List ℕ)} {lg : Bool}
    {mm : ℕ} (hsel : ∀ g, SelOK (sel g) mm) (hlg : lg = true → 2 ≤ mm) {F : List K → List K} (hF : ∀ x, (F x).length = mm) {dr : ℕ → ℕ → Draw K}
    {pop0 : List (List K × List K)} (hn : pop0.length = c.lam) (h0 : ∀ p ∈ pop0, c.S.Feasible p.1 ∧ p.2.length = c.S.bounds.length) :
    ∀ {g : ℕ} {s : State K}, run c m sel lg F dr pop0 g = .ok s → Inv c F (pop0.map fun p => p.1) s g := by
  intro g
  induction g with
  | zero =>
    intro s h
    cases h
    refine ⟨by simp [hn], ?_, ?_, ?_, by simp, by simp, fun h => absurd rfl h, fun h => absurd rfl h, rfl, fun h => absurd rfl h⟩
    · intro p hp
      obtain ⟨q, hq, rfl⟩ := List.mem_map.1 hp
      exact h0 q hq
    · intro p hp
      obtain ⟨q, hq, rfl⟩ := List.mem_map.1 hp
      rfl
    · intro p hp
      obtain ⟨q, hq, rfl⟩ := List.mem_map.1 hp
      exact List.mem_append_left _ (List.mem_map.2 ⟨q, hq, rfl⟩)
  | succ g ih =>
    intro s h
    rw [run] at h
    split at h
    · cases h
    · rename_i s1 hs1
      exact (gen_inv hS hs hlam (hsel g) hlg hF (ih hs1) h).1

end

end Neorl.NSGA

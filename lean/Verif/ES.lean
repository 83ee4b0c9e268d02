import Verif.Variation

/-!
# Evolution strategies: the main loop

Model of `neorl/evolu/es.py`.  Fitness is an arbitrary function of the encoded vector (grid decoding included).  ES maximises
internally.  Parallel and serial evaluation give the same values.
-/

set_option linter.unusedSectionVars false
set_option linter.unusedVariables false

namespace Neorl.ES

section
variable {K : Type} [Field K] [LinearOrder K] [IsStrictOrderedRing K] [FloorRing K]

/-- Arguments, `neorl/evolu/es.py` lines 50-118. -/
structure Conf (K : Type) where
  S : Space K
  lam : ℕ
  mu : ℕ
  ngen : ℕ
  /-- `cxmode == 'blend'` (else `cx2point`) -/
  blend : Bool
  alpha : K
  cxpb : K
  mutpb : K
  smin : K
  smax : K
  clip : Bool

/-- Draws for one offspring. -/
structure Draw (K : Type) where
  rn : K
  i1 : ℕ
  i2 : ℕ
  a : ℕ
  b : ℕ
  u : ℕ → K
  v : ℕ → K
  md : MutDraw K

/-- One offspring, lines 357-401, given the population; returns individual and strategy, and the population (reproduction rewrites the
parent in place, line 394).  `random.sample` of two and `random.choice` are reduced to arbitrary numbers. -/
def genOne (c : Conf K) (d : Draw K) (pop : List (Ind K)) : Py ((List K × List K) × List (Ind K)) :=
  let n := pop.length
  if d.rn < c.cxpb then
    if n < 2 then .error .valueError else
    let k1 := d.i1 % n
    let k2 := (k1 + 1 + d.i2 % (n - 1)) % n
    match pop[k1]?, pop[k2]? with
    | some p, some q =>
      if c.blend then
        let r := cxBlend c.alpha d.u d.v p.ind q.ind p.strat q.strat
        .ok ((ensDisc c.S (c.S.clip r.1.1), r.2.1), pop)
      else
        match cx2point d.a d.b p.ind q.ind p.strat q.strat with
        | .error e => .error e
        | .ok r => .ok ((ensDisc c.S (c.S.clip r.1.1), r.2.1), pop)
    | _, _ => .error .indexError
  else if d.rn < c.cxpb + c.mutpb then
    if n = 0 then .error .indexError else
    match pop[d.i1 % n]? with
    | none => .error .indexError
    | some p =>
      match mutES c.S c.smin c.smax d.md p.ind p.strat with
      | .error e => .error e
      | .ok r => .ok (r, pop)
  else
    if n = 0 then .error .indexError else
    match pop[d.i1 % n]? with
    | none => .error .indexError
    | some p =>
      let x := ensDisc c.S p.ind
      .ok ((x, p.strat), pop.set (d.i1 % n) { p with ind := x })

/-- The loop `for i in range(self.lambda_)` from offspring `i` on. -/
def genLoop (c : Conf K) (dr : ℕ → Draw K) : ℕ → ℕ → List (Ind K) → Py (List (List K × List K))
  | _, 0, _ => .ok []
  | i, k + 1, pop =>
    match genOne c (dr i) pop with
    | .error e => .error e
    | .ok (o, pop') =>
      match genLoop c dr (i + 1) k pop' with
      | .error e => .error e
      | .ok os => .ok (o :: os)

/-- `GenOffspring`, lines 340-406. -/
def genOffspring (c : Conf K) (dr : ℕ → Draw K) (pop : List (Ind K)) : Py (List (List K × List K)) :=
  match genLoop c dr 0 c.lam pop with
  | .error e => .error e
  | .ok os => .ok (if c.clip then os.map (fun o => (o.1, clipS c.smin c.smax o.2)) else os)

/-- Replace the individuals of the first entries. -/
def replFirst : List (List K) → List (Ind K) → List (Ind K)
  | v :: vs, e :: es => { e with ind := v } :: replFirst vs es
  | _, es => es

/-- `mix_population`, lines 408-424: the individuals at the end of the population are replaced by the chosen RL vectors, strategy and
fitness stay.  `rl` is empty outside `RLmode`. -/
def mixRL (rl : List (List K)) (pop : List (Ind K)) : Py (List (Ind K)) :=
  if rl.length > pop.length then .error .indexError else .ok (replFirst rl pop.reverse).reverse

/-- `np.argmax`: the first maximum. -/
def firstMax : List (Ind K) → Option (Ind K)
  | [] => none
  | e :: es =>
    match firstMax es with
    | none => some e
    | some b => if b.fit > e.fit then some b else some e

/-- State between generations. -/
structure State (K : Type) where
  pop : List (Ind K)
  /-- `(x_opt, y_opt)`; `none` while `y_opt` is `-inf` -/
  best : Option (List K × K)
  /-- `self.best_scores`, internal sign -/
  scores : List K
  last : List (List K × K)
  log : List (List K)

/-- One generation, lines 451-489. -/
def gen (c : Conf K) (fit : List K → K) (dr : ℕ → Draw K) (rl : List (List K)) (s : State K) : Py (State K) :=
  match genOffspring c dr s.pop with
  | .error e => .error e
  | .ok os =>
    let off : List (Ind K) := os.map fun o => { ind := o.1, strat := o.2, fit := fit o.1 }
    match mixRL rl (select c.mu off) with
    | .error e => .error e
    | .ok pop =>
      match firstMax pop with
      | none => .error .valueError
      | some b =>
        .ok { pop := pop
              best := (match s.best with
                | none => some (b.ind, b.fit)
                | some o => if b.fit > o.2 then some (b.ind, b.fit) else some o)
              scores := s.scores ++ [b.fit]
              last := os.map fun o => (o.1, fit o.1)
              log := s.log ++ os.map (fun o => o.1) }

/-- The initial population (`init_pop`, lines 143-194: individuals with their random strategies) and `g` generations. -/
def run (c : Conf K) (fit : List K → K) (dr : ℕ → ℕ → Draw K) (rl : ℕ → List (List K)) (pop0 : List (List K × List K)) : ℕ → Py (State K)
  | 0 => .ok { pop := pop0.map fun p => { ind := p.1, strat := p.2, fit := fit p.1 }, best := none, scores := [], last := [], log := [] }
  | g + 1 =>
    match run c fit dr rl pop0 g with
    | .error e => .error e
    | .ok s => gen c fit (dr g) (rl g) s

/-- What `evolute` returns, plus the ghost log of the offspring evaluations (the initial evaluations are those of `pop0`). -/
structure Result (K : Type) where
  x : List K
  y : K
  global : List K
  locals : List K
  lastPop : List (List K × K)
  log : List (List K)

/-- `evolute`, lines 426-533, after the constructor's assertions (lines 92-93).  `m` is `mode == 'min'`. -/
def evolute (c : Conf K) (m : Bool) (userFit : List K → K) (dr : ℕ → ℕ → Draw K) (rl : ℕ → List (List K))
    (pop0 : List (List K × List K)) : Py (Result K) :=
  if ¬ c.mu ≤ c.lam ∨ ¬ c.cxpb + c.mutpb ≤ 1 ∨ pop0.length ≠ c.lam then .error .assertion else
  match run c (fun x => sgn (!m) (userFit x)) dr rl pop0 c.ngen with
  | .error e => .error e
  | .ok s =>
    match s.best with
    | none => .error .unboundLocal
    | some b =>
      let scores := s.scores.map (sgn (!m))
      .ok { x := b.1, y := sgn (!m) b.2, global := acc m scores, locals := scores,
            lastPop := s.last.map (fun e => (e.1, sgn (!m) e.2)), log := s.log }

/-! ### Lemmas -/

/-- A population whose vectors have the right length. -/
def LenOK (c : Conf K) (pop : List (Ind K)) : Prop :=
  ∀ p ∈ pop, p.ind.length = c.S.bounds.length ∧ p.strat.length = c.S.bounds.length

/-- A population whose strategies are in range. -/
def StratOK (c : Conf K) (pop : List (Ind K)) : Prop := ∀ p ∈ pop, ∀ v ∈ p.strat, c.smin ≤ v ∧ v ≤ c.smax

theorem length_blendV (alpha : K) (u : ℕ → K) {x1 x2 : List K} (h : x1.length = x2.length) : (blendV alpha u x1 x2).1.length = x1.length := by
  simp [blendV, h]

theorem genOne_ok {c : Conf K} (hS : c.S.OK) (hs : c.smin ≤ c.smax) {d : Draw K} {pop pop' : List (Ind K)} {o : List K × List K}
    (hl : LenOK c pop) (h : genOne c d pop = .ok (o, pop')) :
    c.S.Feasible o.1 ∧ o.2.length = c.S.bounds.length ∧ LenOK c pop' ∧
    (StratOK c pop → StratOK c pop' ∧ (c.blend = false → ∀ v ∈ o.2, c.smin ≤ v ∧ v ≤ c.smax)) := by
  unfold genOne at h
  simp only at h
  split_ifs at h with h1 h2 h3 h4 h5 h6
  · split at h
    · rename_i p q hp hq
      cases h
      obtain ⟨lp1, lp2⟩ := hl p (List.mem_of_getElem? hp)
      obtain ⟨lq1, lq2⟩ := hl q (List.mem_of_getElem? hq)
      refine ⟨ensDisc_feasible hS (c.S.length_clip hS ?_), ?_, hl, fun hst => ⟨hst, by rw [h3]; intro h; cases h⟩⟩
      · show (blendV _ _ _ _).1.length = _
        rw [length_blendV _ _ (by rw [lp1, lq1]), lp1]
      · show (blendV _ _ _ _).1.length = _
        rw [length_blendV _ _ (by rw [lp2, lq2]), lp2]
    · cases h
  · split at h
    · rename_i p q hp hq
      obtain ⟨lp1, lp2⟩ := hl p (List.mem_of_getElem? hp)
      obtain ⟨lq1, lq2⟩ := hl q (List.mem_of_getElem? hq)
      split at h
      · cases h
      · rename_i r hr
        cases h
        unfold cx2point at hr
        split at hr
        · cases hr
        · rename_i a b hab
          cases hr
          obtain ⟨e1, e2, e3⟩ := cxPoints_ok hab
          rw [lp1, lq1, min_self] at e3
          refine ⟨ensDisc_feasible hS (c.S.length_clip hS ?_), ?_, hl, fun hst => ⟨hst, fun _ v hv => ?_⟩⟩
          · rw [length_slice (by rw [lp1, lq1]) e2.le (by rw [lp1]; exact e3), lp1]
          · rw [length_slice (by rw [lp2, lq2]) e2.le (by rw [lp2]; exact e3), lp2]
          · rcases mem_slice hv with hv | hv
            · exact hst p (List.mem_of_getElem? hp) v hv
            · exact hst q (List.mem_of_getElem? hq) v hv
    · cases h
  · split at h
    · cases h
    · rename_i p hp
      obtain ⟨lp1, lp2⟩ := hl p (List.mem_of_getElem? hp)
      split at h
      · cases h
      · rename_i r hr
        cases h
        obtain ⟨e1, e2, e3⟩ := mutES_ok hS hs lp1 lp2 hr
        exact ⟨e1, e2, hl, fun hst => ⟨hst, fun _ => e3⟩⟩
  · split at h
    · cases h
    · rename_i p hp
      cases h
      obtain ⟨lp1, lp2⟩ := hl p (List.mem_of_getElem? hp)
      have hf := ensDisc_feasible hS lp1
      refine ⟨hf, lp2, ?_, fun hst => ⟨?_, fun _ => hst p (List.mem_of_getElem? hp)⟩⟩
      · intro q hq
        rcases List.mem_or_eq_of_mem_set hq with hq | rfl
        · exact hl q hq
        · exact ⟨hf.1.length_eq, lp2⟩
      · intro q hq
        rcases List.mem_or_eq_of_mem_set hq with hq | rfl
        · exact hst q hq
        · exact hst p (List.mem_of_getElem? hp)

theorem genLoop_ok {c : Conf K} (hS : c.S.OK) (hs : c.smin ≤ c.smax) {dr : ℕ → Draw K} {k : ℕ} : ∀ {i : ℕ} {pop : List (Ind K)}
    {os : List (List K × List K)}, LenOK c pop → genLoop c dr i k pop = .ok os →
    os.length = k ∧ (∀ o ∈ os, c.S.Feasible o.1 ∧ o.2.length = c.S.bounds.length) ∧
    (StratOK c pop → c.blend = false → ∀ o ∈ os, ∀ v ∈ o.2, c.smin ≤ v ∧ v ≤ c.smax) := by
  induction k with
  | zero => intro i pop os hl h; cases h; simp
  | succ k ih =>
    intro i pop os hl h
    simp only [genLoop] at h
    split at h
    · cases h
    · rename_i o pop' ho
      obtain ⟨h1, h2, h3, h4⟩ := genOne_ok hS hs hl ho
      split at h
      · cases h
      · rename_i os' hos
        cases h
        obtain ⟨g1, g2, g3⟩ := ih h3 hos
        refine ⟨by simp [g1], ?_, ?_⟩
        · intro p hp
          rcases List.mem_cons.1 hp with rfl | hp
          · exact ⟨h1, h2⟩
          · exact g2 p hp
        · intro hst hb p hp
          obtain ⟨f1, f2⟩ := h4 hst
          rcases List.mem_cons.1 hp with rfl | hp
          · exact f2 hb
          · exact g3 f1 hb p hp

theorem genOffspring_ok {c : Conf K} (hS : c.S.OK) (hs : c.smin ≤ c.smax) {dr : ℕ → Draw K} {pop : List (Ind K)}
    {os : List (List K × List K)} (hl : LenOK c pop) (h : genOffspring c dr pop = .ok os) :
    os.length = c.lam ∧ (∀ o ∈ os, c.S.Feasible o.1 ∧ o.2.length = c.S.bounds.length) ∧
    (c.clip = true ∨ (StratOK c pop ∧ c.blend = false) → ∀ o ∈ os, ∀ v ∈ o.2, c.smin ≤ v ∧ v ≤ c.smax) := by
  unfold genOffspring at h
  split at h
  · cases h
  · rename_i os' hos
    cases h
    obtain ⟨g1, g2, g3⟩ := genLoop_ok hS hs hl hos
    cases hc : c.clip with
    | false =>
      rw [if_neg (by simp)]
      refine ⟨g1, g2, ?_⟩
      rintro (h | ⟨h1, h2⟩)
      · cases h
      · exact g3 h1 h2
    | true =>
      rw [if_pos rfl]
      refine ⟨by simp [g1], ?_, ?_⟩
      · intro o ho
        obtain ⟨o', ho', rfl⟩ := List.mem_map.1 ho
        exact ⟨(g2 o' ho').1, by simpa [clipS] using (g2 o' ho').2⟩
      · intro _ o ho
        obtain ⟨o', ho', rfl⟩ := List.mem_map.1 ho
        exact clipS_mem hs

theorem mem_select {k : ℕ} {pop : List (Ind K)} {e : Ind K} (h : e ∈ select k pop) : e ∈ pop := mem_sortDesc.1 (List.mem_of_mem_take h)

theorem mem_replFirst {vs : List (List K)} {es : List (Ind K)} {e : Ind K} (h : e ∈ replFirst vs es) :
    e ∈ es ∨ ∃ v ∈ vs, ∃ e' ∈ es, e = { e' with ind := v } := by
  induction es generalizing vs with
  | nil => cases vs <;> simp [replFirst] at h
  | cons a es ih =>
    cases vs with
    | nil => exact Or.inl h
    | cons v vs =>
      simp only [replFirst, List.mem_cons] at h
      rcases h with rfl | h
      · exact Or.inr ⟨v, by simp, a, by simp, rfl⟩
      · rcases ih h with h | ⟨w, hw, e', he', rfl⟩
        · exact Or.inl (by simp [h])
        · exact Or.inr ⟨w, by simp [hw], e', by simp [he'], rfl⟩

theorem replFirst_length (vs : List (List K)) (es : List (Ind K)) : (replFirst vs es).length = es.length := by
  induction es generalizing vs with
  | nil => cases vs <;> rfl
  | cons e es ih => cases vs with
    | nil => rfl
    | cons v vs => simp [replFirst, ih]

theorem replFirst_getLast? {vs : List (List K)} {es : List (Ind K)} (h : vs.length < es.length) :
    (replFirst vs es).getLast? = es.getLast? := by
  induction es generalizing vs with
  | nil => simp at h
  | cons e es ih =>
    cases vs with
    | nil => rfl
    | cons v vs =>
      have h' : vs.length < es.length := by simpa using h
      simp only [replFirst]
      have h1 : replFirst vs es ≠ [] := by
        intro h0
        have := replFirst_length vs es
        rw [h0] at this
        simp at this
        omega
      have h2 : es ≠ [] := by
        intro h0; subst h0; simp at h'
      rw [List.getLast?_cons, List.getLast?_cons, ih h', List.getLast?_eq_some_getLast h2]
      rfl

theorem replFirst_fit (vs : List (List K)) (es : List (Ind K)) : (replFirst vs es).map (fun e => e.fit) = es.map (fun e => e.fit) := by
  induction es generalizing vs with
  | nil => cases vs <;> rfl
  | cons e es ih => cases vs with
    | nil => rfl
    | cons v vs => simp [replFirst, ih]

theorem firstMax_mem {l : List (Ind K)} {b : Ind K} (h : firstMax l = some b) : b ∈ l := by
  induction l generalizing b with
  | nil => cases h
  | cons e es ih =>
    simp only [firstMax] at h
    split at h
    · cases h; simp
    · rename_i b' hb
      split_ifs at h <;> cases h
      · exact List.mem_cons_of_mem _ (ih hb)
      · simp

/-- On a list sorted by fitness the first maximum is the head. -/
theorem firstMax_sorted {e : Ind K} {es : List (Ind K)} (h : ∀ b ∈ es, b.fit ≤ e.fit) : firstMax (e :: es) = some e := by
  simp only [firstMax]
  split
  · rfl
  · rename_i b hb
    rw [if_neg (not_lt.2 (h b (firstMax_mem hb)))]

/-- What mixing in fewer RL vectors than survivors does. -/
theorem mixRL_ok {rl : List (List K)} {pop pop' : List (Ind K)} (h : mixRL rl pop = .ok pop') :
    pop'.length = pop.length ∧ pop'.map (fun e => e.fit) = pop.map (fun e => e.fit) ∧ (rl.length < pop.length → pop'.head? = pop.head?) ∧
    ∀ e ∈ pop', e ∈ pop ∨ ∃ v ∈ rl, ∃ e' ∈ pop, e = { e' with ind := v } := by
  unfold mixRL at h
  split_ifs at h with h0
  cases h
  refine ⟨by simp [replFirst_length], ?_, ?_, ?_⟩
  · rw [List.map_reverse, replFirst_fit, ← List.map_reverse, List.reverse_reverse]
  · intro hlt
    rw [List.head?_reverse, replFirst_getLast? (by simpa using hlt), List.getLast?_reverse]
  · intro e he
    rw [List.mem_reverse] at he
    rcases mem_replFirst he with h | ⟨v, hv, e', he', rfl⟩
    · exact Or.inl (List.mem_reverse.1 h)
    · exact Or.inr ⟨v, hv, e', List.mem_reverse.1 he', rfl⟩

/-- Everything known about the state after `g` generations. -/
structure Inv (c : Conf K) (fit : List K → K) (g : ℕ) (s : State K) : Prop where
  lens : LenOK c s.pop
  npop : g ≠ 0 → s.pop.length = c.mu
  strat : (c.clip = true ∨ c.blend = false) → StratOK c s.pop
  feas : ∀ p ∈ s.log, c.S.Feasible p
  len : s.log.length = g * c.lam
  nscores : s.scores.length = g
  scores : BlockBest false fit 0 c.lam s.log s.scores
  best : (g = 0 ∧ s.best = none) ∨ ∃ b, s.best = some b ∧ b.2 ∈ s.scores ∧ ∀ v ∈ s.scores, v ≤ b.2
  last : g ≠ 0 → s.last = (s.log.drop ((g - 1) * c.lam)).map (fun x => (x, fit x))

/-- One generation: the head of the selected population is the best of all offspring of the generation. -/
theorem gen_inv {c : Conf K} (hS : c.S.OK) (hs : c.smin ≤ c.smax) (hmu : c.mu ≤ c.lam) {fit : List K → K} {g : ℕ} {dr : ℕ → Draw K}
    {rl : List (List K)} (hrl : ∀ v ∈ rl, v.length = c.S.bounds.length) {s s' : State K}
    (hi : Inv c fit g s) (h : gen c fit dr rl s = .ok s') :
    Inv c fit (g + 1) s' ∧
    (rl.length < c.mu → ∃ x, (∃ os : List (List K), s'.log = s.log ++ os ∧ x ∈ os ∧ ∀ z ∈ os, fit z ≤ fit x) ∧
      s'.best = (match s.best with | none => some (x, fit x) | some o => if fit x > o.2 then some (x, fit x) else some o)) := by
  unfold gen at h
  split at h
  · cases h
  rename_i os hos
  simp only at h
  split at h
  · cases h
  rename_i pop hpop
  split at h
  · cases h
  rename_i b hb
  cases h
  obtain ⟨o1, o2, o3⟩ := genOffspring_ok hS hs hi.lens hos
  set off : List (Ind K) := os.map fun o => { ind := o.1, strat := o.2, fit := fit o.1 } with hoff
  have hoffl : off.length = c.lam := by simp [hoff, o1]
  obtain ⟨m1, m2, m3, m4⟩ := mixRL_ok hpop
  have hsl : (select c.mu off).length = c.mu := by simp [select, hoffl, hmu]
  have hoffmem : ∀ e ∈ off, ∃ o ∈ os, e = { ind := o.1, strat := o.2, fit := fit o.1 } := by
    intro e he
    obtain ⟨o, ho, rfl⟩ := List.mem_map.1 he
    exact ⟨o, ho, rfl⟩
  have hsort : (select c.mu off).Pairwise (fun a b => b.fit ≤ a.fit) := (sortDesc_sorted _ _).sublist (List.take_sublist _ _)
  have hpsort : pop.Pairwise (fun a b => b.fit ≤ a.fit) := by
    have h1 : ((select c.mu off).map (fun e => e.fit)).Pairwise (fun a b => b ≤ a) := by rw [List.pairwise_map]; exact hsort
    rw [← m2, List.pairwise_map] at h1
    exact h1
  have hbhead : pop.head? = some b := by
    cases pop with
    | nil => cases hb
    | cons e es =>
      rw [firstMax_sorted (List.pairwise_cons.1 hpsort).1] at hb
      cases hb; rfl
  -- the fitness of the best entry is the maximum over all offspring of the generation
  have hsne : ∃ e, (sortDesc (fun e : Ind K => e.fit) off).head? = some e ∧ e.fit = b.fit ∧ (select c.mu off).head? = some e := by
    have h1 : (pop.map (fun e => e.fit)).head? = some b.fit := by rw [List.head?_map, hbhead]; rfl
    rw [m2, List.head?_map] at h1
    cases he : (select c.mu off).head? with
    | none => rw [he] at h1; cases h1
    | some e =>
      rw [he] at h1
      have h1 : e.fit = b.fit := by simpa using h1
      refine ⟨e, ?_, h1, rfl⟩
      unfold select at he
      cases hmu0 : c.mu with
      | zero => rw [hmu0] at he; simp at he
      | succ k => rw [hmu0] at he; cases hsd : sortDesc (fun e : Ind K => e.fit) off with
        | nil => rw [hsd] at he; simp at he
        | cons a l => rw [hsd] at he; simpa using he
  obtain ⟨e, he1, he2, he3⟩ := hsne
  obtain ⟨hmem, hmax⟩ := sortDesc_head_max _ he1
  obtain ⟨o, ho, rfl⟩ := hoffmem e hmem
  have hmax' : ∀ z ∈ os.map (fun o => o.1), fit z ≤ fit o.1 := by
    intro z hz
    obtain ⟨o', ho', rfl⟩ := List.mem_map.1 hz
    exact hmax _ (List.mem_map_of_mem (f := fun o : List K × List K => ({ ind := o.1, strat := o.2, fit := fit o.1 } : Ind K)) ho')
  have hbf : fit o.1 = b.fit := he2
  have hblock : BestOn false fit (os.map (fun o => o.1)) b.fit :=
    ⟨⟨o.1, List.mem_map_of_mem ho, hbf⟩, fun z hz => by have := hmax' z hz; rw [hbf] at this; simpa [NotWorse] using this⟩
  refine ⟨⟨?_, fun _ => by rw [m1, hsl], ?_, ?_, ?_, by simp [hi.nscores], ?_, ?_, ?_⟩, ?_⟩
  · intro e he
    have key : ∀ e ∈ select c.mu off, e.ind.length = c.S.bounds.length ∧ e.strat.length = c.S.bounds.length := by
      intro e he
      obtain ⟨o', ho', rfl⟩ := hoffmem e (mem_select he)
      exact ⟨(o2 o' ho').1.1.length_eq, (o2 o' ho').2⟩
    rcases m4 e he with h | ⟨v, hv, e', he', rfl⟩
    · exact key e h
    · exact ⟨hrl v hv, (key e' he').2⟩
  · intro hcond e he
    have key : ∀ e ∈ select c.mu off, ∀ v ∈ e.strat, c.smin ≤ v ∧ v ≤ c.smax := by
      intro e he
      obtain ⟨o', ho', rfl⟩ := hoffmem e (mem_select he)
      refine o3 ?_ o' ho'
      rcases hcond with h | h
      · exact Or.inl h
      · exact Or.inr ⟨hi.strat (Or.inr h), h⟩
    rcases m4 e he with h | ⟨v, hv, e', he', rfl⟩
    · exact key e h
    · exact key e' he'
  · intro p hp
    rcases List.mem_append.1 hp with hp | hp
    · exact hi.feas p hp
    · obtain ⟨o', ho', rfl⟩ := List.mem_map.1 hp
      exact (o2 o' ho').1
  · simp only [List.length_append, List.length_map, hi.len, o1]; ring
  · exact hi.scores.step (by rw [hi.len, hi.nscores]; ring) (by simp [o1]) hblock
  · right
    rcases hi.best with ⟨h1, h2⟩ | ⟨o', h1, h2, h3⟩
    · subst h1
      have : s.scores = [] := List.length_eq_zero_iff.1 hi.nscores
      rw [h2, this]
      exact ⟨(b.ind, b.fit), rfl, by simp, by simp⟩
    · rw [h1]
      simp only
      split_ifs with hc
      · refine ⟨_, rfl, by simp, ?_⟩
        intro v hv
        rcases List.mem_append.1 hv with hv | hv
        · exact (h3 v hv).trans (le_of_lt hc)
        · simp at hv; rw [hv]
      · refine ⟨_, rfl, by simp [h2], ?_⟩
        intro v hv
        rcases List.mem_append.1 hv with hv | hv
        · exact h3 v hv
        · simp at hv; rw [hv]; exact not_lt.1 hc
  · intro _
    simp only [Nat.add_sub_cancel]
    rw [List.drop_append_of_le_length (by rw [hi.len]), List.drop_of_length_le (by rw [hi.len]), List.nil_append, List.map_map]
    rfl
  · intro hlt
    have hh := m3 (by rw [hsl]; exact hlt)
    rw [hbhead, he3] at hh
    have hbe : b = { ind := o.1, strat := o.2, fit := fit o.1 } := Option.some.inj hh
    refine ⟨o.1, ⟨os.map (fun o => o.1), rfl, List.mem_map_of_mem ho, hmax'⟩, ?_⟩
    simp only [hbe]

theorem run_inv {c : Conf K} (hS : c.S.OK) (hs : c.smin ≤ c.smax) (hmu : c.mu ≤ c.lam) {fit : List K → K} {dr : ℕ → ℕ → Draw K}
    {rl : ℕ → List (List K)} (hrl : ∀ g, ∀ v ∈ rl g, v.length = c.S.bounds.length) {pop0 : List (List K × List K)}
    (h0 : ∀ p ∈ pop0, p.1.length = c.S.bounds.length ∧ p.2.length = c.S.bounds.length ∧ ∀ v ∈ p.2, c.smin ≤ v ∧ v ≤ c.smax) {g : ℕ} {s : State K}
    (h : run c fit dr rl pop0 g = .ok s) :
    Inv c fit g s ∧ ((∀ g, (rl g).length < c.mu) → ∀ b, s.best = some b → IsBest false fit s.log b.1 b.2) := by
  induction g generalizing s with
  | zero =>
    cases h
    refine ⟨⟨?_, by simp, ?_, by simp, by simp, rfl, blockBest_nil _ _ _ _ _, Or.inl ⟨rfl, rfl⟩, by simp⟩, by simp⟩
    · intro p hp
      obtain ⟨q, hq, rfl⟩ := List.mem_map.1 hp
      exact ⟨(h0 q hq).1, (h0 q hq).2.1⟩
    · intro _ p hp
      obtain ⟨q, hq, rfl⟩ := List.mem_map.1 hp
      exact (h0 q hq).2.2
  | succ g ih =>
    simp only [run] at h
    split at h
    · cases h
    rename_i s0 hs0
    obtain ⟨hi, hb⟩ := ih hs0
    obtain ⟨hi', hx⟩ := gen_inv hS hs hmu (hrl g) hi h
    refine ⟨hi', ?_⟩
    intro hlt b hbs
    obtain ⟨x, ⟨os, e1, e2, e3⟩, e4⟩ := hx (hlt g)
    rw [hbs] at e4
    rw [e1]
    rcases hi.best with ⟨h1, h2⟩ | ⟨o, h1, h2, h3⟩
    · subst h1
      rw [h2] at e4
      cases e4
      have : s0.log = [] := List.length_eq_zero_iff.1 (by rw [hi.len]; simp)
      rw [this]
      exact ⟨by simpa using e2, rfl, fun z hz => by simpa [NotWorse] using e3 z (by simpa using hz)⟩
    · rw [h1] at e4
      obtain ⟨b1, b2, b3⟩ := hb hlt o h1
      simp only at e4
      split_ifs at e4 with hc
      · cases e4
        refine ⟨by simp [e2], rfl, ?_⟩
        intro z hz
        rcases List.mem_append.1 hz with hz | hz
        · have := b3 z hz
          simp only [NotWorse, Bool.false_eq_true, if_false] at this ⊢
          exact this.trans (le_of_lt hc)
        · simpa [NotWorse] using e3 z hz
      · cases e4
        refine ⟨by simp [b1], b2, ?_⟩
        intro z hz
        rcases List.mem_append.1 hz with hz | hz
        · exact b3 z hz
        · simp only [NotWorse, Bool.false_eq_true, if_false]
          exact (e3 z hz).trans (not_lt.1 hc)

end
end Neorl.ES

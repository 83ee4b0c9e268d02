import Verif.DE
import Verif.ES
import Verif.Env

/-!
# RL-informed evolution: ACKDE and PPO-ES

Model of `neorl/hybrid/ackde.py` and `neorl/hybrid/ppoes.py` (identical but for the agent and the evolutionary algorithm): the selection of the RL
individuals in `learn`, and `evolute` with the RL mode of DE (`mix_population`, `neorl/evolu/de.py` lines 204-213 and 325-326) and of ES
(`neorl/evolu/es.py` lines 408-424).  What the agent visits (`cb.x_hist`, `cb.r_hist`) is arbitrary; the agent and its hyperparameters are not modelled.
The order of rows with equal score in `sort_values` and of equal scores in `argsort` is arbitrary.  Numbers in the array `self.data` are floats
(`DataFrame.values` with a float score column).  `random.sample` is an arbitrary choice (that the indices differ is not used).
A bare `Exception` is reported as `valueError`.
-/

set_option linter.unusedSectionVars false
set_option linter.unusedVariables false

namespace Neorl.Informed

section
variable {K : Type} [Field K] [LinearOrder K] [IsStrictOrderedRing K] [FloorRing K]

/-- An individual in the user's mixed space. -/
abbrev Row (K : Type) := List (Val K)

/-- Constructor arguments, `ackde.py` lines 66-95 / `ppoes.py` lines 69-100. -/
structure Conf (K : Type) where
  orig : Bounds K
  minMode : Bool
  npop : ℕ
  npopRl : ℕ
  initRl : Bool

/-- The assertion of the constructor, `ackde.py` line 72. -/
def construct (c : Conf K) : Py Unit := if c.npopRl < c.npop then .ok () else .error .assertion

/-- The attributes `ACKTR_RUN_FLAG` / `PPO_RUN_FLAG` and `data` (`none`: not yet set). -/
structure Obj (K : Type) where
  flag : Bool
  data : Option (List (Row K))

/-- The object after construction, `ackde.py` line 114. -/
def fresh : Obj K := { flag := false, data := none }

/-- `grid_flag`, `ackde.py` lines 90-93. -/
def hasGrid (bs : Bounds K) : Bool := bs.any (fun b => match b.2 with | .grid _ => true | _ => false)

/-- `encode_grid_individual_to_discrete`, `ackde.py` lines 40-50; `index` raises `ValueError` for a value that is not in the grid. -/
def encodeRow : Bounds K → Row K → Py (Row K)
  | [], _ => .ok []
  | _ :: _, [] => .error .indexError
  | (_, .grid vals) :: bs, x :: xs =>
    match vals.findIdx? (fun v => decide (Val.pyEq v x)) with
    | none => .error .valueError
    | some i =>
      match encodeRow bs xs with
      | .error e => .error e
      | .ok r => .ok (.pyint i :: r)
  | (_, _) :: bs, x :: xs =>
    match encodeRow bs xs with
    | .error e => .error e
    | .ok r => .ok (x :: r)

/-- A cell of `DataFrame.values`: numbers are floats. -/
def cell : Val K → Val K
  | .str s => .str s
  | .pyint n => .float (n : K)
  | .npint n => .float (n : K)
  | .float x => .float x

/-- The encoding loop, `ackde.py` lines 187-189. -/
def encodeRows (bs : Bounds K) : List (Row K) → Py (List (Row K))
  | [] => .ok []
  | r :: rs =>
    match encodeRow bs r with
    | .error e => .error e
    | .ok r' =>
      match encodeRows bs rs with
      | .error e => .error e
      | .ok rs' => .ok (r'.map cell :: rs')

/-- The two modes match, `ackde.py` lines 135-153 (`env.mode` is `max` when the environment has none). -/
def modesMatch (c : Conf K) (envMode : Option String) : Bool := decide (envMode.getD "max" = if c.minMode then "min" else "max")

/-- `learn`, `ackde.py` lines 117-191 / `ppoes.py` lines 125-203: the new attributes and the returned table.  `srt` is `sort_values` (ascending for
`min`, descending for `max`).  After an exception in the encoding loop the rows are left as they were (the code leaves the first ones encoded). -/
def learn (c : Conf K) (srt : Bool → List (Row K × K) → List (Row K × K)) (envMode : Option String) (filter : ℕ) (xs : List (Row K)) (rs : List K)
    (o : Obj K) : Obj K × Py (List (Row K × K)) :=
  let o1 : Obj K := { o with flag := true }
  if modesMatch c envMode = false then (o1, .error .valueError) else
  if xs.any (fun x => decide (x.length ≠ c.orig.length)) then (o1, .error .valueError) else
  if xs.length ≠ rs.length then (o1, .error .assertion) else
  let df := srt c.minMode (xs.zip rs)
  let top := (if df.length < filter then df else df.take filter).map (fun p => p.1.map cell)
  let o2 : Obj K := { o1 with data := some top }
  if hasGrid c.orig = true then
    match encodeRows c.orig top with
    | .error e => (o2, .error e)
    | .ok d => ({ o2 with data := some d }, .ok df)
  else (o2, .ok df)

/-- The initial individuals, `ackde.py` lines 210-214: `npop` rows of the RL data, drawn with replacement. -/
def startRows (npop : ℕ) (idx : ℕ → ℕ) (data : List (Row K)) : Py (List (Row K)) :=
  if data.length = 0 then .error .valueError else .ok ((List.range npop).filterMap (fun i => data[idx i % data.length]?))

/-- The numbers of an (encoded) individual. -/
def nums : Row K → Py (List K)
  | [] => .ok []
  | v :: vs =>
    match v.num? with
    | none => .error .typeError
    | some x =>
      match nums vs with
      | .error e => .error e
      | .ok r => .ok (x :: r)

/-- The numbers of all rows. -/
def numRows : List (Row K) → Py (List (List K))
  | [] => .ok []
  | r :: rs =>
    match nums r with
    | .error e => .error e
    | .ok x =>
      match numRows rs with
      | .error e => .error e
      | .ok xs => .ok (x :: xs)

/-- `InitPopulation` with `x0`, `de.py` lines 149-155 (`es.py` lines 160-167): check, encode the grid variables, append. -/
def initPop (bs : Bounds K) : List (Row K) → Py (List (List K))
  | [] => .ok []
  | r :: rs =>
    match checkIndv bs r with
    | .error e => .error e
    | .ok () =>
      match (if hasGrid bs = true then encodeIndv (encodeBounds bs).2 bs r else .ok r) with
      | .error e => .error e
      | .ok e =>
        match nums e with
        | .error e => .error e
        | .ok x =>
          match initPop bs rs with
          | .error e => .error e
          | .ok xs => .ok (x :: xs)

/-- The encoded space that DE and ES search, with `int_transform='nearest_int'` (`ackde.py` line 219). -/
def space (bs : Bounds K) : Space K :=
  { bounds := (encodeBounds bs).1.map (fun b => Env.specB b.2), types := (encodeBounds bs).1.map (fun b => Env.specT b.2), method := .nearestInt, expf := fun x => x }

/-- The rows that `mix_population` puts in place of the worst individuals, `de.py` lines 206-211: `ord` is `argsort`, `smp` the sampled rows. -/
def mixRows (ord : List K → List ℕ) (nrl : ℕ) (smp : ℕ → ℕ) (data : List (List K)) (scores : List K) : Py (List (ℕ × List K)) :=
  if data.length < nrl then .error .valueError else
  .ok (((ord scores).take nrl).zip ((List.range nrl).filterMap (fun i => data[smp i % data.length]?)))

/-- One generation of DE in RL mode, `de.py` lines 238-327. -/
def genRL (c : DE.Conf K) (ord : List K → List ℕ) (nrl : ℕ) (smp : ℕ → ℕ) (data : List (List K)) (fit : List K → K) (dr : ℕ → DE.Draw K)
    (s : DE.State K) : Py (DE.State K) :=
  match DE.gen c fit dr [] s with
  | .error e => .error e
  | .ok s1 =>
    match mixRows ord nrl smp data (s1.sel.map Prod.snd) with
    | .error e => .error e
    | .ok rl => .ok { s1 with pop := DE.mix rl s1.pop }

/-- The generations of DE in RL mode. -/
def runRL (c : DE.Conf K) (ord : List K → List ℕ) (nrl : ℕ) (smp : ℕ → ℕ → ℕ) (data : List (List K)) (fit : List K → K)
    (dr : ℕ → ℕ → DE.Draw K) (pop0 : List (List K)) : ℕ → Py (DE.State K)
  | 0 => .ok { pop := pop0, sel := [], best := [], last := none, log := [] }
  | g + 1 =>
    match runRL c ord nrl smp data fit dr pop0 g with
    | .error e => .error e
    | .ok s => genRL c ord nrl (smp g) data fit (dr g) s

/-- What DE returns after its generations, `de.py` lines 349-378 (as in `DE.evolute`). -/
def finish (m : Bool) (s : DE.State K) : Py (DE.Result K) :=
  match s.last with
  | none => .error .unboundLocal
  | some (x, y) =>
    if m then
      let h := s.best.map (fun v => -v)
      .ok { x := x, y := -y, globalFitness := accMin h, localFitness := h,
            lastPop := List.zip s.pop (s.sel.map (fun p => -p.2)), log := s.log }
    else .ok { x := x, y := y, globalFitness := accMax s.best, localFitness := s.best,
               lastPop := List.zip s.pop (s.sel.map Prod.snd), log := s.log }

/-- Random choices of a run of `ACKDE.evolute`. -/
structure Draws (K : Type) where
  idx : ℕ → ℕ
  smp : ℕ → ℕ → ℕ
  dr : ℕ → ℕ → DE.Draw K
  pop0 : List (List K)

/-- The initial population: RL rows or DE's own random individuals. -/
def start (c : Conf K) (idx : ℕ → ℕ) (pop0 : List (List K)) (d : List (Row K)) : Py (List (List K)) :=
  if c.initRl = true then
    match startRows c.npop idx d with
    | .error e => .error e
    | .ok rows => initPop c.orig rows
  else .ok pop0

/-- `ACKDE.evolute`, `ackde.py` lines 193-228.  `f` is the fitness of an encoded vector (grid decoding included). -/
def ackde (c : Conf K) (F CR : K) (ngen : ℕ) (ord : List K → List ℕ) (d : Draws K) (f : List K → K) (o : Obj K) : Py (DE.Result K) :=
  if o.flag = false then .error .valueError else
  match o.data with
  | none => .error .attributeError
  | some rows =>
    match start c d.idx d.pop0 rows with
    | .error e => .error e
    | .ok pop =>
      match numRows rows with
      | .error e => .error e
      | .ok data =>
        match runRL { S := space c.orig, F := F, CR := CR, npop := c.npop, ngen := ngen } ord c.npopRl d.smp data
            (if c.minMode then (fun x => -f x) else f) d.dr pop ngen with
        | .error e => .error e
        | .ok s => finish c.minMode s

/-- ES hyperparameters of PPO-ES, `ppoes.py` lines 114-120 and 231-233 (`mu` defaults to `int(npop/2)`; `alpha` is not passed on). -/
structure EsArgs (K : Type) where
  mu : ℕ
  blend : Bool
  alpha : K
  cxpb : K
  mutpb : K
  smin : K
  smax : K

/-- `hyperparam['mu'] if 'mu' in hyperparam else int(npop/2)`, `ppoes.py` line 118. -/
def muOf (c : Conf K) (mu : Option ℕ) : ℕ := mu.getD (c.npop / 2)

/-- The ES that `PPOES.evolute` builds, `ppoes.py` lines 231-233; ES defaults `alpha=0.5`, `clip=True`. -/
def esConf (c : Conf K) (a : EsArgs K) (ngen : ℕ) : ES.Conf K :=
  { S := space c.orig, lam := c.npop, mu := a.mu, ngen := ngen, blend := a.blend, alpha := 1 / 2, cxpb := a.cxpb, mutpb := a.mutpb, smin := a.smin,
    smax := a.smax, clip := true }

/-- Random choices of a run of `PPOES.evolute`. -/
structure EsDraws (K : Type) where
  idx : ℕ → ℕ
  smp : ℕ → ℕ → ℕ
  dr : ℕ → ℕ → ES.Draw K
  strat : ℕ → List K
  pop0 : List (List K)

/-- `PPOES.evolute`, `ppoes.py` lines 205-242.  The `ValueError` of `random.sample` for too few RL rows, raised in the first generation, is raised
before it here. -/
def ppoes (c : Conf K) (a : EsArgs K) (ngen : ℕ) (d : EsDraws K) (f : List K → K) (o : Obj K) : Py (ES.Result K) :=
  if o.flag = false then .error .valueError else
  match o.data with
  | none => .error .attributeError
  | some rows =>
    match start c d.idx d.pop0 rows with
    | .error e => .error e
    | .ok pop =>
      match numRows rows with
      | .error e => .error e
      | .ok data =>
        if ngen ≠ 0 ∧ data.length < c.npopRl then .error .valueError else
        ES.evolute (esConf c a ngen) c.minMode f d.dr (fun g => (List.range c.npopRl).filterMap (fun i => data[d.smp g i % data.length]?))
          (pop.mapIdx (fun i x => (x, d.strat i)))

/-! ### Lemmas -/

theorem genRL_eq {c : DE.Conf K} {ord : List K → List ℕ} {nrl : ℕ} {smp : ℕ → ℕ} {data : List (List K)} {fit : List K → K} {dr : ℕ → DE.Draw K}
    {s s' : DE.State K} (h : genRL c ord nrl smp data fit dr s = .ok s') :
    ∃ s1 rl, DE.gen c fit dr [] s = .ok s1 ∧ mixRows ord nrl smp data (s1.sel.map Prod.snd) = .ok rl ∧ s' = { s1 with pop := DE.mix rl s1.pop } ∧
      DE.gen c fit dr rl s = .ok s' := by
  unfold genRL at h
  split at h
  · cases h
  · rename_i s1 h1
    split at h
    · cases h
    · rename_i rl hr
      cases h
      refine ⟨s1, rl, h1, hr, rfl, ?_⟩
      obtain ⟨targets, trials, b, hs, hb, rfl⟩ := DE.gen_ok h1
      simp only [DE.gen, hs, hb]
      rfl

theorem mixRows_ok {ord : List K → List ℕ} {nrl : ℕ} {smp : ℕ → ℕ} {data : List (List K)} {scores : List K} {rl : List (ℕ × List K)}
    (h : mixRows ord nrl smp data scores = .ok rl) :
    nrl ≤ data.length ∧ (∀ i x, (i, x) ∈ rl → x ∈ data) ∧ ∀ i ∈ rl.map Prod.fst, i ∈ (ord scores).take nrl := by
  unfold mixRows at h
  split_ifs at h with h1
  cases h
  refine ⟨by omega, ?_, ?_⟩
  · intro i x hx
    have := (List.of_mem_zip hx).2
    obtain ⟨j, _, hj⟩ := List.mem_filterMap.1 this
    exact List.mem_of_getElem? hj
  · intro i hi
    obtain ⟨p, hp, rfl⟩ := List.mem_map.1 hi
    exact (List.of_mem_zip (show (p.1, p.2) ∈ _ from hp)).1

theorem mix_get {rl : List (ℕ × List K)} {pop : List (List K)} {i : ℕ} (h : i ∉ rl.map Prod.fst) : (DE.mix rl pop)[i]? = pop[i]? := by
  induction rl generalizing pop with
  | nil => rfl
  | cons p rl ih =>
    obtain ⟨k, x⟩ := p
    simp only [List.map_cons, List.mem_cons, not_or] at h
    simp only [DE.mix]
    rw [ih h.2, List.getElem?_set_ne (Ne.symm h.1)]

/-- The rows mixed in after each generation of an RL-mode run. -/
def rlOf (c : DE.Conf K) (ord : List K → List ℕ) (nrl : ℕ) (smp : ℕ → ℕ → ℕ) (data : List (List K)) (fit : List K → K)
    (dr : ℕ → ℕ → DE.Draw K) (pop0 : List (List K)) (g : ℕ) : List (ℕ × List K) :=
  match runRL c ord nrl smp data fit dr pop0 g with
  | .error _ => []
  | .ok s =>
    match DE.gen c fit (dr g) [] s with
    | .error _ => []
    | .ok s1 =>
      match mixRows ord nrl (smp g) data (s1.sel.map Prod.snd) with
      | .error _ => []
      | .ok rl => rl

/-- Refinement: an RL-mode run is a run of the DE model with these rows. -/
theorem runRL_run {c : DE.Conf K} {ord : List K → List ℕ} {nrl : ℕ} {smp : ℕ → ℕ → ℕ} {data : List (List K)} {fit : List K → K}
    {dr : ℕ → ℕ → DE.Draw K} {pop0 : List (List K)} {g : ℕ} {s : DE.State K} (h : runRL c ord nrl smp data fit dr pop0 g = .ok s) :
    DE.run c fit dr (rlOf c ord nrl smp data fit dr pop0) pop0 g = .ok s := by
  induction g generalizing s with
  | zero => exact h
  | succ g ih =>
    simp only [runRL] at h
    split at h
    · cases h
    · rename_i s0 h0
      obtain ⟨s1, rl, h1, h2, h3, h4⟩ := genRL_eq h
      simp only [DE.run, ih h0]
      have : rlOf c ord nrl smp data fit dr pop0 g = rl := by
        unfold rlOf
        simp only [h0, h1, h2]
      rw [this]
      exact h4

theorem rlOf_mem {c : DE.Conf K} {ord : List K → List ℕ} {nrl : ℕ} {smp : ℕ → ℕ → ℕ} {data : List (List K)} {fit : List K → K}
    {dr : ℕ → ℕ → DE.Draw K} {pop0 : List (List K)} {g i : ℕ} {x : List K} (h : (i, x) ∈ rlOf c ord nrl smp data fit dr pop0 g) : x ∈ data := by
  unfold rlOf at h
  split at h
  · cases h
  · split at h
    · cases h
    · split at h
      · cases h
      · rename_i rl hr
        exact (mixRows_ok hr).2.1 i x h

theorem finish_run {c : DE.Conf K} {m : Bool} {f : List K → K} {dr : ℕ → ℕ → DE.Draw K} {rl : ℕ → List (ℕ × List K)} {pop0 : List (List K)}
    {s : DE.State K} (h : DE.run c (if m then (fun x => -f x) else f) dr rl pop0 c.ngen = .ok s) :
    DE.evolute c m f dr rl pop0 = finish m s := by
  unfold DE.evolute finish
  simp only [h]
  cases hl : s.last with
  | none => rfl
  | some b => cases m <;> rfl

/-- `argsort`: a permutation of the indices that puts the scores in ascending order. -/
def ArgsortOK (ord : List K → List ℕ) : Prop :=
  ∀ l : List K, (ord l).Perm (List.range l.length) ∧
    (ord l).Pairwise (fun i j => ∀ a b, l[i]? = some a → l[j]? = some b → a ≤ b)

/-- `sort_values`: a permutation of the rows in the order of the scores, best first. -/
def SortOK (srt : Bool → List (Row K × K) → List (Row K × K)) : Prop :=
  ∀ m l, (srt m l).Perm l ∧ (srt m l).Pairwise (fun p q => NotWorse m q.2 p.2)

theorem nums_length {r : Row K} {x : List K} (h : nums r = .ok x) : x.length = r.length := by
  induction r generalizing x with
  | nil => cases h; rfl
  | cons v vs ih =>
    simp only [nums] at h
    split at h
    · cases h
    · split at h
      · cases h
      · rename_i r hr
        cases h
        simp [ih hr]

theorem numRows_get {rs : List (Row K)} {xs : List (List K)} (h : numRows rs = .ok xs) :
    xs.length = rs.length ∧ ∀ (i : ℕ) r, rs[i]? = some r → ∃ x, nums r = .ok x ∧ xs[i]? = some x := by
  induction rs generalizing xs with
  | nil => cases h; simp
  | cons r rs ih =>
    simp only [numRows] at h
    split at h
    · cases h
    · rename_i x hx
      split at h
      · cases h
      · rename_i ys hy
        cases h
        obtain ⟨h1, h2⟩ := ih hy
        refine ⟨by simp [h1], ?_⟩
        intro i q hq
        cases i with
        | zero => simp at hq; subst hq; exact ⟨x, hx, rfl⟩
        | succ i => simp at hq; obtain ⟨y, e1, e2⟩ := h2 i q hq; exact ⟨y, e1, by simpa using e2⟩

theorem startRows_ok {npop : ℕ} {idx : ℕ → ℕ} {data rows : List (Row K)} (h : startRows npop idx data = .ok rows) :
    rows.length = npop ∧ data ≠ [] ∧ ∀ (i : ℕ) r, rows[i]? = some r → data[idx i % data.length]? = some r := by
  unfold startRows at h
  split_ifs at h with h0
  cases h
  have hg : ∀ i, ∃ r, data[idx i % data.length]? = some r := fun i =>
    ⟨_, List.getElem?_eq_getElem (Nat.mod_lt _ (Nat.pos_of_ne_zero h0))⟩
  have key : ∀ n, (List.range n).filterMap (fun i => data[idx i % data.length]?) =
      (List.range n).map (fun i => data[idx i % data.length]'(Nat.mod_lt _ (Nat.pos_of_ne_zero h0))) := by
    intro n
    rw [← List.filterMap_eq_map]
    apply List.filterMap_congr
    intro i _
    simp [List.getElem?_eq_getElem (Nat.mod_lt (idx i) (Nat.pos_of_ne_zero h0))]
  refine ⟨by rw [key]; simp, by intro e; rw [e] at h0; exact h0 rfl, ?_⟩
  intro i r hr
  rw [key, List.getElem?_map] at hr
  obtain ⟨k, hk, rfl⟩ := Option.map_eq_some_iff.1 hr
  obtain ⟨h1, h2⟩ := List.getElem?_eq_some_iff.1 hk
  rw [List.getElem_range] at h2
  subst h2
  exact List.getElem?_eq_getElem _

theorem initPop_get {bs : Bounds K} {rs : List (Row K)} {xs : List (List K)} (h : initPop bs rs = .ok xs) :
    xs.length = rs.length ∧ ∀ (i : ℕ) r, rs[i]? = some r → checkIndv bs r = .ok () ∧
      ∃ e x, (if hasGrid bs = true then encodeIndv (encodeBounds bs).2 bs r else .ok r) = .ok e ∧ nums e = .ok x ∧ xs[i]? = some x := by
  induction rs generalizing xs with
  | nil => cases h; simp
  | cons r rs ih =>
    simp only [initPop] at h
    split at h
    · cases h
    · rename_i hc
      split at h
      · cases h
      · rename_i e he
        split at h
        · cases h
        · rename_i x hx
          split at h
          · cases h
          · rename_i ys hy
            cases h
            obtain ⟨h1, h2⟩ := ih hy
            refine ⟨by simp [h1], ?_⟩
            intro i q hq
            cases i with
            | zero => simp at hq; subst hq; exact ⟨hc, e, x, he, hx, rfl⟩
            | succ i =>
              simp at hq
              obtain ⟨g1, e', y, g2, g3, g4⟩ := h2 i q hq
              exact ⟨g1, e', y, g2, g3, by simpa using g4⟩

end
end Neorl.Informed

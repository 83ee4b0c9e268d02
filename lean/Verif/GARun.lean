import Verif.Variation

/-!
# The genetic algorithm started from an input file

Model of `neorl/evolu/runners/ga.py` (`GAAgent`) with the operators of `neorl/evolu/crossover.py` it calls.  The fitness `env.fit` is a
parameter.  Not modelled: the plots of the callback, the printed statistics of the strategies, the process pool (serial and parallel
evaluation give the same values in the same order), `kbs_append` (always false).
-/

set_option linter.unusedSectionVars false
set_option linter.unusedVariables false

namespace Neorl.GARun

open ES (Ind select cx2point fold MutDraw)

/-- The entries of `type`: `int`, `float`, `grid` or any other text. -/
inductive Ty
  | int | float | grid | other
  deriving DecidableEq, Repr

section
variable {K : Type} [Field K] [LinearOrder K] [IsStrictOrderedRing K] [FloorRing K]

/-- One parameter: type, lower bound, upper bound. -/
structure Par (K : Type) where
  ty : Ty
  lo : K
  hi : K

/-- The agent after `__init__`, `neorl/evolu/runners/ga.py` lines 54-112. -/
structure Conf (K : Type) where
  pars : List (Par K)
  mu : ℕ
  lam : ℕ
  ngen : ℕ
  freq : ℕ
  cxpb : K
  mutpb : K
  smin : K
  smax : K
  /-- `self.kbs_data` in KBS mode (a `kbs_path` was given) -/
  kbs : Option (List (List K))
  /-- `self.kbs_pop` -/
  kbsPop : ℕ

/-- The GA card of the input file, `neorl/parsers/ParamList.py` lines 221-242. -/
structure Card (K : Type) where
  lb : Option (List K)
  ub : Option (List K)
  ty : Option (List Ty)
  pop : ℕ
  lam : Option ℕ
  ngen : ℕ
  freq : ℕ
  cxpb : K
  mutpb : K
  smin : K
  smax : K
  kbs : Option (List (List K))
  kbsFrac : K

/-- `__init__`, lines 54-112: `lambda` defaults to `pop` (also when zero), `len(None)` raises, lengths must agree. -/
def construct (a : Card K) : Py (Conf K) :=
  let lam := match a.lam with
    | none => a.pop
    | some l => if l = 0 then a.pop else l
  match a.lb, a.ub, a.ty with
  | some lb, some ub, ty? =>
    if lb.length ≠ ub.length then .error .assertion else
    match ty? with
    | none => .error .typeError
    | some ty =>
      if lb.length ≠ ty.length then .error .assertion else
      .ok { pars := List.zipWith (fun t b => ⟨t, b.1, b.2⟩) ty (List.zip lb ub), mu := a.pop, lam := lam, ngen := a.ngen, freq := a.freq,
            cxpb := a.cxpb, mutpb := a.mutpb, smin := a.smin, smax := a.smax, kbs := a.kbs,
            kbsPop := (truncZ (a.kbsFrac * (lam : K))).toNat }
  | _, _, _ => .error .typeError

/-- Draws of `GenES`: numbers for `random.uniform`, for `random.randint`, the row of the data set, the strategies. -/
structure InitDraw (K : Type) where
  u : ℕ → K
  z : ℕ → ℕ
  row : ℕ
  s : ℕ → K

/-- One parameter of `GenES`, lines 140-148.  `random.randint` of the Python versions the project supports accepts a float only with an
integral value; `random.sample` of a number raises `TypeError`; `raise Exception` is reported as `runtimeError`. -/
def genCoord (d : InitDraw K) (i : ℕ) (p : Par K) : Py K :=
  match p.ty with
  | .int =>
    if ((⌊p.lo⌋ : ℤ) : K) = p.lo ∧ ((⌊p.hi⌋ : ℤ) : K) = p.hi ∧ p.lo ≤ p.hi then
      .ok ((⌊p.lo⌋ + ((d.z i % ((⌊p.hi⌋ - ⌊p.lo⌋).toNat + 1) : ℕ) : ℤ) : ℤ) : K)
    else .error .valueError
  | .float => .ok (p.lo + (p.hi - p.lo) * d.u i)
  | .grid => .error .typeError
  | .other => .error .runtimeError

/-- `GenES`, lines 125-152. -/
def genES (c : Conf K) (d : InitDraw K) : Py (List K × List K) :=
  let strat := (List.range c.pars.length).map fun i => c.smin + (c.smax - c.smin) * d.s i
  match c.kbs with
  | some rows =>
    if rows.length > c.lam then
      match rows[d.row % rows.length]? with
      | some r => .ok (r, strat)
      | none => .error .indexError
    else .error .assertion
  | none =>
    match mapRows (genCoord d) 0 c.pars with
    | .error e => .error e
    | .ok v => .ok (v, strat)

/-- `init_pop`, lines 154-196, with `warmup = lambda_`. -/
def initPop (c : Conf K) (fit : List K → K) (d : ℕ → InitDraw K) : Py (List (Ind K)) :=
  match mapRows (fun _ i => genES c (d i)) 0 (List.range c.lam) with
  | .error e => .error e
  | .ok l => .ok (l.map fun o => { ind := o.1, strat := o.2, fit := fit o.1 })

/-- One coordinate of `mutES`, `neorl/evolu/crossover.py` lines 145-184: value `xs.1`, strategy `xs.2`.  The list of choices runs from
`int(lb)` to `int(ub + 1) - 1`; `choices.remove` compares by value, so a value that is not an integer of the range raises. -/
def mutCoord (c : Conf K) (d : MutDraw K) (i : ℕ) (xs : K × K) : Py (K × K) :=
  match c.pars[i]? with
  | none => .error .indexError
  | some p =>
    match p.ty with
    | .int =>
      let s := fold c.smin c.smax (1 / (1 + (1 - xs.2) / xs.2 * d.e i))
      if d.t i < s then
        if truncZ p.lo = truncZ p.hi then .ok (((truncZ p.lo : ℤ) : K), s)
        else
          let top := truncZ (p.hi + 1) - 1
          if ((⌊xs.1⌋ : ℤ) : K) = xs.1 then
            match flipChoice (truncZ p.lo) top ⌊xs.1⌋ (d.pick i % (top - truncZ p.lo).toNat) with
            | .error e => .error e
            | .ok z => .ok ((z : K), s)
          else .error .valueError
      else .ok (xs.1, s)
    | .float =>
      let s := xs.2 * d.e i
      let x := xs.1 + s * d.g i
      let x := if x < p.lo then p.lo else x
      .ok (if x > p.hi then p.hi else x, s)
    | _ => .error .runtimeError

/-- `mutES`, `neorl/evolu/crossover.py` lines 119-188.  (`strat` has one entry per parameter; a vector of a data set with more entries than
parameters raises `IndexError` at `datatype[i]`, one with fewer leaves the strategy's tail alone.) -/
def mutES (c : Conf K) (d : MutDraw K) (ind strat : List K) : Py (List K × List K) :=
  if strat.length < ind.length then .error .indexError else
  match mapRows (mutCoord c d) 0 (List.zip ind strat) with
  | .error e => .error e
  | .ok l => .ok (l.map (fun p => p.1), l.map (fun p => p.2) ++ strat.drop ind.length)

/-- Draws for one offspring. -/
structure Draw (K : Type) where
  alpha : K
  i1 : ℕ
  i2 : ℕ
  a : ℕ
  b : ℕ
  md : MutDraw K

/-- One offspring of `GenOffspring`, lines 213-245.  `random.sample` of two indices and `random.choice` are reduced to arbitrary numbers. -/
def genOne (c : Conf K) (pop : List (Ind K)) (d : Draw K) : Py (List K × List K) :=
  let n := pop.length
  if d.alpha < c.cxpb then
    if n < 2 then .error .valueError else
    let k1 := d.i1 % n
    let k2 := (k1 + 1 + d.i2 % (n - 1)) % n
    match pop[k1]?, pop[k2]? with
    | some p, some q =>
      match cx2point d.a d.b p.ind q.ind p.strat q.strat with
      | .error e => .error e
      | .ok r => .ok (r.1.1, r.2.1)
    | _, _ => .error .indexError
  else
    match pop[d.i1 % n]? with
    | none => .error .indexError
    | some p => if d.alpha < c.cxpb + c.mutpb then mutES c d.md p.ind p.strat else .ok (p.ind, p.strat)

/-- `GenOffspring`, lines 198-247. -/
def genOffspring (c : Conf K) (d : ℕ → Draw K) (pop : List (Ind K)) : Py (List (List K × List K)) :=
  mapRows (fun _ i => genOne c pop (d i)) 0 (List.range c.lam)

/-- `population[last_index-i][0]=ind_vec` for the chosen rows, lines 317-334: from the end of the population backwards.  A key below zero
makes a new empty entry, whose assignment raises. -/
def replLast (rows : List (List K)) (pop : List (Ind K)) : Py (List (Ind K)) :=
  if pop = [] then .error .indexError
  else if rows.length > pop.length then .error .indexError
  else
    let rev := pop.reverse
    .ok ((List.zipWith (fun r (e : Ind K) => { e with ind := r }) rows rev) ++ rev.drop rows.length).reverse

/-- The KBS block of a generation, lines 313-334; `pick` lists the drawn row numbers (`random.sample`: different, `kbs_pop` of them). -/
def kbsStep (c : Conf K) (pick : List ℕ) (pop : List (Ind K)) : Py (List (Ind K)) :=
  match c.kbs with
  | none => .ok pop
  | some rows =>
    if c.kbsPop > rows.length then .error .valueError
    else replLast ((pick.take c.kbsPop).map fun k => (rows[k]?).getD []) pop

/-- A printed report: generation, best reward, mean reward (lines 300-310, before rounding). -/
structure Report (K : Type) where
  gen : ℕ
  best : K
  mean : K
  deriving DecidableEq

/-- `np.max` and `np.mean` of the kept rewards; `np.max` of nothing raises. -/
def report (g : ℕ) (pop : List (Ind K)) : Py (Report K) :=
  match pop.map (fun e => e.fit) with
  | [] => .error .valueError
  | f :: fs => .ok { gen := g, best := fs.foldl max f, mean := (f + fs.sum) / ((fs.length : K) + 1) }

/-- State between generations; `log` lists all evaluations in order (ghost). -/
structure State (K : Type) where
  pop : List (Ind K)
  log : List (List K × K)
  reports : List (Report K)

/-- Lines 288-310: report when due.  `freq = 0` divides by zero. -/
def monitor (c : Conf K) (g : ℕ) (pop : List (Ind K)) (rs : List (Report K)) : Py (List (Report K)) :=
  if c.freq = 0 then .error .zeroDivision
  else if g % c.freq = 0 ∨ g = c.ngen then
    match report g pop with
    | .error e => .error e
    | .ok r => .ok (rs ++ [r])
  else .ok rs

/-- One generation `g`, lines 261-334. -/
def gen (c : Conf K) (fit : List K → K) (g : ℕ) (d : ℕ → Draw K) (pick : List ℕ) (s : State K) : Py (State K) :=
  match genOffspring c d s.pop with
  | .error e => .error e
  | .ok os =>
    let off : List (Ind K) := os.map fun o => { ind := o.1, strat := o.2, fit := fit o.1 }
    let kept := select c.mu off
    match monitor c g kept s.reports with
    | .error e => .error e
    | .ok rs =>
      match kbsStep c pick kept with
      | .error e => .error e
      | .ok pop => .ok { pop := pop, log := s.log ++ off.map (fun e => (e.ind, e.fit)), reports := rs }

/-- `build`, lines 338-350: the initial population and generations `1 .. n` (the agent runs `n = ngen`).  `build` drops what `evolute`
returns. -/
def run (c : Conf K) (fit : List K → K) (d0 : ℕ → InitDraw K) (d : ℕ → ℕ → Draw K) (pick : ℕ → List ℕ) : ℕ → Py (State K)
  | 0 =>
    match initPop c fit d0 with
    | .error e => .error e
    | .ok p => .ok { pop := p, log := p.map (fun e => (e.ind, e.fit)), reports := [] }
  | n + 1 =>
    match run c fit d0 d pick n with
    | .error e => .error e
    | .ok s => gen c fit (n + 1) (d (n + 1)) (pick (n + 1)) s

/-! ### Specification of a feasible vector -/

/-- Every parameter has a value within its bounds, an integer one if the type is `int`. -/
def Good (c : Conf K) (v : List K) : Prop :=
  v.length = c.pars.length ∧ ∀ (i : ℕ) (x : K) (p : Par K), v[i]? = some x → c.pars[i]? = some p →
    p.lo ≤ x ∧ x ≤ p.hi ∧ (p.ty = .int → ∃ z : ℤ, x = z)

/-- Sensible parameters: ordered bounds, integer bounds for `int`, no other types than `int` and `float`. -/
def ParsOK (c : Conf K) : Prop :=
  ∀ p ∈ c.pars, p.lo ≤ p.hi ∧ (p.ty = .int → ∃ l u : ℤ, p.lo = l ∧ p.hi = u) ∧ (p.ty = .int ∨ p.ty = .float)

/-! ### Lemmas -/

/-- A population of feasible vectors with a strategy per parameter. -/
def PopOK (c : Conf K) (pop : List (Ind K)) : Prop := ∀ e ∈ pop, Good c e.ind ∧ e.strat.length = c.pars.length

theorem mapRows_range {Y : Type} {f : ℕ → Py Y} {n : ℕ} {ys : List Y} (h : mapRows (fun _ i => f i) 0 (List.range n) = .ok ys) :
    ys.length = n ∧ ∀ (k : ℕ) (y : Y), ys[k]? = some y → f k = .ok y := by
  obtain ⟨h1, h2⟩ := mapRows_ok h
  refine ⟨by simpa using h1, fun k y hk => ?_⟩
  obtain ⟨x, hx, hf⟩ := h2 k y hk
  rw [List.getElem?_range] at hx
  · cases hx; exact hf
  · have := (List.getElem?_eq_some_iff.1 hk).1
    simpa [h1] using this

theorem genCoord_ok {d : InitDraw K} (hu : ∀ i, 0 ≤ d.u i ∧ d.u i ≤ 1) {i : ℕ} {p : Par K} (hp : p.lo ≤ p.hi) {x : K}
    (h : genCoord d i p = .ok x) : p.lo ≤ x ∧ x ≤ p.hi ∧ (p.ty = .int → ∃ z : ℤ, x = z) := by
  unfold genCoord at h
  split at h
  · split_ifs at h with hc
    cases h
    obtain ⟨h1, h2, h3⟩ := hc
    have hm : d.z i % ((⌊p.hi⌋ - ⌊p.lo⌋).toNat + 1) < (⌊p.hi⌋ - ⌊p.lo⌋).toNat + 1 := Nat.mod_lt (d.z i) (Nat.succ_pos _)
    have hf := Int.floor_mono h3
    generalize d.z i % ((⌊p.hi⌋ - ⌊p.lo⌋).toNat + 1) = k at hm ⊢
    refine ⟨?_, ?_, fun _ => ⟨_, rfl⟩⟩
    · conv_lhs => rw [← h1]
      have : ⌊p.lo⌋ ≤ ⌊p.lo⌋ + (k : ℤ) := by omega
      exact_mod_cast this
    · conv_rhs => rw [← h2]
      have : ⌊p.lo⌋ + (k : ℤ) ≤ ⌊p.hi⌋ := by omega
      exact_mod_cast this
  · rename_i ht
    cases h
    obtain ⟨u1, u2⟩ := hu i
    refine ⟨?_, ?_, fun h => by rw [ht] at h; cases h⟩ <;> nlinarith
  · cases h
  · cases h

theorem genES_ok {c : Conf K} (hP : ParsOK c) (hk : ∀ rows, c.kbs = some rows → ∀ r ∈ rows, Good c r) {d : InitDraw K}
    (hu : ∀ i, 0 ≤ d.u i ∧ d.u i ≤ 1) {o : List K × List K} (h : genES c d = .ok o) : Good c o.1 ∧ o.2.length = c.pars.length := by
  unfold genES at h
  simp only at h
  split at h
  · rename_i rows hr
    split_ifs at h
    split at h
    · rename_i r hrr
      cases h
      exact ⟨hk rows hr r (List.mem_of_getElem? hrr), by simp⟩
    · cases h
  · split at h
    · cases h
    · rename_i v hv
      cases h
      obtain ⟨h1, h2⟩ := mapRows_ok hv
      refine ⟨⟨h1, fun i x p hx hp => ?_⟩, by simp⟩
      obtain ⟨p', hp', hf⟩ := h2 i x hx
      rw [hp] at hp'; cases hp'
      exact genCoord_ok hu (hP p (List.mem_of_getElem? hp)).1 hf

theorem mutCoord_ok {c : Conf K} (hP : ParsOK c) {d : MutDraw K} {i : ℕ} {xs ys : K × K} (h : mutCoord c d i xs = .ok ys) {p : Par K}
    (hp : c.pars[i]? = some p) (hx : p.lo ≤ xs.1 ∧ xs.1 ≤ p.hi ∧ (p.ty = .int → ∃ z : ℤ, xs.1 = z)) :
    p.lo ≤ ys.1 ∧ ys.1 ≤ p.hi ∧ (p.ty = .int → ∃ z : ℤ, ys.1 = z) := by
  obtain ⟨q1, q2, q3⟩ := hP p (List.mem_of_getElem? hp)
  simp only [mutCoord, hp] at h
  split at h
  · rename_i ht
    obtain ⟨l, u, e1, e2⟩ := q2 ht
    have t1 : truncZ p.lo = l := by rw [e1, truncZ_intCast]
    have t2 : truncZ p.hi = u := by rw [e2, truncZ_intCast]
    have t3 : truncZ (p.hi + 1) - 1 = u := by
      rw [e2, show (u : K) + 1 = ((u + 1 : ℤ) : K) by push_cast; ring, truncZ_intCast]; ring
    split_ifs at h with h1 h2 h3
    · cases h
      simp only [t1]
      exact ⟨e1.le, e1 ▸ q1, fun _ => ⟨_, rfl⟩⟩
    · split at h
      · cases h
      · rename_i z hz
        cases h
        rw [t1, t3] at hz
        obtain ⟨-, -, g1, g2, -⟩ := flipChoice_ok hz
        refine ⟨?_, ?_, fun _ => ⟨_, rfl⟩⟩
        · show p.lo ≤ (z : K); rw [e1]; exact_mod_cast g1
        · show (z : K) ≤ p.hi; rw [e2]; exact_mod_cast g2
    · cases h; exact hx
  · rename_i ht
    cases h
    refine ⟨?_, ?_, fun h => by rw [ht] at h; cases h⟩
    · simp only; split_ifs <;> first | assumption | exact le_refl _ | (simp only [not_lt] at *; linarith)
    · simp only; split_ifs <;> first | exact le_refl _ | exact not_lt.1 (by assumption)
  · cases h

theorem mutES_good {c : Conf K} (hP : ParsOK c) {d : MutDraw K} {v s : List K} (hv : Good c v) (hs : s.length = c.pars.length)
    {o : List K × List K} (h : mutES c d v s = .ok o) : Good c o.1 ∧ o.2.length = c.pars.length := by
  unfold mutES at h
  split_ifs at h with h0
  split at h
  · cases h
  · rename_i l hl
    cases h
    obtain ⟨h1, h2⟩ := mapRows_ok hl
    have hlen : l.length = c.pars.length := by rw [h1, List.length_zip, hv.1, hs, min_self]
    refine ⟨⟨by simp [hlen], fun i x p hx hp => ?_⟩, by simp [hlen, hs, hv.1]⟩
    rw [List.getElem?_map] at hx
    cases e : l[i]? with
    | none => rw [e] at hx; cases hx
    | some y =>
      rw [e] at hx; cases hx
      obtain ⟨xs, hxs, hf⟩ := h2 i y e
      rw [Nat.zero_add] at hf
      have hx1 : v[i]? = some xs.1 := by
        rw [List.getElem?_zip_eq_some] at hxs; exact hxs.1
      exact mutCoord_ok hP hf hp (hv.2 i xs.1 p hx1 hp)

theorem cx_parts {a b : ℕ} {i1 i2 s1 s2 : List K} {r : (List K × List K) × (List K × List K)} {n : ℕ} (h : cx2point a b i1 i2 s1 s2 = .ok r)
    (l1 : i1.length = n) (l2 : i2.length = n) (l3 : s1.length = n) (l4 : s2.length = n) :
    ∃ p q, 1 ≤ p ∧ p < q ∧ q ≤ n ∧ r.1.1.length = n ∧ r.2.1.length = n ∧
      (∀ i : ℕ, r.1.1[i]? = if p ≤ i ∧ i < q then i2[i]? else i1[i]?) ∧ (∀ i : ℕ, r.2.1[i]? = if p ≤ i ∧ i < q then s2[i]? else s1[i]?) := by
  unfold cx2point at h
  split at h
  · cases h
  · rename_i p q hpq
    cases h
    obtain ⟨h1, h2, h3⟩ := ES.cxPoints_ok hpq
    rw [l1, l2, min_self] at h3
    refine ⟨p, q, h1, h2, h3, ?_, ?_, ?_, ?_⟩
    · rw [ES.length_slice (l1.trans l2.symm) h2.le (by omega), l1]
    · rw [ES.length_slice (l3.trans l4.symm) h2.le (by omega), l3]
    · exact ES.slice_getElem? (l1.trans l2.symm) h2.le (by omega)
    · exact ES.slice_getElem? (l3.trans l4.symm) h2.le (by omega)

theorem genOne_good {c : Conf K} (hP : ParsOK c) {pop : List (Ind K)} (hp : PopOK c pop) {d : Draw K} {o : List K × List K}
    (h : genOne c pop d = .ok o) : Good c o.1 ∧ o.2.length = c.pars.length := by
  unfold genOne at h
  simp only at h
  split_ifs at h with h1 h2
  · split at h
    · rename_i p q ep eq
      obtain ⟨gp, lp⟩ := hp p (List.mem_of_getElem? ep)
      obtain ⟨gq, lq⟩ := hp q (List.mem_of_getElem? eq)
      split at h
      · cases h
      · rename_i r hr
        cases h
        obtain ⟨a, b, -, -, -, r1, r2, r3, -⟩ := cx_parts hr gp.1 gq.1 lp lq
        refine ⟨⟨r1, fun i x pr hx hpr => ?_⟩, r2⟩
        rw [r3] at hx
        split_ifs at hx
        · exact gq.2 i x pr hx hpr
        · exact gp.2 i x pr hx hpr
    · cases h
  · split at h
    · cases h
    · rename_i p ep
      obtain ⟨gp, lp⟩ := hp p (List.mem_of_getElem? ep)
      exact mutES_good hP gp lp h
  · split at h
    · cases h
    · rename_i p ep
      cases h
      exact hp p (List.mem_of_getElem? ep)

theorem mem_select {k : ℕ} {l : List (Ind K)} {e : Ind K} (h : e ∈ select k l) : e ∈ l := mem_sortDesc.1 (List.mem_of_mem_take h)

theorem length_replLast {rows : List (List K)} {pop pop' : List (Ind K)} (h : replLast rows pop = .ok pop') : pop'.length = pop.length := by
  unfold replLast at h
  split_ifs at h with h1 h2
  cases h
  simp; omega

theorem mem_replLast {rows : List (List K)} {pop pop' : List (Ind K)} (h : replLast rows pop = .ok pop') {e : Ind K} (he : e ∈ pop') :
    ∃ e' ∈ pop, e.strat = e'.strat ∧ e.fit = e'.fit ∧ (e.ind = e'.ind ∨ e.ind ∈ rows) := by
  unfold replLast at h
  split_ifs at h with h1 h2
  cases h
  rw [List.mem_reverse, List.mem_append] at he
  rcases he with he | he
  · obtain ⟨k, hk⟩ := List.mem_iff_getElem?.1 he
    rw [List.getElem?_zipWith] at hk
    cases h1 : rows[k]? with
    | none => rw [h1] at hk; cases hk
    | some r =>
      cases h2 : pop.reverse[k]? with
      | none => rw [h1, h2] at hk; cases hk
      | some e' =>
        rw [h1, h2] at hk; cases hk
        exact ⟨e', List.mem_reverse.1 (List.mem_of_getElem? h2), rfl, rfl, Or.inr (List.mem_of_getElem? h1)⟩
  · exact ⟨e, List.mem_reverse.1 (List.mem_of_mem_drop he), rfl, rfl, Or.inl rfl⟩

/-- `random.sample(range(n), k)`. -/
def PickOK (c : Conf K) (pick : List ℕ) : Prop :=
  ∀ rows, c.kbs = some rows → pick.length = c.kbsPop ∧ pick.Nodup ∧ ∀ k ∈ pick, k < rows.length

theorem kbsStep_ok {c : Conf K} {pick : List ℕ} (hpk : PickOK c pick) (hk : ∀ rows, c.kbs = some rows → ∀ r ∈ rows, Good c r)
    {pop pop' : List (Ind K)} (hp : PopOK c pop) (h : kbsStep c pick pop = .ok pop') : PopOK c pop' := by
  unfold kbsStep at h
  split at h
  · cases h; exact hp
  · rename_i rows hr
    split_ifs at h
    intro e he
    obtain ⟨e', he', h1, h2, h3⟩ := mem_replLast h he
    refine ⟨?_, by rw [h1]; exact (hp e' he').2⟩
    rcases h3 with h3 | h3
    · rw [h3]; exact (hp e' he').1
    · obtain ⟨k, hk', hke⟩ := List.mem_map.1 h3
      obtain ⟨-, -, g3⟩ := hpk rows hr
      have hlt := g3 k (List.mem_of_mem_take hk')
      rw [List.getElem?_eq_getElem hlt] at hke
      rw [← hke]
      exact hk rows hr _ (List.getElem_mem hlt)

theorem gen_split {c : Conf K} {fit : List K → K} {g : ℕ} {d : ℕ → Draw K} {pick : List ℕ} {s s' : State K}
    (h : gen c fit g d pick s = .ok s') : ∃ os, genOffspring c d s.pop = .ok os ∧
      (∃ off : List (Ind K), off = os.map (fun o => { ind := o.1, strat := o.2, fit := fit o.1 }) ∧
        monitor c g (select c.mu off) s.reports = .ok s'.reports ∧ kbsStep c pick (select c.mu off) = .ok s'.pop ∧
        s'.log = s.log ++ off.map (fun e => (e.ind, e.fit))) := by
  unfold gen at h
  split at h
  · cases h
  · rename_i os hos
    simp only at h
    split at h
    · cases h
    · rename_i rs hrs
      split at h
      · cases h
      · rename_i pop hpop
        cases h
        exact ⟨os, hos, _, rfl, hrs, hpop, rfl⟩

/-- The invariant of a run. -/
theorem run_inv {c : Conf K} (hP : ParsOK c) (hk : ∀ rows, c.kbs = some rows → ∀ r ∈ rows, Good c r) {fit : List K → K}
    {d0 : ℕ → InitDraw K} (hu : ∀ j i, 0 ≤ (d0 j).u i ∧ (d0 j).u i ≤ 1) {d : ℕ → ℕ → Draw K} {pick : ℕ → List ℕ}
    (hpk : ∀ g, PickOK c (pick g)) {n : ℕ} {s : State K} (h : run c fit d0 d pick n = .ok s) :
    PopOK c s.pop ∧ ∀ e ∈ s.log, Good c e.1 ∧ e.2 = fit e.1 := by
  induction n generalizing s with
  | zero =>
    simp only [run] at h
    split at h
    · cases h
    · rename_i p hp
      cases h
      unfold initPop at hp
      split at hp
      · cases hp
      · rename_i l hl
        cases hp
        obtain ⟨-, h2⟩ := mapRows_range hl
        have hg : ∀ o ∈ l, Good c o.1 ∧ o.2.length = c.pars.length := by
          intro o ho
          obtain ⟨k, hk'⟩ := List.mem_iff_getElem?.1 ho
          exact genES_ok hP hk (hu k) (h2 k o hk')
        constructor
        · intro e he
          obtain ⟨o, ho, rfl⟩ := List.mem_map.1 he
          exact hg o ho
        · intro e he
          obtain ⟨e', he', rfl⟩ := List.mem_map.1 he
          obtain ⟨o, ho, rfl⟩ := List.mem_map.1 he'
          exact ⟨(hg o ho).1, rfl⟩
  | succ n ih =>
    simp only [run] at h
    split at h
    · cases h
    · rename_i s0 hs0
      obtain ⟨i1, i2⟩ := ih hs0
      obtain ⟨os, hos, off, hoff, -, hpop, hlog⟩ := gen_split h
      obtain ⟨-, h2⟩ := mapRows_range hos
      have hg : ∀ e ∈ off, (Good c e.ind ∧ e.strat.length = c.pars.length) ∧ e.fit = fit e.ind := by
        intro e he
        rw [hoff] at he
        obtain ⟨o, ho, rfl⟩ := List.mem_map.1 he
        obtain ⟨k, hk'⟩ := List.mem_iff_getElem?.1 ho
        exact ⟨genOne_good hP i1 (h2 k o hk'), rfl⟩
      refine ⟨kbsStep_ok (hpk _) hk (fun e he => (hg e (mem_select he)).1) hpop, ?_⟩
      intro e he
      rw [hlog] at he
      rcases List.mem_append.1 he with he | he
      · exact i2 e he
      · obtain ⟨e', he', rfl⟩ := List.mem_map.1 he
        exact ⟨(hg e' he').1.1, (hg e' he').2⟩

end
end Neorl.GARun

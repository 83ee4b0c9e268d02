import Verif.Best
import Verif.Feasible
import Mathlib.LinearAlgebra.Matrix.Trace
import Mathlib.LinearAlgebra.Matrix.Determinant.Basic
import Mathlib.LinearAlgebra.Matrix.Symmetric

/-!
# Exponential natural evolution strategy

Model of `neorl/evolu/xnes.py`.  XNES maximises: `fit` below is the internal fitness (`-fit` of the user in `mode='min'`, lines 58-67).
`numpy.log`, `numpy.exp`, `scipy.linalg.expm`, `numpy.argsort` and the adaptation sampling `adasam` are parameters; int and grid types, which
the code does not treat specially, are not modelled.
-/

set_option linter.unusedSectionVars false
set_option linter.unusedVariables false

namespace Neorl.XNES

section
variable {K : Type} [Field K] [LinearOrder K] [IsStrictOrderedRing K]

/-- The shaped utilities, `neorl/evolu/xnes.py` lines 92-97, in ascending order. -/
def utilities (logf : K → K) (npop : ℕ) : List K :=
  let a := logf (1 + (1 / 2) * npop)
  let raw := (List.range npop).map fun k => max 0 (a - logf ((k + 1 : ℕ) : K))
  (raw.map fun v => v / raw.sum - 1 / npop).reverse

/-- Constructor arguments, lines 50-122. -/
structure Conf (K : Type) (n : ℕ) where
  bounds : List (K × K)
  npop : ℕ
  etaMu : K
  etaB : K
  util : List K
  /-- the literal `1e-8` of line 212 -/
  eps : K
  expf : K → K
  expm : Matrix (Fin n) (Fin n) K → Matrix (Fin n) (Fin n) K
  argsort : List K → List ℕ
  /-- `adasam`, lines 283-311, as a function of its arguments; the identity when `adapt_sampling` is off -/
  adasam : K → (Fin n → K) → K → Matrix (Fin n) (Fin n) K → K → List (List K) → K

/-- One row of `z_try`, lines 185 and 188: `ensure_bounds (mu + sigma * s @ bmat)`. -/
def sample {n : ℕ} (c : Conf K n) (mu : Fin n → K) (sigma : K) (bmat : Matrix (Fin n) (Fin n) K) (s : Fin n → K) : List K :=
  ensureBounds c.bounds (List.ofFn fun j => mu j + sigma * ∑ i, s i * bmat i j)

/-- `(f_try[k], s_try[k], z_try[k])`. -/
structure Item (K : Type) (n : ℕ) where
  f : K
  s : Fin n → K
  z : List K

/-- The attributes that survive between calls of `evolute`, plus the ghost log of evaluated points. -/
structure Obj (K : Type) (n : ℕ) where
  best : Option (List K × K)
  hist : List K
  sigma : K
  bmat : Matrix (Fin n) (Fin n) K
  eta : K
  sigmaOld : Option K
  mu : Fin n → K
  muBest : Option (Fin n → K)
  counter : ℕ
  log : List (List K)

/-- Lines 205-208. -/
def scan {n : ℕ} : Option (List K × K) → List (Item K n) → Option (List K × K)
  | b, [] => b
  | none, t :: ts => scan (some (t.z, t.f)) ts
  | some b, t :: ts => scan (some (if t.f > b.2 then (t.z, t.f) else b)) ts

/-- `dot(u_try, s_try)`, line 230. -/
def djDelta {n : ℕ} (u : List K) (ts : List (Item K n)) : Fin n → K := fun j => ((u.zip ts).map fun p : K × Item K n => p.1 * p.2.s j).sum

/-- `dot(s_try.T, s_try * u_try.reshape(npop, 1)) - sum(u_try) * eyemat`, line 231. -/
def djM {n : ℕ} (u : List K) (ts : List (Item K n)) : Matrix (Fin n) (Fin n) K :=
  Matrix.of (fun i j => ((u.zip ts).map fun p : K × Item K n => p.2.s i * (p.2.s j * p.1)).sum) - u.sum • (1 : Matrix (Fin n) (Fin n) K)

/-- `trace(dj_mmat) * (1.0 / dim)`, line 232. -/
def djSigma {n : ℕ} (u : List K) (ts : List (Item K n)) : K := (djM u ts).trace * (1 / (n : K))

/-- `dj_mmat - dj_sigma * eyemat`, line 233. -/
def djB {n : ℕ} (u : List K) (ts : List (Item K n)) : Matrix (Fin n) (Fin n) K := djM u ts - djSigma u ts • (1 : Matrix (Fin n) (Fin n) K)

/-- `f_try[isort]`, `s_try[isort]`, `z_try[isort]`, lines 200-203. -/
def order {n : ℕ} (c : Conf K n) (items : List (Item K n)) : List (Item K n) :=
  (c.argsort (items.map fun t : Item K n => t.f)).filterMap fun i => items[i]?

/-- One generation, lines 183-243; `ss` are the rows of `np.random.randn(npop, dim)`. -/
def gen {n : ℕ} (c : Conf K n) (fit : List K → K) (ss : List (Fin n → K)) (o : Obj K n) : Obj K n :=
  let items := ss.map fun s => let z := sample c o.mu o.sigma o.bmat s; (⟨fit z, s, z⟩ : Item K n)
  let fitness := (items.map fun t : Item K n => t.f).sum / items.length
  let ts := order c items
  let best := scan o.best ts
  let improved := match best with
    | none => true
    | some b => decide (fitness - c.eps > b.2)
  let u := if c.npop = 1 then ts.map (fun t : Item K n => t.f) else c.util
  let eta := match o.sigmaOld with
    | none => o.eta
    | some so => c.adasam o.eta o.mu o.sigma o.bmat so (ts.map fun t : Item K n => t.z)
  { best := best,
    hist := o.hist ++ (match best with | none => [] | some b => [b.2]),
    sigma := o.sigma * c.expf ((1 / 2) * eta * djSigma u ts),
    bmat := o.bmat * c.expm (((1 / 2) * c.etaB) • djB u ts),
    eta := eta,
    sigmaOld := some o.sigma,
    mu := fun j => o.mu j + c.etaMu * o.sigma * ∑ i, o.bmat j i * djDelta u ts i,
    muBest := if improved then some o.mu else o.muBest,
    counter := if improved then 0 else o.counter + 1,
    log := o.log ++ items.map fun t : Item K n => t.z }

/-- `k` generations. -/
def run {n : ℕ} (c : Conf K n) (fit : List K → K) (dr : ℕ → List (Fin n → K)) (o : Obj K n) : ℕ → Obj K n
  | 0 => o
  | k + 1 => gen c fit (dr k) (run c fit dr o k)

/-- What `evolute` returns. -/
structure Result (K : Type) where
  x : List K
  y : K
  hist : List K

/-- The sign of the whole history is flipped at the end in mode `min`, lines 271-272. -/
def finish {n : ℕ} (m : Bool) (o : Obj K n) : Obj K n := { o with hist := o.hist.map (sgn (!m)) }

/-- `evolute`, lines 157-281; `m` is `mode == 'min'`.  The attributes `x_best` and `fitness_best_correct` exist after a generation only. -/
def evolute {n : ℕ} (c : Conf K n) (m : Bool) (userFit : List K → K) (dr : ℕ → List (Fin n → K)) (ngen : ℕ) (x0 : Fin n → K) (o : Obj K n) :
    Py (Obj K n × Result K) :=
  let o' := finish m (run c (fun x => sgn (!m) (userFit x)) dr { o with mu := x0 } ngen)
  match o'.best with
  | none => .error .unboundLocal
  | some b => .ok (o', { x := b.1, y := sgn (!m) b.2, hist := o'.hist })

/-- A fresh object, lines 72-122. -/
def fresh {n : ℕ} (sigma : K) (bmat : Matrix (Fin n) (Fin n) K) (eta : K) : Obj K n :=
  { best := none, hist := [], sigma := sigma, bmat := bmat, eta := eta, sigmaOld := none, mu := 0, muBest := none, counter := 0, log := [] }

/-! ### Lemmas -/

/-- Specification of `argsort`: a permutation of the indices that sorts. -/
def ArgsortOK (argsort : List K → List ℕ) : Prop :=
  ∀ l, (argsort l).Perm (List.range l.length) ∧ (argsort l).Pairwise fun i j => l.getD i 0 ≤ l.getD j 0

theorem order_perm {n : ℕ} {c : Conf K n} (hs : ArgsortOK c.argsort) (items : List (Item K n)) : (order c items).Perm items := by
  have h := ((hs (items.map fun t : Item K n => t.f)).1).filterMap (fun i => items[i]?)
  have e : (List.range (items.map fun t : Item K n => t.f).length).filterMap (fun i => items[i]?) = items := by
    rw [List.length_map]
    clear h
    induction items using List.reverseRecOn with
    | nil => rfl
    | append_singleton l a ih =>
      rw [List.length_append, List.length_singleton, List.range_succ, List.filterMap_append]
      congr 1
      · conv_rhs => rw [← ih]
        apply List.filterMap_congr
        intro i hi
        rw [List.getElem?_append_left (List.mem_range.1 hi)]
      · simp
  rw [e] at h
  exact h

/-- Specification: `b` is the best of the log, `none` if the log is empty. -/
def BestOpt (fit : List K → K) (log : List (List K)) (b : Option (List K × K)) : Prop :=
  match b with
  | none => log = []
  | some b => IsBest false fit log b.1 b.2

theorem scan_spec {n : ℕ} {fit : List K → K} {ts : List (Item K n)} (hf : ∀ t ∈ ts, t.f = fit t.z) {b : Option (List K × K)} {log : List (List K)}
    (hb : BestOpt fit log b) : BestOpt fit (log ++ ts.map (fun t : Item K n => t.z)) (scan b ts) := by
  induction ts generalizing b log with
  | nil => cases b <;> simpa [scan] using hb
  | cons t ts ih =>
    have e : log ++ (t :: ts).map (fun t : Item K n => t.z) = (log ++ [t.z]) ++ ts.map (fun t : Item K n => t.z) := by simp
    rw [e]
    have ht := hf t (by simp)
    cases b with
    | none =>
      simp only [scan]
      refine ih (fun t ht => hf t (by simp [ht])) ?_
      have hb : log = [] := hb
      subst hb
      exact ⟨by simp, ht, by simp [NotWorse, ht]⟩
    | some b =>
      simp only [scan]
      refine ih (fun t ht => hf t (by simp [ht])) ?_
      obtain ⟨h1, h2, h3⟩ : IsBest false fit log b.1 b.2 := hb
      show IsBest false fit (log ++ [t.z]) _ _
      by_cases hlt : t.f > b.2
      · rw [if_pos hlt]
        refine ⟨by simp, ht, ?_⟩
        intro z hz
        simp only [NotWorse, Bool.false_eq_true, if_false] at h3 ⊢
        rcases List.mem_append.1 hz with hz | hz
        · exact (h3 z hz).trans hlt.le
        · simp only [List.mem_singleton] at hz; rw [hz, ht]
      · rw [if_neg hlt]
        refine ⟨by simp [h1], h2, ?_⟩
        intro z hz
        rcases List.mem_append.1 hz with hz | hz
        · exact h3 z hz
        · simp only [List.mem_singleton] at hz
          rw [hz]
          simpa [NotWorse, ht] using not_lt.1 hlt

/-- The object remembers the best of everything it ever evaluated. -/
def Remembers {n : ℕ} (fit : List K → K) (o : Obj K n) : Prop := BestOpt fit o.log o.best

theorem isBest_perm {fit : List K → K} {l l' : List (List K)} (h : l.Perm l') {m : Bool} {x : List K} {y : K} (hb : IsBest m fit l x y) :
    IsBest m fit l' x y := ⟨h.mem_iff.1 hb.1, hb.2.1, fun z hz => hb.2.2 z (h.mem_iff.2 hz)⟩

theorem gen_remembers {n : ℕ} {c : Conf K n} (hs : ArgsortOK c.argsort) {fit : List K → K} {ss : List (Fin n → K)} {o : Obj K n}
    (h : Remembers fit o) : Remembers fit (gen c fit ss o) := by
  set items : List (Item K n) := ss.map fun s => ⟨fit (sample c o.mu o.sigma o.bmat s), s, sample c o.mu o.sigma o.bmat s⟩ with hitems
  have hp := order_perm hs items
  have hf : ∀ t ∈ order c items, t.f = fit t.z := by
    intro t ht
    obtain ⟨s, _, rfl⟩ := List.mem_map.1 (hp.mem_iff.1 ht)
    rfl
  have hsp := scan_spec hf (b := o.best) (log := o.log) h
  have hperm : (o.log ++ (order c items).map (fun t : Item K n => t.z)).Perm (o.log ++ items.map (fun t : Item K n => t.z)) :=
    (hp.map _).append_left _
  show BestOpt fit (o.log ++ items.map (fun t : Item K n => t.z)) (scan o.best (order c items))
  cases e : scan o.best (order c items) with
  | none =>
    rw [e] at hsp
    have hsp : o.log ++ (order c items).map (fun t : Item K n => t.z) = [] := hsp
    rw [hsp] at hperm
    exact hperm.symm.eq_nil
  | some b =>
    rw [e] at hsp
    exact isBest_perm hperm hsp

theorem run_remembers {n : ℕ} {c : Conf K n} (hs : ArgsortOK c.argsort) {fit : List K → K} {dr : ℕ → List (Fin n → K)} {o : Obj K n}
    (h : Remembers fit o) (k : ℕ) : Remembers fit (run c fit dr o k) := by
  induction k with
  | zero => exact h
  | succ k ih => exact gen_remembers hs ih

/-- What one generation adds to the log. -/
theorem gen_log {n : ℕ} (c : Conf K n) (fit : List K → K) (ss : List (Fin n → K)) (o : Obj K n) :
    (gen c fit ss o).log = o.log ++ ss.map (sample c o.mu o.sigma o.bmat) := by
  simp [gen, Function.comp_def]

theorem run_log {n : ℕ} {c : Conf K n} {fit : List K → K} {dr : ℕ → List (Fin n → K)} (hd : ∀ k, (dr k).length = c.npop) (o : Obj K n) (k : ℕ) :
    ∃ l, (run c fit dr o k).log = o.log ++ l ∧ l.length = k * c.npop := by
  induction k with
  | zero => exact ⟨[], by simp [run]⟩
  | succ k ih =>
    obtain ⟨l, h1, h2⟩ := ih
    refine ⟨l ++ (dr k).map (sample c (run c fit dr o k).mu (run c fit dr o k).sigma (run c fit dr o k).bmat), ?_, ?_⟩
    · rw [run, gen_log, h1, List.append_assoc]
    · rw [List.length_append, List.length_map, hd, h2]; ring

theorem run_inBox {n : ℕ} {c : Conf K n} (hb : BoundsOK c.bounds) (hn : c.bounds.length = n) {fit : List K → K} {dr : ℕ → List (Fin n → K)}
    {o : Obj K n} (ho : ∀ z ∈ o.log, InBox c.bounds z) (k : ℕ) : ∀ z ∈ (run c fit dr o k).log, InBox c.bounds z := by
  induction k with
  | zero => exact ho
  | succ k ih =>
    intro z hz
    rw [run, gen_log] at hz
    rcases List.mem_append.1 hz with hz | hz
    · exact ih z hz
    · obtain ⟨s, _, rfl⟩ := List.mem_map.1 hz
      exact ensureBounds_inBox hb (by simp [hn])

theorem run_hist {n : ℕ} {c : Conf K n} (hs : ArgsortOK c.argsort) (hp : 0 < c.npop) {fit : List K → K} {dr : ℕ → List (Fin n → K)}
    (hd : ∀ k, (dr k).length = c.npop) {o : Obj K n} (h : Remembers fit o) (k : ℕ) :
    ∃ t, (run c fit dr o k).hist = o.hist ++ t ∧ HistBest false fit o.log.length c.npop (run c fit dr o k).log t := by
  induction k with
  | zero => exact ⟨[], by simp [run], histBest_nil _ _ _ _⟩
  | succ k ih =>
    obtain ⟨t, h1, h2⟩ := ih
    have hr := gen_remembers (ss := dr k) hs (run_remembers (dr := dr) hs h k)
    have hlog := gen_log c fit (dr k) (run c fit dr o k)
    cases e : (gen c fit (dr k) (run c fit dr o k)).best with
    | none =>
      have : (gen c fit (dr k) (run c fit dr o k)).log = [] := by
        unfold Remembers at hr; rw [e] at hr; exact hr
      rw [hlog] at this
      have := congrArg List.length this
      simp [hd] at this
      omega
    | some b =>
      have hb : IsBest false fit (gen c fit (dr k) (run c fit dr o k)).log b.1 b.2 := by
        unfold Remembers at hr; rw [e] at hr; exact hr
      refine ⟨t ++ [b.2], ?_, ?_⟩
      · show (run c fit dr o k).hist ++ (match (gen c fit (dr k) (run c fit dr o k)).best with | none => [] | some b => [b.2]) = _
        rw [e, h1, List.append_assoc]
      · rw [run, hlog]
        rw [hlog] at hb
        exact h2.step (by rw [List.length_map, hd]) ⟨⟨_, hb.1, hb.2.1.symm⟩, hb.2.2⟩

/-! ### Lemmas: the search distribution -/

theorem djM_symm {n : ℕ} (u : List K) (ts : List (Item K n)) : (djM u ts).transpose = djM u ts := by
  unfold djM
  rw [Matrix.transpose_sub, Matrix.transpose_smul, Matrix.transpose_one]
  congr 1
  ext i j
  simp only [Matrix.transpose_apply, Matrix.of_apply]
  congr 1
  apply List.map_congr_left
  intro p _
  ring

theorem djB_symm {n : ℕ} (u : List K) (ts : List (Item K n)) : (djB u ts).transpose = djB u ts := by
  unfold djB
  rw [Matrix.transpose_sub, Matrix.transpose_smul, Matrix.transpose_one, djM_symm]

theorem djB_trace {n : ℕ} (hn : 0 < n) (u : List K) (ts : List (Item K n)) : (djB u ts).trace = 0 := by
  unfold djB djSigma
  rw [Matrix.trace_sub, Matrix.trace_smul, Matrix.trace_one, Fintype.card_fin]
  have : (n : K) ≠ 0 := by exact_mod_cast hn.ne'
  simp only [smul_eq_mul]
  field_simp
  ring

/-- The property of the matrix exponential used: a symmetric matrix of trace zero has an exponential of determinant one. -/
def ExpmOK {n : ℕ} (expm : Matrix (Fin n) (Fin n) K → Matrix (Fin n) (Fin n) K) : Prop :=
  ∀ M : Matrix (Fin n) (Fin n) K, M.transpose = M → M.trace = 0 → (expm M).det = 1

theorem run_det {n : ℕ} (hn : 0 < n) {c : Conf K n} (hm : ExpmOK c.expm) {fit : List K → K} {dr : ℕ → List (Fin n → K)} {o : Obj K n} (k : ℕ) :
    (run c fit dr o k).bmat.det = o.bmat.det := by
  induction k with
  | zero => rfl
  | succ k ih =>
    simp only [run, gen]
    rw [Matrix.det_mul, ih]
    rw [hm]
    · rw [mul_one]
    · rw [Matrix.transpose_smul, djB_symm]
    · rw [Matrix.trace_smul, djB_trace hn, smul_zero]

theorem run_sigma {n : ℕ} {c : Conf K n} (hm : ∀ v, 0 < c.expf v) {fit : List K → K} {dr : ℕ → List (Fin n → K)} {o : Obj K n} (h : 0 < o.sigma) (k : ℕ) :
    0 < (run c fit dr o k).sigma := by
  induction k with
  | zero => exact h
  | succ k ih => exact mul_pos ih (hm _)

/-- The mean fitness never exceeds the best: the branch of lines 212-214 is dead. -/
theorem gen_muBest {n : ℕ} {c : Conf K n} (hs : ArgsortOK c.argsort) (he : 0 ≤ c.eps) {fit : List K → K} {ss : List (Fin n → K)} (hss : ss ≠ [])
    {o : Obj K n} (h : Remembers fit o) : (gen c fit ss o).muBest = o.muBest ∧ (gen c fit ss o).counter = o.counter + 1 := by
  have hr := gen_remembers (c := c) (ss := ss) hs h
  have hlog := gen_log c fit ss o
  cases e : (gen c fit ss o).best with
  | none =>
    have : (gen c fit ss o).log = [] := by unfold Remembers at hr; rw [e] at hr; exact hr
    rw [hlog] at this
    have := (List.append_eq_nil_iff.1 this).2
    exact absurd (List.map_eq_nil_iff.1 this) hss
  | some b =>
    have hb : IsBest false fit (gen c fit ss o).log b.1 b.2 := by unfold Remembers at hr; rw [e] at hr; exact hr
    have e' : scan o.best (order c (ss.map fun s => (⟨fit (sample c o.mu o.sigma o.bmat s), s, sample c o.mu o.sigma o.bmat s⟩ : Item K n))) = some b := e
    have hmean : ¬ ((ss.map fun s => fit (sample c o.mu o.sigma o.bmat s)).sum / (ss.length : K) - c.eps > b.2) := by
      have hpos : (0 : K) < ss.length := by exact_mod_cast List.length_pos_of_ne_nil hss
      have hsum : (ss.map fun s => fit (sample c o.mu o.sigma o.bmat s)).sum ≤ ss.length * b.2 := by
        have := List.sum_le_card_nsmul (ss.map fun s => fit (sample c o.mu o.sigma o.bmat s)) b.2 (by
          intro v hv
          obtain ⟨s, hs', rfl⟩ := List.mem_map.1 hv
          have := hb.2.2 (sample c o.mu o.sigma o.bmat s) (by rw [hlog]; exact List.mem_append_right _ (List.mem_map_of_mem hs'))
          simpa [NotWorse] using this)
        simpa [nsmul_eq_mul] using this
      rw [not_lt, sub_le_iff_le_add]
      have : (ss.map fun s => fit (sample c o.mu o.sigma o.bmat s)).sum / (ss.length : K) ≤ b.2 := by
        rw [div_le_iff₀ hpos]; linarith
      linarith
    simp only [gen, e', List.map_map, Function.comp_def, List.length_map]
    rw [decide_eq_false hmean]
    simp

/-! ### Lemmas: invariance under monotone transformations of the fitness -/

/-- Sorting compares only. -/
def Comparing (argsort : List K → List ℕ) : Prop := ∀ (φ : K → K) (l : List K), StrictMono φ → argsort (l.map φ) = argsort l

/-- Same object up to the fitness scale. -/
structure Same {n : ℕ} (φ : K → K) (o o' : Obj K n) : Prop where
  best : o'.best = o.best.map fun b => (b.1, φ b.2)
  sigma : o'.sigma = o.sigma
  bmat : o'.bmat = o.bmat
  eta : o'.eta = o.eta
  sigmaOld : o'.sigmaOld = o.sigmaOld
  mu : o'.mu = o.mu
  log : o'.log = o.log

theorem scan_same {n : ℕ} {φ : K → K} (hφ : StrictMono φ) (ts : List (Item K n)) (b : Option (List K × K)) :
    scan (b.map fun b => (b.1, φ b.2)) (ts.map fun t : Item K n => (⟨φ t.f, t.s, t.z⟩ : Item K n)) = (scan b ts).map fun b => (b.1, φ b.2) := by
  induction ts generalizing b with
  | nil => cases b <;> rfl
  | cons t ts ih =>
    cases b with
    | none =>
      simp only [scan, Option.map_none, List.map_cons]
      exact ih (some (t.z, t.f))
    | some b =>
      simp only [scan, Option.map_some, List.map_cons]
      rw [← ih]
      congr 1
      simp only [Option.map_some]
      by_cases h : t.f > b.2
      · rw [if_pos h, if_pos (hφ h)]
      · rw [if_neg h, if_neg (by intro h'; exact h (hφ.lt_iff_lt.1 h'))]

theorem order_same {n : ℕ} {c : Conf K n} (hc : Comparing c.argsort) {φ : K → K} (hφ : StrictMono φ) (items : List (Item K n)) :
    order c (items.map fun t : Item K n => (⟨φ t.f, t.s, t.z⟩ : Item K n)) = (order c items).map fun t : Item K n => (⟨φ t.f, t.s, t.z⟩ : Item K n) := by
  unfold order
  have e : (items.map fun t : Item K n => (⟨φ t.f, t.s, t.z⟩ : Item K n)).map (fun t : Item K n => t.f) = (items.map fun t : Item K n => t.f).map φ := by
    simp [Function.comp_def]
  rw [e, hc φ _ hφ, List.map_filterMap]
  apply List.filterMap_congr
  intro i _
  rw [List.getElem?_map]

theorem djM_same {n : ℕ} (φ : K → K) (u : List K) (ts : List (Item K n)) :
    djM u (ts.map fun t : Item K n => (⟨φ t.f, t.s, t.z⟩ : Item K n)) = djM u ts := by
  unfold djM
  congr 1
  ext i j
  simp only [Matrix.of_apply]
  rw [List.zip_map_right, List.map_map]
  rfl

theorem djDelta_same {n : ℕ} (φ : K → K) (u : List K) (ts : List (Item K n)) :
    djDelta u (ts.map fun t : Item K n => (⟨φ t.f, t.s, t.z⟩ : Item K n)) = djDelta u ts := by
  funext j
  unfold djDelta
  rw [List.zip_map_right, List.map_map]
  rfl

theorem gen_same {n : ℕ} {c : Conf K n} (h1 : c.npop ≠ 1) (hc : Comparing c.argsort) {φ : K → K} (hφ : StrictMono φ) {fit : List K → K}
    {ss : List (Fin n → K)} {o o' : Obj K n} (h : Same φ o o') : Same φ (gen c fit ss o) (gen c (fun x => φ (fit x)) ss o') := by
  set items : List (Item K n) := ss.map fun s => ⟨fit (sample c o.mu o.sigma o.bmat s), s, sample c o.mu o.sigma o.bmat s⟩ with hitems
  have eitems : (ss.map fun s => (⟨φ (fit (sample c o'.mu o'.sigma o'.bmat s)), s, sample c o'.mu o'.sigma o'.bmat s⟩ : Item K n)) =
      items.map fun t : Item K n => (⟨φ t.f, t.s, t.z⟩ : Item K n) := by
    rw [hitems, List.map_map, h.mu, h.sigma, h.bmat]
    rfl
  have eord := order_same hc hφ items
  have hz : ((order c items).map fun t : Item K n => (⟨φ t.f, t.s, t.z⟩ : Item K n)).map (fun t : Item K n => t.z) =
      (order c items).map (fun t : Item K n => t.z) := by rw [List.map_map]; rfl
  have hS : ∀ u, djSigma u ((order c items).map fun t : Item K n => (⟨φ t.f, t.s, t.z⟩ : Item K n)) = djSigma u (order c items) := by
    intro u; unfold djSigma; rw [djM_same]
  have hB : ∀ u, djB u ((order c items).map fun t : Item K n => (⟨φ t.f, t.s, t.z⟩ : Item K n)) = djB u (order c items) := by
    intro u; unfold djB; rw [djM_same, hS]
  constructor
  · simp only [gen]
    rw [eitems, eord, h.best, scan_same hφ]
  · simp only [gen]
    rw [eitems, eord, if_neg h1, if_neg h1, hS, hz, h.sigma, h.sigmaOld, h.eta, h.bmat, h.mu]
  · simp only [gen]
    rw [eitems, eord, if_neg h1, if_neg h1, hB, h.bmat]
  · simp only [gen]
    rw [eitems, eord, hz, h.sigma, h.sigmaOld, h.eta, h.bmat, h.mu]
  · simp only [gen]
    rw [h.sigma]
  · simp only [gen]
    rw [eitems, eord, if_neg h1, if_neg h1, djDelta_same, h.sigma, h.bmat, h.mu]
  · rw [gen_log, gen_log, h.log, h.sigma, h.bmat, h.mu]

theorem run_same {n : ℕ} {c : Conf K n} (h1 : c.npop ≠ 1) (hc : Comparing c.argsort) {φ : K → K} (hφ : StrictMono φ) {fit : List K → K}
    {dr : ℕ → List (Fin n → K)} {o o' : Obj K n} (h : Same φ o o') (k : ℕ) :
    Same φ (run c fit dr o k) (run c (fun x => φ (fit x)) dr o' k) := by
  induction k with
  | zero => exact h
  | succ k ih => exact gen_same h1 hc hφ ih

end
end Neorl.XNES

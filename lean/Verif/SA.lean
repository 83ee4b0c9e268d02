import Verif.Feasible
import Verif.Best

/-!
# Simulated annealing

Model of `neorl/evolu/sa.py`.  Internally SA maximises: `fit` below is the internal fitness (`-fit` of the user in `mode='min'`,
lines 61-70).  The fitness is a function of the encoded vector.  Temperatures are arbitrary: `temp g j k` is the temperature of
generation `g`, core `j`, step `k`; this covers the four cooling schedules of `temp` (lines 215-238), whose values are the subject of
`Verif/Props/Cooling.lean`.  The acceptance number `np.exp(dE/T)` is a parameter `accP dE T`.
-/

set_option linter.unusedSectionVars false
set_option linter.unusedVariables false

namespace Neorl.SA

section
variable {K : Type} [Field K] [LinearOrder K] [IsStrictOrderedRing K] [FloorRing K]

/-- `sampler`, `neorl/evolu/sa.py` lines 151-165 (and one entry of `GenInd`, lines 130-149): `randint(lb, ub)` reduces a raw natural
number, `uniform(lb, ub)` is `lb + (ub - lb) * u`. -/
def sampler (t : VType) (b : K × K) (d : K × ℕ) : K :=
  match t with
  | .int => b.1 + ((d.2 % (⌊b.2 - b.1⌋.toNat + 1) : ℕ) : K)
  | .float => b.1 + (b.2 - b.1) * d.1

/-- Lines 208-210: draw until the sample differs from the current value (unless the two bounds coincide).  The list holds the raw
draws; `none` means that the loop is still running when they are used up. -/
def resample (t : VType) (b : K × K) (x : K) : List (K × ℕ) → Option K
  | [] => none
  | d :: ds => if x = sampler t b d ∧ b.1 ≠ b.2 then resample t b x ds else some (sampler t b d)

/-- `def_move`, lines 195-213: coordinate `i` is perturbed when `random.random() < chi`. -/
def defMove (chi : K) (u : ℕ → K) (ds : ℕ → List (K × ℕ)) : ℕ → List VType → List (K × K) → List K → Option (List K)
  | i, t :: ts, b :: bs, x :: xs =>
    match (if u i < chi then resample t b x (ds i) else some x), defMove chi u ds (i + 1) ts bs xs with
    | some y, some ys => some (y :: ys)
    | _, _ => none
  | _, _, _, _ => some []

/-- One step of a chain as the ghost trace records it. -/
structure Entry (K : Type) where
  step : ℕ
  src : List K
  cand : List K
  dst : List K

/-- Local variables of `chain_object`, lines 255-270, plus the ghost trace. -/
structure Chain (K : Type) where
  x : List K
  E : K
  xb : List K
  Eb : K
  acc : ℕ
  rej : ℕ
  imp : ℕ
  trace : List (Entry K)

/-- Draws of one chain: the move applied at step `k` (`def_move` or the user's `move_func`) and `random.random()`. -/
structure Draw (K : Type) where
  mv : ℕ → List K → List K
  u : ℕ → K

/-- One round of the `while` loop, lines 276-308. -/
def chainStep (S : Space K) (fit : List K → K) (accP : K → K → K) (temp : ℕ → K) (d : Draw K) (k : ℕ) (s : Chain K) : Chain K :=
  let x := S.clip (d.mv k s.x)
  let E := fit (S.clip x)
  let dE := E - s.E
  if dE > 0 then
    { x := x, E := E, xb := if E > s.Eb then x else s.xb, Eb := if E > s.Eb then E else s.Eb, acc := s.acc + 1, rej := s.rej,
      imp := s.imp + 1, trace := s.trace ++ [⟨k, s.x, x, x⟩] }
  else if accP dE (temp k) ≥ d.u k then
    { s with x := x, E := E, acc := s.acc + 1, trace := s.trace ++ [⟨k, s.x, x, x⟩] }
  else { s with rej := s.rej + 1, trace := s.trace ++ [⟨k, s.x, x, s.x⟩] }

/-- The `while k <= max_step` loop, lines 274-309, as `fuel` rounds from `k`. -/
def chainLoop (S : Space K) (fit : List K → K) (accP : K → K → K) (temp : ℕ → K) (d : Draw K) : ℕ → ℕ → Chain K → Chain K
  | 0, _, s => s
  | n + 1, k, s => chainLoop S fit accP temp d n (k + 1) (chainStep S fit accP temp d k s)

/-- `chain_object`, lines 240-313, on the inclusive step range `[kmin, kmax]`. -/
def chainObject (S : Space K) (fit : List K → K) (accP : K → K → K) (temp : ℕ → K) (d : Draw K) (x0 : List K) (E0 : K)
    (kmin kmax : ℕ) : Chain K :=
  chainLoop S fit accP temp d (kmax + 1 - kmin) kmin
    { x := x0, E := E0, xb := x0, Eb := E0, acc := 0, rej := 0, imp := 0, trace := [] }

/-- The step ranges handed to the cores, lines 329-334: `core_step_max = step0 + j*npop - 1`, next `core_step_min` is one more. -/
def ranges (npop step0 : ℕ) : ℕ → ℕ → ℕ → List (ℕ × ℕ)
  | 0, _, _ => []
  | n + 1, j, kmin => (kmin, step0 + j * npop - 1) :: ranges npop step0 n (j + 1) (step0 + j * npop - 1 + 1)

/-- `reinforce_best`. -/
inductive Reinforce
  | no | soft | hard
  deriving DecidableEq, Repr

/-- Arguments, lines 54-128 and 406.  `stop` is the early exit of the equilibrium cooling, a function of the acceptance counts of the
chains (lines 461-467); the other schedules never stop (`stop = fun _ => false`). -/
structure Conf (K : Type) where
  S : Space K
  ncores : ℕ
  npop : ℕ
  ngen : ℕ
  reinforce : Reinforce
  accP : K → K → K
  stop : List ℕ → Bool

/-- Draws of one generation. -/
structure GDraw (K : Type) where
  /-- per core -/
  core : ℕ → Draw K
  temp : ℕ → ℕ → K
  /-- `np.random.uniform(0,1,size=ncores)` of the soft reinforcement -/
  rho : ℕ → K
  /-- weights `np.exp(-|E|/T)` of the soft reinforcement -/
  wt : K → K
  /-- outcome of `math.isnan(sampling[count])` -/
  nan : ℕ → Bool

/-- The list of chains of one generation, lines 329-345. -/
def chains (c : Conf K) (fit : List K → K) (g : GDraw K) (step0 : ℕ) (starts : List (List K × K)) : List (Chain K) :=
  ((ranges c.npop step0 c.ncores 1 step0).zip starts).mapIdx fun j p =>
    chainObject c.S fit c.accP (g.temp j) (g.core j) p.2.1 p.2.2 p.1.1 p.1.2

/-- `np.argmax`: first index of the greatest value. -/
def argmaxFrom : ℕ → ℕ × K → List K → ℕ × K
  | _, b, [] => b
  | i, b, v :: vs => argmaxFrom (i + 1) (if v > b.2 then (i, v) else b) vs

/-- First index of the greatest value together with that value. -/
def argmax : List K → Py (ℕ × K)
  | [] => .error .valueError
  | v :: vs => .ok (argmaxFrom 1 (0, v) vs)

/-- Lines 474-484: cumulative sums of the weights times the normalisation. -/
def sampling (w : List K) : List K := (List.range w.length).map fun i => (w.take (i + 1)).sum / w.sum

/-- Lines 485-495: the index chosen for chain `count`.  `np.where(sampling > rho)[0][0]` compares two vectors, so it is the first
*position* where `sampling` exceeds `rho`. -/
def softIndex (n : ℕ) (smp : List K) (rho : ℕ → K) (nan : Bool) (am : ℕ) (count : ℕ) : Py ℕ :=
  if rho count = 1 then .ok (n - 1)
  else if nan then .ok am
  else if rho count ≤ smp.getD 0 0 then .ok 0
  else match (List.range smp.length).find? (fun i => decide (smp.getD i 0 > rho i)) with
    | some i => .ok i
    | none => .error .indexError

/-- The starts of the next generation under soft reinforcement, lines 471-497 (`rho = [1]` for one core, line 480).  The loop overwrites
`E_next` while it runs; the NaN branch reads it, but only its argmax, which the model takes before the loop: the branch needs a NaN,
outside exact arithmetic. -/
def softNext (c : Conf K) (g : GDraw K) (cs : List (Chain K)) : Py (List (List K × K)) :=
  match argmax (cs.map (fun s : Chain K => s.E)) with
  | .error e => .error e
  | .ok am =>
    mapRows (fun count _ =>
      match softIndex c.ncores (sampling (cs.map (fun s : Chain K => g.wt s.E))) (fun i => if c.ncores = 1 then 1 else g.rho i) (g.nan count)
          am.1 count with
      | .error e => .error e
      | .ok i => match cs[i]? with
        | some s => .ok (s.xb, s.Eb)
        | none => .error .indexError) 0 cs

/-- State between generations. -/
structure State (K : Type) where
  starts : List (List K × K)
  step0 : ℕ
  /-- `x_opt`, `E_opt`; `none` is `E_opt = -inf` -/
  opt : Option (List K × K)
  /-- `x_opt_correct`; `none` while the name is unbound -/
  xc : Option (List K)
  fits : List K
  stats : List (ℕ × ℕ × ℕ)
  stopped : Bool
  log : List (List K)
  steps : List ℕ

/-- One generation, lines 443-503. -/
def gen (c : Conf K) (fit : List K → K) (g : GDraw K) (s : State K) : Py (State K) :=
  if s.stopped then .ok s else
  let cs := chains c fit g s.step0 s.starts
  match argmax (cs.map (fun s : Chain K => s.Eb)) with
  | .error e => .error e
  | .ok am =>
    match cs[am.1]? with
    | none => .error .indexError
    | some b =>
      let opt := match s.opt with
        | none => (b.xb, am.2)
        | some o => if am.2 > o.2 then (b.xb, am.2) else o
      let s' := { s with step0 := s.step0 + c.npop * c.ncores, opt := some opt, fits := s.fits ++ [am.2],
                         stats := s.stats ++ [(b.acc, b.rej, b.imp)],
                         log := s.log ++ cs.flatMap (fun s : Chain K => s.trace.map (fun e : Entry K => e.cand)),
                         steps := s.steps ++ cs.flatMap (fun s : Chain K => s.trace.map (fun e : Entry K => e.step)) }
      if c.stop (cs.map (fun s : Chain K => s.acc)) then .ok { s' with stopped := true } else
      match (match c.reinforce with
        | .no => Except.ok (cs.map (fun s : Chain K => (s.x, s.E)))
        | .hard => .ok (List.replicate c.ncores opt)
        | .soft => softNext c g cs) with
      | .error e => .error e
      | .ok nx => .ok { s' with starts := nx, xc := some opt.1 }

/-- `InitChains`, lines 365-404: the starting points are evaluated through `fit_worker`. -/
def init (c : Conf K) (fit : List K → K) (x0 : List (List K)) : State K :=
  { starts := x0.map (fun x => (x, fit (c.S.clip x))), step0 := 1, opt := none, xc := none, fits := [], stats := [], stopped := false,
    log := x0.map c.S.clip, steps := [] }

/-- `n` generations. -/
def run (c : Conf K) (fit : List K → K) (dr : ℕ → GDraw K) (x0 : List (List K)) : ℕ → Py (State K)
  | 0 => .ok (init c fit x0)
  | n + 1 =>
    match run c fit dr x0 n with
    | .error e => .error e
    | .ok s => gen c fit (dr n) s

/-- What `evolute` returns, plus the ghost logs. -/
structure Result (K : Type) where
  x : List K
  y : K
  fits : List K
  stats : List (ℕ × ℕ × ℕ)
  log : List (List K)
  steps : List ℕ

/-- `evolute`, lines 406-537: `int(ngen/ncores)` generations.  `m` is `mode == 'min'`.  If no generation completes, `x_opt_correct` is
unbound. -/
def evolute (c : Conf K) (m : Bool) (userFit : List K → K) (dr : ℕ → GDraw K) (x0 : List (List K)) : Py (Result K) :=
  if x0.length ≠ c.ncores then .error .assertion else
  if c.ncores = 0 then .error .zeroDivision else
  match run c (fun x => sgn (!m) (userFit x)) dr x0 (c.ngen / c.ncores) with
  | .error e => .error e
  | .ok s =>
    match s.xc, s.opt with
    | some x, some o =>
      .ok { x := x, y := sgn (!m) o.2, fits := s.fits.map (sgn (!m)), stats := s.stats, log := s.log, steps := s.steps }
    | _, _ => .error .unboundLocal

/-! ### Lemmas: one chain -/

/-- Specification: the Metropolis rule with fitness `fit`, acceptance number `accP` and uniform draw `u`. -/
def Metropolis (fit : List K → K) (accP : K → K → K) (T u : K) (src cand : List K) : Prop :=
  fit src < fit cand ∨ u ≤ accP (fit cand - fit src) T

instance (fit : List K → K) (accP : K → K → K) (T u : K) (src cand : List K) : Decidable (Metropolis fit accP T u src cand) := by
  unfold Metropolis; infer_instance

/-- Everything known about a chain after `n` rounds from step `k0` at `x0`. -/
structure CInv (S : Space K) (Good : List K → Prop) (fit : List K → K) (accP : K → K → K) (temp : ℕ → K) (d : Draw K) (x0 : List K) (k0 n : ℕ) (s : Chain K) : Prop where
  steps : s.trace.map (fun e : Entry K => e.step) = (List.range n).map (fun i => k0 + i)
  links : ∀ (i : ℕ) (e : Entry K), s.trace[i]? = some e →
    (i = 0 → e.src = x0) ∧ (∀ e', s.trace[i + 1]? = some e' → e'.src = e.dst) ∧ (i + 1 = n → s.x = e.dst)
  empty : n = 0 → s.x = x0
  cands : ∀ e ∈ s.trace, e.cand = S.clip (d.mv e.step e.src)
  rule : ∀ e ∈ s.trace, e.dst = if Metropolis fit accP (temp e.step) (d.u e.step) e.src e.cand then e.cand else e.src
  acc : s.acc = s.trace.countP (fun e : Entry K => decide (Metropolis fit accP (temp e.step) (d.u e.step) e.src e.cand))
  rej : s.rej = s.trace.countP (fun e : Entry K => !decide (Metropolis fit accP (temp e.step) (d.u e.step) e.src e.cand))
  imp : s.imp = s.trace.countP (fun e : Entry K => decide (fit e.src < fit e.cand))
  cur : s.E = fit s.x
  le : s.E ≤ s.Eb
  best : IsBest false fit (x0 :: s.trace.map (fun e : Entry K => e.cand)) s.xb s.Eb
  mem : s.x ∈ x0 :: s.trace.map (fun e : Entry K => e.cand)
  box : Good s.x ∧ ∀ e ∈ s.trace, Good e.cand

/-- The clipped moves of `d` stay inside a set `Good` of points of the box. -/
def MoveOK (S : Space K) (Good : List K → Prop) (d : Draw K) : Prop :=
  (∀ x, Good x → InBox S.bounds x) ∧ ∀ k x, Good x → Good (S.clip (d.mv k x))

theorem cinv_init {S : Space K} {Good : List K → Prop} {fit : List K → K} {accP : K → K → K} {temp : ℕ → K} {d : Draw K} {x0 : List K} {E0 : K} {k0 : ℕ}
    (hx : Good x0) (hE : E0 = fit x0) :
    CInv S Good fit accP temp d x0 k0 0 { x := x0, E := E0, xb := x0, Eb := E0, acc := 0, rej := 0, imp := 0, trace := [] } := by
  refine ⟨by simp, by simp, fun _ => rfl, by simp, by simp, by simp, by simp, by simp, hE, le_rfl, ?_, by simp, hx, by simp⟩
  exact ⟨by simp, hE, by simp [NotWorse, hE]⟩

theorem chainStep_inv {S : Space K} {Good : List K → Prop} {fit : List K → K} {accP : K → K → K} {temp : ℕ → K} {d : Draw K} (hd : MoveOK S Good d)
    {x0 : List K} {k0 n : ℕ} {s : Chain K} (h : CInv S Good fit accP temp d x0 k0 n s) :
    CInv S Good fit accP temp d x0 k0 (n + 1) (chainStep S fit accP temp d (k0 + n) s) := by
  have hlen : s.trace.length = n := by simpa using congrArg List.length h.steps
  set x := S.clip (d.mv (k0 + n) s.x) with hx
  have hbox : Good x := hd.2 _ _ h.box.1
  have hclip : S.clip x = x := S.clip_of_inBox (hd.1 x hbox)
  -- common part: the trace grows by one entry obeying the rule
  have common : ∀ (dst : List K), (dst = if Metropolis fit accP (temp (k0 + n)) (d.u (k0 + n)) s.x x then x else s.x) →
      let tr := s.trace ++ [⟨k0 + n, s.x, x, dst⟩]
      tr.map (fun e : Entry K => e.step) = (List.range (n + 1)).map (fun i => k0 + i) ∧
      (∀ (i : ℕ) (e : Entry K), tr[i]? = some e →
        (i = 0 → e.src = x0) ∧ (∀ e', tr[i + 1]? = some e' → e'.src = e.dst) ∧ (i + 1 = n + 1 → dst = e.dst)) ∧
      (∀ e ∈ tr, e.cand = S.clip (d.mv e.step e.src)) ∧
      (∀ e ∈ tr, e.dst = if Metropolis fit accP (temp e.step) (d.u e.step) e.src e.cand then e.cand else e.src) ∧
      Good dst ∧ ∀ e ∈ tr, Good e.cand := by
    intro dst hdst
    refine ⟨?_, ?_, ?_, ?_, ?_, ?_⟩
    · rw [List.map_append, h.steps, List.range_succ, List.map_append]; rfl
    · intro i e he
      rcases Nat.lt_trichotomy i n with hi | hi | hi
      · rw [List.getElem?_append_left (by omega)] at he
        obtain ⟨h1, h2, h3⟩ := h.links i e he
        refine ⟨h1, ?_, by omega⟩
        intro e' he'
        rcases Nat.lt_or_ge (i + 1) n with hi' | hi'
        · rw [List.getElem?_append_left (by omega)] at he'
          exact h2 e' he'
        · rw [List.getElem?_append_right (by omega)] at he'
          have : i + 1 - s.trace.length = 0 := by omega
          rw [this] at he'
          cases he'
          exact h3 (by omega)
      · subst hi
        rw [List.getElem?_append_right (by omega), hlen, Nat.sub_self] at he
        cases he
        refine ⟨fun h0 => h.empty h0, ?_, fun _ => rfl⟩
        intro e' he'
        rw [List.getElem?_append_right (by omega), hlen] at he'
        have : i + 1 - i = 1 := by omega
        rw [this] at he'
        cases he'
      · have := (List.getElem?_eq_some_iff.1 he).1
        simp [hlen] at this
        omega
    · intro e he
      rcases List.mem_append.1 he with he | he
      · exact h.cands e he
      · simp only [List.mem_singleton] at he; subst he; exact hx
    · intro e he
      rcases List.mem_append.1 he with he | he
      · exact h.rule e he
      · simp only [List.mem_singleton] at he; subst he; exact hdst
    · rw [hdst]; split
      · exact hbox
      · exact h.box.1
    · intro e he
      rcases List.mem_append.1 he with he | he
      · exact h.box.2 e he
      · simp only [List.mem_singleton] at he; subst he; exact hbox
  have hlog : ∀ dst, (s.trace ++ [(⟨k0 + n, s.x, x, dst⟩ : Entry K)]).map (fun e : Entry K => e.cand) = s.trace.map (fun e : Entry K => e.cand) ++ [x] := by
    intro dst; simp
  have hbest : ∀ z ∈ x0 :: s.trace.map (fun e : Entry K => e.cand), fit z ≤ s.Eb := by
    intro z hz; simpa [NotWorse] using h.best.2.2 z hz
  have hmem' : ∀ z ∈ x0 :: s.trace.map (fun e : Entry K => e.cand), z ∈ x0 :: (s.trace.map (fun e : Entry K => e.cand) ++ [x]) := by
    intro z hz; rw [← List.cons_append]; exact List.mem_append_left _ hz
  have hxm : x ∈ x0 :: (s.trace.map (fun e : Entry K => e.cand) ++ [x]) := by simp
  have hall : ∀ (v : K), s.Eb ≤ v → fit x ≤ v → ∀ z ∈ x0 :: (s.trace.map (fun e : Entry K => e.cand) ++ [x]), fit z ≤ v := by
    intro v h1 h2 z hz
    rw [← List.cons_append] at hz
    rcases List.mem_append.1 hz with hz | hz
    · exact (hbest z hz).trans h1
    · simp only [List.mem_singleton] at hz; rw [hz]; exact h2
  have hcur := h.cur
  unfold chainStep
  simp only [← hx, hclip]
  by_cases h1 : fit x - s.E > 0
  · rw [if_pos h1]
    have hM : Metropolis fit accP (temp (k0 + n)) (d.u (k0 + n)) s.x x := Or.inl (by rw [← hcur]; linarith)
    obtain ⟨a1, a2, a3, a4, a5, a6⟩ := common x (by rw [if_pos hM])
    have himp : fit s.x < fit x := by rw [← hcur]; linarith
    refine ⟨a1, a2, by omega, a3, a4, ?_, ?_, ?_, rfl, ?_, ?_, ?_, a5, a6⟩
    · simp [List.countP_append, h.acc, hM]
    · simp [List.countP_append, h.rej, hM]
    · simp [List.countP_append, h.imp, himp]
    · show fit x ≤ if fit x > s.Eb then fit x else s.Eb
      split_ifs with hc
      · exact le_rfl
      · exact not_lt.1 hc
    · rw [hlog]
      by_cases hc : fit x > s.Eb
      · simp only [if_pos hc]
        exact ⟨hxm, rfl, fun z hz => by simpa [NotWorse] using hall _ hc.le le_rfl z hz⟩
      · simp only [if_neg hc]
        exact ⟨hmem' _ h.best.1, h.best.2.1, fun z hz => by simpa [NotWorse] using hall _ le_rfl (not_lt.1 hc) z hz⟩
    · rw [hlog]; exact hxm
  · rw [if_neg h1]
    have hle : fit x ≤ s.E := by linarith [not_lt.1 h1]
    have hnimp : ¬ fit s.x < fit x := by rw [← hcur]; exact not_lt.2 hle
    by_cases h2 : accP (fit x - s.E) (temp (k0 + n)) ≥ d.u (k0 + n)
    · rw [if_pos h2]
      have hM : Metropolis fit accP (temp (k0 + n)) (d.u (k0 + n)) s.x x := Or.inr (by rw [← hcur]; exact h2)
      obtain ⟨a1, a2, a3, a4, a5, a6⟩ := common x (by rw [if_pos hM])
      refine ⟨a1, a2, by omega, a3, a4, ?_, ?_, ?_, rfl, hle.trans h.le, ?_, ?_, a5, a6⟩
      · simp [List.countP_append, h.acc, hM]
      · simp [List.countP_append, h.rej, hM]
      · simp [List.countP_append, h.imp, hnimp]
      · rw [hlog]
        exact ⟨hmem' _ h.best.1, h.best.2.1, fun z hz => by simpa [NotWorse] using hall _ le_rfl (hle.trans h.le) z hz⟩
      · rw [hlog]; exact hxm
    · rw [if_neg h2]
      have hM : ¬ Metropolis fit accP (temp (k0 + n)) (d.u (k0 + n)) s.x x := by
        rintro (h | h)
        · exact hnimp h
        · rw [← hcur] at h; exact h2 h
      obtain ⟨a1, a2, a3, a4, a5, a6⟩ := common s.x (by rw [if_neg hM])
      refine ⟨a1, a2, by omega, a3, a4, ?_, ?_, ?_, hcur, h.le, ?_, ?_, a5, a6⟩
      · simp [List.countP_append, h.acc, hM]
      · simp [List.countP_append, h.rej, hM]
      · simp [List.countP_append, h.imp, hnimp]
      · rw [hlog]
        exact ⟨hmem' _ h.best.1, h.best.2.1, fun z hz => by simpa [NotWorse] using hall _ le_rfl (hle.trans h.le) z hz⟩
      · rw [hlog]; exact hmem' _ h.mem

theorem chainLoop_inv {S : Space K} {Good : List K → Prop} {fit : List K → K} {accP : K → K → K} {temp : ℕ → K} {d : Draw K} (hd : MoveOK S Good d)
    {x0 : List K} {k0 : ℕ} (m n : ℕ) {s : Chain K} (h : CInv S Good fit accP temp d x0 k0 n s) :
    CInv S Good fit accP temp d x0 k0 (n + m) (chainLoop S fit accP temp d m (k0 + n) s) := by
  induction m generalizing n s with
  | zero => exact h
  | succ m ih =>
    have := ih (n + 1) (chainStep_inv hd h)
    rw [show n + (m + 1) = n + 1 + m by ring]
    exact this

theorem chainObject_inv {S : Space K} {Good : List K → Prop} {fit : List K → K} {accP : K → K → K} {temp : ℕ → K} {d : Draw K} (hd : MoveOK S Good d)
    {x0 : List K} {E0 : K} (hx : Good x0) (hE : E0 = fit x0) (kmin kmax : ℕ) :
    CInv S Good fit accP temp d x0 kmin (kmax + 1 - kmin) (chainObject S fit accP temp d x0 E0 kmin kmax) := by
  have := chainLoop_inv hd (kmax + 1 - kmin) 0 (cinv_init (accP := accP) (temp := temp) (d := d) (k0 := kmin) hx hE)
  rw [Nat.zero_add] at this
  exact this

/-! ### Lemmas: the step ranges -/

theorem ranges_eq {npop step0 : ℕ} (h0 : 1 ≤ step0) (n j : ℕ) (hj : 1 ≤ j) :
    ranges npop step0 n j (step0 + (j - 1) * npop) =
      (List.range n).map (fun i => (step0 + (j - 1 + i) * npop, step0 + (j + i) * npop - 1)) := by
  induction n generalizing j with
  | zero => rfl
  | succ n ih =>
    have e : step0 + j * npop - 1 + 1 = step0 + (j + 1 - 1) * npop := by
      rw [Nat.add_sub_cancel]; have := Nat.zero_le (j * npop); omega
    rw [ranges, e, ih (j + 1) (by omega), List.range_succ_eq_map, List.map_cons, List.map_map]
    congr 1
    apply List.map_congr_left
    intro i _
    show (step0 + (j + 1 - 1 + i) * npop, step0 + (j + 1 + i) * npop - 1) = (step0 + (j - 1 + (i + 1)) * npop, step0 + (j + (i + 1)) * npop - 1)
    rw [show j + 1 - 1 + i = j - 1 + (i + 1) by omega, show j + 1 + i = j + (i + 1) by ring]

theorem ranges_start {npop step0 : ℕ} (h0 : 1 ≤ step0) (n : ℕ) :
    ranges npop step0 n 1 step0 = (List.range n).map (fun i => (step0 + i * npop, step0 + (i + 1) * npop - 1)) := by
  have := ranges_eq (npop := npop) h0 n 1 le_rfl
  simp only [Nat.sub_self, Nat.zero_mul, Nat.add_zero, Nat.zero_add] at this
  rw [this]
  apply List.map_congr_left
  intro i _
  rw [Nat.add_comm 1 i]

/-- Blocks of consecutive numbers glue together. -/
theorem flatten_blocks {npop : ℕ} (cs : List (List ℕ)) (base : ℕ)
    (h : ∀ j l, cs[j]? = some l → l = (List.range npop).map (fun i => base + j * npop + i)) :
    cs.flatten = (List.range (cs.length * npop)).map (fun i => base + i) := by
  induction cs generalizing base with
  | nil => simp
  | cons l cs ih =>
    have e0 := h 0 l rfl
    have := ih (base + npop) (by
      intro j l' hl'
      rw [h (j + 1) l' (by simpa using hl')]
      apply List.map_congr_left
      intro i _
      ring)
    rw [List.flatten_cons, this, e0, List.length_cons, show (cs.length + 1) * npop = npop + cs.length * npop by ring,
      List.range_add, List.map_append, List.map_map]
    congr 1
    · apply List.map_congr_left; intro i _; ring
    · apply List.map_congr_left; intro i _; simp [Nat.add_assoc]

/-! ### Lemmas: argmax -/

theorem argmaxFrom_spec (vs : List K) (i : ℕ) (b : ℕ × K) :
    b.2 ≤ (argmaxFrom i b vs).2 ∧ (∀ v ∈ vs, v ≤ (argmaxFrom i b vs).2) ∧
    (argmaxFrom i b vs = b ∨ ∃ k, (argmaxFrom i b vs).1 = i + k ∧ vs[k]? = some (argmaxFrom i b vs).2) := by
  induction vs generalizing i b with
  | nil => simp [argmaxFrom]
  | cons v vs ih =>
    simp only [argmaxFrom]
    obtain ⟨h1, h2, h3⟩ := ih (i + 1) (if v > b.2 then (i, v) else b)
    by_cases hv : v > b.2
    · simp only [if_pos hv] at h1 h2 h3 ⊢
      refine ⟨hv.le.trans h1, ?_, ?_⟩
      · intro w hw
        rcases List.mem_cons.1 hw with rfl | hw
        · exact h1
        · exact h2 w hw
      · right
        rcases h3 with h3 | ⟨k, e1, e2⟩
        · rw [h3]; exact ⟨0, rfl, rfl⟩
        · exact ⟨k + 1, by rw [e1]; ring, by simpa using e2⟩
    · simp only [if_neg hv] at h1 h2 h3 ⊢
      refine ⟨h1, ?_, ?_⟩
      · intro w hw
        rcases List.mem_cons.1 hw with rfl | hw
        · exact (not_lt.1 hv).trans h1
        · exact h2 w hw
      · rcases h3 with h3 | ⟨k, e1, e2⟩
        · exact Or.inl h3
        · exact Or.inr ⟨k + 1, by rw [e1]; ring, by simpa using e2⟩

theorem argmax_spec {vs : List K} {r : ℕ × K} (h : argmax vs = .ok r) : vs[r.1]? = some r.2 ∧ ∀ v ∈ vs, v ≤ r.2 := by
  cases vs with
  | nil => cases h
  | cons v vs =>
    cases h
    obtain ⟨h1, h2, h3⟩ := argmaxFrom_spec vs 1 (0, v)
    refine ⟨?_, ?_⟩
    · rcases h3 with h3 | ⟨k, e1, e2⟩
      · rw [h3]; rfl
      · rw [e1, Nat.add_comm]; simpa using e2
    · intro w hw
      rcases List.mem_cons.1 hw with rfl | hw
      · exact h1
      · exact h2 w hw

/-! ### Lemmas: one generation -/

theorem chains_getElem? {c : Conf K} {fit : List K → K} {g : GDraw K} {step0 : ℕ} (h0 : 1 ≤ step0) {starts : List (List K × K)}
    (hl : starts.length = c.ncores) {j : ℕ} {s : Chain K} (h : (chains c fit g step0 starts)[j]? = some s) :
    ∃ p, starts[j]? = some p ∧ s = chainObject c.S fit c.accP (g.temp j) (g.core j) p.1 p.2 (step0 + j * c.npop)
      (step0 + (j + 1) * c.npop - 1) := by
  unfold chains at h
  rw [ranges_start h0, List.getElem?_mapIdx] at h
  cases e : ((List.range c.ncores).map (fun i => (step0 + i * c.npop, step0 + (i + 1) * c.npop - 1)) |>.zip starts)[j]? with
  | none => rw [e] at h; cases h
  | some q =>
    rw [e] at h
    cases h
    obtain ⟨h1, h2⟩ := List.getElem?_zip_eq_some.1 e
    refine ⟨q.2, h2, ?_⟩
    rw [List.getElem?_map] at h1
    cases e' : (List.range c.ncores)[j]? with
    | none => rw [e'] at h1; cases h1
    | some i =>
      rw [e'] at h1
      have : i = j := by
        have := List.getElem?_eq_some_iff.1 e'
        obtain ⟨_, h⟩ := this
        simpa using h.symm
      subst this
      have : q.1 = (step0 + i * c.npop, step0 + (i + 1) * c.npop - 1) := by simpa using h1.symm
      show chainObject c.S fit c.accP (g.temp i) (g.core i) q.2.1 q.2.2 q.1.1 q.1.2 = _
      rw [this]

theorem length_chains {c : Conf K} {fit : List K → K} {g : GDraw K} {step0 : ℕ} (h0 : 1 ≤ step0) {starts : List (List K × K)}
    (hl : starts.length = c.ncores) : (chains c fit g step0 starts).length = c.ncores := by
  simp [chains, ranges_start h0, hl]

/-- Facts about all the chains of one generation. -/
theorem chains_inv {c : Conf K} {Good : List K → Prop} {fit : List K → K} {g : GDraw K} (hd : ∀ j, MoveOK c.S Good (g.core j))
    {step0 : ℕ} (h0 : 1 ≤ step0) {starts : List (List K × K)} (hl : starts.length = c.ncores)
    (hs : ∀ p ∈ starts, Good p.1 ∧ p.2 = fit p.1) {j : ℕ} {s : Chain K} (h : (chains c fit g step0 starts)[j]? = some s) :
    ∃ p, starts[j]? = some p ∧ CInv c.S Good fit c.accP (g.temp j) (g.core j) p.1 (step0 + j * c.npop) c.npop s := by
  obtain ⟨p, hp, rfl⟩ := chains_getElem? h0 hl h
  refine ⟨p, hp, ?_⟩
  obtain ⟨h1, h2⟩ := hs p (List.mem_of_getElem? hp)
  have := chainObject_inv (hd j) h1 h2 (accP := c.accP) (temp := g.temp j) (step0 + j * c.npop) (step0 + (j + 1) * c.npop - 1)
  rwa [show step0 + (j + 1) * c.npop - 1 + 1 - (step0 + j * c.npop) = c.npop by
    rw [Nat.add_mul, Nat.one_mul]; omega] at this

theorem CInv.len {S : Space K} {Good : List K → Prop} {fit : List K → K} {accP : K → K → K} {temp : ℕ → K} {d : Draw K} {x0 : List K}
    {k0 n : ℕ} {s : Chain K} (h : CInv S Good fit accP temp d x0 k0 n s) : s.trace.length = n := by
  simpa using congrArg List.length h.steps

theorem CInv.total {S : Space K} {Good : List K → Prop} {fit : List K → K} {accP : K → K → K} {temp : ℕ → K} {d : Draw K} {x0 : List K}
    {k0 n : ℕ} {s : Chain K} (h : CInv S Good fit accP temp d x0 k0 n s) : s.acc + s.rej = n ∧ s.imp ≤ s.acc := by
  constructor
  · rw [h.acc, h.rej, ← h.len]
    have := List.length_eq_countP_add_countP (fun e : Entry K => decide (Metropolis fit accP (temp e.step) (d.u e.step) e.src e.cand)) (l := s.trace)
    rw [this]
    congr 2
    funext e
    simp
  · rw [h.imp, h.acc]
    apply List.countP_mono_left
    intro e _ he
    simp only [decide_eq_true_eq] at he ⊢
    exact Or.inl he

/-! ### Lemmas: the whole run -/

/-- Everything known about the state after `G` executed generations. -/
structure Inv (c : Conf K) (Good : List K → Prop) (fit : List K → K) (G : ℕ) (s : State K) : Prop where
  step0 : s.step0 = 1 + G * (c.npop * c.ncores)
  starts : s.starts.length = c.ncores ∧ ∀ p ∈ s.starts, (Good p.1 ∧ p.2 = fit p.1) ∧ p.1 ∈ s.log
  good : ∀ z ∈ s.log, Good z
  len : s.log.length = c.ncores + G * (c.ncores * c.npop)
  steps : s.steps = (List.range (G * (c.ncores * c.npop))).map (fun i => 1 + i)
  opt0 : G = 0 → s.opt = none ∧ s.xc = none
  opt : G ≠ 0 → ∃ o, s.opt = some o ∧ IsBest false fit s.log o.1 o.2
  xc : s.stopped = false → s.xc = s.opt.map Prod.fst
  lens : s.fits.length = G ∧ s.stats.length = G
  stats : ∀ p ∈ s.stats, p.1 + p.2.1 = c.npop ∧ p.2.2 ≤ p.1
  hist : c.reinforce = .hard → HistBest false fit c.ncores (c.ncores * c.npop) s.log s.fits ∧
    (s.stopped = false → G ≠ 0 → ∀ o, s.opt = some o → s.starts = List.replicate c.ncores o)
  start0 : G = 0 → s.log = s.starts.map Prod.fst

theorem init_inv {c : Conf K} {Good : List K → Prop} {fit : List K → K} {x0 : List (List K)} (hl : x0.length = c.ncores)
    (hb : ∀ x, Good x → InBox c.S.bounds x) (hg : ∀ x ∈ x0, Good x) : Inv c Good fit 0 (init c fit x0) := by
  have hc : x0.map c.S.clip = x0 := by
    conv_rhs => rw [← List.map_id x0]
    apply List.map_congr_left
    intro x hx
    exact c.S.clip_of_inBox (hb x (hg x hx))
  refine ⟨by simp [init], ⟨by simp [init, hl], ?_⟩, ?_, by simp [init, hl], by simp [init], by simp [init], by simp, by simp [init], by simp [init],
    by simp [init], ?_, ?_⟩
  · intro p hp
    simp only [init, List.mem_map] at hp
    obtain ⟨x, hx, rfl⟩ := hp
    refine ⟨⟨hg x hx, ?_⟩, ?_⟩
    · show fit (c.S.clip x) = fit x
      rw [c.S.clip_of_inBox (hb x (hg x hx))]
    · simp only [init, hc]; exact hx
  · intro z hz
    simp only [init, hc] at hz
    exact hg z hz
  · intro _
    refine ⟨?_, by simp⟩
    have := histBest_nil false fit (c.ncores * c.npop) (init c fit x0).log
    rwa [show (init c fit x0).log.length = c.ncores by simp [init, hl]] at this
  · intro _
    simp only [init, hc, List.map_map]
    conv_lhs => rw [← List.map_id x0]
    rfl

theorem softNext_spec {c : Conf K} {g : GDraw K} {cs : List (Chain K)} {nx : List (List K × K)} (h : softNext c g cs = .ok nx) :
    nx.length = cs.length ∧ ∀ p ∈ nx, ∃ s ∈ cs, p = (s.xb, s.Eb) := by
  unfold softNext at h
  split at h
  · cases h
  rename_i am ham
  refine ⟨(mapRows_ok h).1, ?_⟩
  refine mapRows_forall (P := fun _ => True) (Q := fun p => ∃ s ∈ cs, p = (s.xb, s.Eb)) h (by simp) ?_
  intro i x y _ hy
  split at hy
  · cases hy
  split at hy
  · rename_i s hs
    cases hy
    exact ⟨s, List.mem_of_getElem? hs, rfl⟩
  · cases hy

theorem gen_inv {c : Conf K} {Good : List K → Prop} {fit : List K → K} {g : GDraw K} (hd : ∀ j, MoveOK c.S Good (g.core j)) {G : ℕ}
    {s s' : State K} (hi : Inv c Good fit G s) (hns : s.stopped = false) (h : gen c fit g s = .ok s') : Inv c Good fit (G + 1) s' := by
  unfold gen at h
  rw [hns] at h
  simp only [Bool.false_eq_true, if_false] at h
  have h0 : 1 ≤ s.step0 := by rw [hi.step0]; omega
  have hcs := fun j cj => chains_inv (c := c) (fit := fit) (g := g) hd h0 hi.starts.1 (fun p hp => (hi.starts.2 p hp).1) (j := j) (s := cj)
  have hlen := length_chains (c := c) (fit := fit) (g := g) h0 hi.starts.1
  set cs := chains c fit g s.step0 s.starts with hcsdef
  split at h
  · cases h
  rename_i am ham
  split at h
  · cases h
  rename_i b hb
  obtain ⟨am1, am2⟩ := argmax_spec ham
  have hbE : b.Eb = am.2 := by
    rw [List.getElem?_map, hb] at am1
    simpa using am1
  set L := cs.flatMap (fun s : Chain K => s.trace.map (fun e : Entry K => e.cand)) with hL
  have hmem : ∀ cj ∈ cs, ∃ j, cs[j]? = some cj := fun cj hcj => List.mem_iff_getElem?.1 hcj
  have hLle : ∀ z ∈ L, fit z ≤ am.2 := by
    intro z hz
    obtain ⟨cj, hcj, hz⟩ := List.mem_flatMap.1 hz
    obtain ⟨j, hj⟩ := hmem cj hcj
    obtain ⟨p, hp, hinv⟩ := hcs j cj hj
    have h1 : fit z ≤ cj.Eb := by simpa [NotWorse] using hinv.best.2.2 z (by simp only [List.mem_cons]; exact Or.inr hz)
    exact h1.trans (am2 _ (List.mem_map_of_mem hcj))
  have hstartle : ∀ p ∈ s.starts, fit p.1 ≤ am.2 := by
    intro p hp
    obtain ⟨j, hj⟩ := List.mem_iff_getElem?.1 hp
    have hjl : j < cs.length := by have := (List.getElem?_eq_some_iff.1 hj).1; rw [hlen]; rw [← hi.starts.1]; exact this
    obtain ⟨p', hp', hinv⟩ := hcs j _ (List.getElem?_eq_getElem hjl)
    rw [hj] at hp'; cases hp'
    have h1 : fit p.1 ≤ cs[j].Eb := by simpa [NotWorse] using hinv.best.2.2 p.1 (by simp)
    exact h1.trans (am2 _ (List.mem_map_of_mem (List.getElem_mem _)))
  have hin : ∀ cj ∈ cs, ∀ z, (∃ p ∈ s.starts, z ∈ p.1 :: cj.trace.map (fun e : Entry K => e.cand)) → z ∈ s.log ++ L := by
    rintro cj hcj z ⟨p, hp, hz⟩
    rcases List.mem_cons.1 hz with rfl | hz
    · exact List.mem_append_left _ (hi.starts.2 p hp).2
    · exact List.mem_append_right _ (List.mem_flatMap.2 ⟨cj, hcj, hz⟩)
  have hbmem : ∀ cj ∈ cs, cj.xb ∈ s.log ++ L ∧ cj.Eb = fit cj.xb ∧ Good cj.xb := by
    intro cj hcj
    obtain ⟨j, hj⟩ := hmem cj hcj
    obtain ⟨p, hp, hinv⟩ := hcs j cj hj
    refine ⟨hin cj hcj _ ⟨p, List.mem_of_getElem? hp, hinv.best.1⟩, hinv.best.2.1, ?_⟩
    rcases List.mem_cons.1 hinv.best.1 with e | e
    · rw [e]; exact (hi.starts.2 p (List.mem_of_getElem? hp)).1.1
    · obtain ⟨en, hen, e⟩ := List.mem_map.1 e
      rw [← e]; exact hinv.box.2 en hen
  have hbcs : b ∈ cs := List.mem_of_getElem? hb
  have hLgood : ∀ z ∈ L, Good z := by
    intro z hz
    obtain ⟨cj, hcj, hz⟩ := List.mem_flatMap.1 hz
    obtain ⟨j, hj⟩ := hmem cj hcj
    obtain ⟨p, hp, hinv⟩ := hcs j cj hj
    obtain ⟨e, he, rfl⟩ := List.mem_map.1 hz
    exact hinv.box.2 e he
  have hLlen : L.length = c.ncores * c.npop := by
    rw [hL, List.length_flatMap, ← hlen]
    have : cs.map (fun s : Chain K => (s.trace.map (fun e : Entry K => e.cand)).length) = cs.map (fun _ => c.npop) := by
      apply List.map_congr_left
      intro cj hcj
      obtain ⟨j, hj⟩ := hmem cj hcj
      obtain ⟨p, hp, hinv⟩ := hcs j cj hj
      simp [hinv.len]
    rw [this]; simp
  have hsteps : cs.flatMap (fun s : Chain K => s.trace.map (fun e : Entry K => e.step)) =
      (List.range (c.ncores * c.npop)).map (fun i => s.step0 + i) := by
    rw [List.flatMap_def]
    have := flatten_blocks (npop := c.npop) (cs.map (fun s : Chain K => s.trace.map (fun e : Entry K => e.step))) s.step0 (by
      intro j l hl
      rw [List.getElem?_map] at hl
      cases e : cs[j]? with
      | none => rw [e] at hl; cases hl
      | some cj =>
        rw [e] at hl; cases hl
        obtain ⟨p, hp, hinv⟩ := hcs j cj e
        exact hinv.steps)
    rw [this, List.length_map, hlen]
  -- the best of everything evaluated so far
  set opt : List K × K := (match s.opt with
        | none => (b.xb, am.2)
        | some o => if am.2 > o.2 then (b.xb, am.2) else o) with hopt
  have hoptBest : IsBest false fit (s.log ++ L) opt.1 opt.2 := by
    by_cases hG : G = 0
    · have : opt = (b.xb, am.2) := by rw [hopt, (hi.opt0 hG).1]
      rw [this]
      refine ⟨(hbmem b hbcs).1, by rw [← hbE]; exact (hbmem b hbcs).2.1, ?_⟩
      intro z hz
      simp only [NotWorse, Bool.false_eq_true, if_false]
      rcases List.mem_append.1 hz with hz | hz
      · rw [hi.start0 hG] at hz
        obtain ⟨p, hp, rfl⟩ := List.mem_map.1 hz
        exact hstartle p hp
      · exact hLle z hz
    · obtain ⟨o, ho, hob⟩ := hi.opt hG
      have hole : ∀ z ∈ s.log, fit z ≤ o.2 := fun z hz => by simpa [NotWorse] using hob.2.2 z hz
      by_cases hc : am.2 > o.2
      · have : opt = (b.xb, am.2) := by rw [hopt, ho]; simp only [if_pos hc]
        rw [this]
        refine ⟨(hbmem b hbcs).1, by rw [← hbE]; exact (hbmem b hbcs).2.1, ?_⟩
        intro z hz
        simp only [NotWorse, Bool.false_eq_true, if_false]
        rcases List.mem_append.1 hz with hz | hz
        · exact (hole z hz).trans hc.le
        · exact hLle z hz
      · have : opt = o := by rw [hopt, ho]; simp only [if_neg hc]
        rw [this]
        refine ⟨List.mem_append_left _ hob.1, hob.2.1, ?_⟩
        intro z hz
        simp only [NotWorse, Bool.false_eq_true, if_false]
        rcases List.mem_append.1 hz with hz | hz
        · exact hole z hz
        · exact (hLle z hz).trans (not_lt.1 hc)
  have hGG : (G + 1) * (c.ncores * c.npop) = G * (c.ncores * c.npop) + c.ncores * c.npop := by ring
  have hlogG : ∀ z ∈ s.log ++ L, Good z := by
    intro z hz
    rcases List.mem_append.1 hz with hz | hz
    · exact hi.good z hz
    · exact hLgood z hz
  have hstep' : s.step0 + c.npop * c.ncores = 1 + (G + 1) * (c.npop * c.ncores) := by rw [hi.step0]; ring
  have hlen' : (s.log ++ L).length = c.ncores + (G + 1) * (c.ncores * c.npop) := by
    rw [List.length_append, hi.len, hLlen, hGG]; ring
  have hsteps' : s.steps ++ cs.flatMap (fun s : Chain K => s.trace.map (fun e : Entry K => e.step)) =
      (List.range ((G + 1) * (c.ncores * c.npop))).map (fun i => 1 + i) := by
    rw [hsteps, hi.steps, hGG, List.range_add, List.map_append, List.map_map]
    congr 1
    apply List.map_congr_left
    intro i _
    show s.step0 + i = 1 + (G * (c.ncores * c.npop) + i)
    rw [hi.step0]; ring
  have hstats : ∀ p ∈ s.stats ++ [(b.acc, b.rej, b.imp)], p.1 + p.2.1 = c.npop ∧ p.2.2 ≤ p.1 := by
    intro p hp
    rcases List.mem_append.1 hp with hp | hp
    · exact hi.stats p hp
    · simp only [List.mem_singleton] at hp
      subst hp
      obtain ⟨j, hj⟩ := hmem b hbcs
      obtain ⟨q, hq, hinv⟩ := hcs j b hj
      exact hinv.total
  have hhist : c.reinforce = .hard → HistBest false fit c.ncores (c.ncores * c.npop) (s.log ++ L) (s.fits ++ [am.2]) := by
    intro hh
    refine (hi.hist hh).1.step hLlen ⟨⟨b.xb, (hbmem b hbcs).1, by rw [← hbE]; exact (hbmem b hbcs).2.1.symm⟩, ?_⟩
    intro z hz
    simp only [NotWorse, Bool.false_eq_true, if_false]
    rcases List.mem_append.1 hz with hz | hz
    · by_cases hG : G = 0
      · rw [hi.start0 hG] at hz
        obtain ⟨p, hp, rfl⟩ := List.mem_map.1 hz
        exact hstartle p hp
      · obtain ⟨o, ho, hob⟩ := hi.opt hG
        have hst := (hi.hist hh).2 hns hG o ho
        have hnc : c.ncores ≠ 0 := by
          intro h0'
          rw [h0'] at hlen
          rw [List.length_eq_zero_iff.1 hlen] at hbcs
          cases hbcs
        have : o ∈ s.starts := by rw [hst]; exact List.mem_replicate.2 ⟨hnc, rfl⟩
        have h1 : fit z ≤ o.2 := by simpa [NotWorse] using hob.2.2 z hz
        exact h1.trans (by rw [hob.2.1]; exact hstartle o this)
    · exact hLle z hz
  split at h
  · cases h
    refine ⟨hstep', ⟨hi.starts.1, fun p hp => ⟨(hi.starts.2 p hp).1, List.mem_append_left _ (hi.starts.2 p hp).2⟩⟩, hlogG, hlen', hsteps',
      by omega, fun _ => ⟨opt, rfl, hoptBest⟩, ?_, ?_, hstats, fun hh => ⟨hhist hh, ?_⟩, by omega⟩
    · intro hf; cases hf
    · show (s.fits ++ [am.2]).length = G + 1 ∧ (s.stats ++ [(b.acc, b.rej, b.imp)]).length = G + 1
      simp [hi.lens]
    · intro hf; cases hf
  · split at h
    · cases h
    rename_i nx hnx
    cases h
    have hnxp : nx.length = c.ncores ∧ ∀ p ∈ nx, (Good p.1 ∧ p.2 = fit p.1) ∧ p.1 ∈ s.log ++ L := by
      cases hr : c.reinforce with
      | no =>
        rw [hr] at hnx
        cases hnx
        refine ⟨by simp [hlen], ?_⟩
        intro p hp
        obtain ⟨cj, hcj, rfl⟩ := List.mem_map.1 hp
        obtain ⟨j, hj⟩ := hmem cj hcj
        obtain ⟨q, hq, hinv⟩ := hcs j cj hj
        exact ⟨⟨hinv.box.1, hinv.cur⟩, hin cj hcj _ ⟨q, List.mem_of_getElem? hq, hinv.mem⟩⟩
      | hard =>
        rw [hr] at hnx
        cases hnx
        refine ⟨by simp, ?_⟩
        intro p hp
        rw [List.eq_of_mem_replicate hp]
        exact ⟨⟨hlogG _ hoptBest.1, hoptBest.2.1⟩, hoptBest.1⟩
      | soft =>
        rw [hr] at hnx
        obtain ⟨e1, e2⟩ := softNext_spec hnx
        refine ⟨by rw [e1, hlen], ?_⟩
        intro p hp
        obtain ⟨cj, hcj, rfl⟩ := e2 p hp
        obtain ⟨f1, f2, f3⟩ := hbmem cj hcj
        exact ⟨⟨f3, f2⟩, f1⟩
    refine ⟨hstep', hnxp, hlogG, hlen', hsteps', by omega, fun _ => ⟨opt, rfl, hoptBest⟩, fun _ => rfl, ?_, hstats,
      fun hh => ⟨hhist hh, ?_⟩, by omega⟩
    · show (s.fits ++ [am.2]).length = G + 1 ∧ (s.stats ++ [(b.acc, b.rej, b.imp)]).length = G + 1
      simp [hi.lens]
    · intro _ _ o ho
      rw [hh] at hnx
      cases hnx
      have : opt = o := by simpa using ho
      rw [← this]

theorem run_inv {c : Conf K} {Good : List K → Prop} {fit : List K → K} {dr : ℕ → GDraw K} (hd : ∀ i j, MoveOK c.S Good ((dr i).core j))
    {x0 : List (List K)} (hl : x0.length = c.ncores) (hb : ∀ x, Good x → InBox c.S.bounds x) (hg : ∀ x ∈ x0, Good x) {n : ℕ}
    {s : State K} (h : run c fit dr x0 n = .ok s) :
    ∃ G ≤ n, (s.stopped = false → G = n) ∧ Inv c Good fit G s := by
  induction n generalizing s with
  | zero => cases h; exact ⟨0, le_rfl, fun _ => rfl, init_inv hl hb hg⟩
  | succ n ih =>
    simp only [run] at h
    split at h
    · cases h
    rename_i s0 h0
    obtain ⟨G, hG, hst, hinv⟩ := ih h0
    by_cases hs : s0.stopped = true
    · unfold gen at h
      rw [if_pos hs] at h
      cases h
      exact ⟨G, by omega, by rw [hs]; simp, hinv⟩
    · have hs' : s0.stopped = false := by simpa using hs
      refine ⟨G + 1, by omega, fun _ => by rw [hst hs'], gen_inv (hd n) hinv hs' h⟩

end
end Neorl.SA

import Verif.HCLPSO
import Mathlib.Tactic.Linarith
import Mathlib.Tactic.IntervalCases
import Mathlib.Algebra.BigOperators.Group.List.Basic

/-!
# EPSO (`neorl/hybrid/epso.py`)

Simplifications: exact arithmetic (also in the phase test `fitcount <= 0.9*max_FES`); `Pc` (lines 325-327) is a parameter; the three nearest personal bests of
LIPS (`np.argsort` of Euclidean distances, lines 458-460) are an arbitrary choice `near`; grid variables as integers (C05); `delta` is not kept (it is written
before it is read).
-/

set_option linter.unusedSectionVars false
set_option linter.unusedVariables false

namespace Neorl.EPSO
open Particles
open EDEV (repair worker repair_feasible repair_rows repair_total)

section
variable {K : Type} [Field K] [LinearOrder K] [IsStrictOrderedRing K] [FloorRing K]

/-- `v_max`, line 274. -/
def vmax (S : Space K) (j : ℕ) : K := ((S.bounds.getD j (0, 0)).2 - (S.bounds.getD j (0, 0)).1) * (1 / 2)

/-- `a - arange(ngen)*b/ngen`, lines 292-323. -/
def ramp (a b : K) (ngen k : ℕ) : K := a - (k : K) * b / (ngen : K)

/-- Random numbers of one generation for all particles: first exemplar or refreshed exemplar `fr`, roulette `prob`, factors `u1 u2 u3`, HPSO restart
`coin z`, LIPS neighbours `near` and weights `fi`, discrete repair `d`. -/
structure Draws (K : Type) where
  fr : ℕ → FDraw K
  prob : ℕ → K
  u1 : ℕ → ℕ → K
  u2 : ℕ → ℕ → K
  u3 : ℕ → ℕ → K
  coin : ℕ → ℕ → K
  z : ℕ → ℕ → K
  near : ℕ → ℕ → ℕ
  fi : ℕ → ℕ → ℕ → K
  d : ℕ → ℕ → K × ℕ

/-! ### Roulette -/

/-- The learning memory: probabilities, their cumulative sums, successes and failures per strategy. -/
structure Roul (K : Type) where
  pk : List K
  rk : List K
  succ : List ℕ
  fail : List ℕ

/-- Lines 393-399, 538-544. -/
def Roul.uniform : Roul K :=
  ⟨List.replicate 5 (1 / 5), (List.range 6).map (fun i => (i : K) / 5), List.replicate 5 0, List.replicate 5 0⟩

/-- `sk`, lines 402-404, 547-549. -/
def score (s f : ℕ) : K := (s : K) / ((if s + f = 0 then 1 else s + f : ℕ) : K) + 1 / 100

/-- Lines 401-412, 546-558. -/
def Roul.learn (r : Roul K) : Roul K :=
  let sk := (List.range 5).map (fun j => score (r.succ.getD j 0) (r.fail.getD j 0))
  let pk := sk.map (fun x => x / sk.sum)
  ⟨pk, (List.range 6).map (fun n => (pk.take n).sum), List.replicate 5 0, List.replicate 5 0⟩

/-- Lines 393-412: done for every particle, only the first changes anything. -/
def prep (k : ℕ) (flag : Bool) (r : Option (Roul K)) : Py (Roul K × Bool) :=
  if k ≤ 1 then .ok (Roul.uniform, flag)
  else match r with
    | none => .error .unboundLocal
    | some r => if flag then .ok (r.learn, false) else .ok (r, flag)

/-- The chain of tests on `rk`, lines 416-478, 562-622; 5 when none holds. -/
def choose (rk : List K) (u : K) : ℕ := ((List.range 5).find? (fun j => decide (rk.getD j 0 ≤ u ∧ u < rk.getD (j + 1) 0))).getD 5

/-! ### The five moves -/

/-- First index below `n` with the largest value (`np.argmax`). -/
def argmaxTo (F : ℕ → K) : ℕ → ℕ
  | 0 => 0
  | n + 1 => if F (argmaxTo F n) < F n then n else argmaxTo F n

/-- `FDR[r, d]`, lines 429-434: fitness improvement per distance, zero where the coordinates agree. -/
def fdr (pb : List (Indv K)) (i d r : ℕ) : K :=
  let me := pb.getD i ([], 0)
  let other := pb.getD r ([], 0)
  let dis := |me.1.getD d 0 - other.1.getD d 0|
  if dis = 0 then 0 else (me.2 - other.2) / dis

/-- `np.sign(v)*np.minimum(abs(v), ub)`, lines 451, 596. -/
def hclamp (ub v : K) : K := (if v < 0 then -1 else if v = 0 then 0 else 1) * min |v| ub

/-- Velocity component `j` of particle `i` before the limits, lines 416-478, 562-622. -/
def rawVel (S : Space K) (g2 ngen k : ℕ) (D : Draws K) (pb : List (Indv K)) (gb x v fri : List K) (i st j : ℕ) : K :=
  let p := ((pb.getD i ([], 0)).1).getD j 0
  let xj := x.getD j 0
  let gj := gb.getD j 0
  let w2 := ramp (9 / 10) (7 / 10) ngen k
  let ca := ramp (5 / 2) 2 ngen k
  let cb := ramp (1 / 2) (-2) ngen k
  let ub := (S.bounds.getD j (0, 0)).2
  if st = 0 then w2 * v.getD j 0 + (ca * D.u1 i j * (p - xj) + cb * D.u2 i j * (gj - xj))
  else if st = 1 then
    let pn := ((pb.getD (argmaxTo (fdr pb i j) g2) ([], 0)).1).getD j 0
    w2 * v.getD j 0 + (1 * D.u1 i j * (p - xj) + 1 * D.u2 i j * (gj - xj) + 2 * D.u3 i j * (pn - xj))
  else if st = 2 then
    let v0 := ca * D.u1 i j * (p - xj) + cb * D.u2 i j * (gj - xj)
    let v1 := if v0 = 0 then (if D.coin i j < 1 / 2 then D.z i j * ramp ub (9 / 10 * ub) ngen k else -D.z i j * ramp ub (9 / 10 * ub) ngen k) else v0
    hclamp ub v1
  else if st = 3 then
    let fi := fun r => (41 / 10) / 3 * D.fi i r j
    let q := fun r => ((pb.getD (D.near i r) ([], 0)).1).getD j 0
    let tot := fi 0 + fi 1 + fi 2
    let fip := (fi 0 * q 0 + fi 1 * q 1 + fi 2 * q 2) / tot
    (7298 / 10000) * (v.getD j 0 + tot * (fip - xj))
  else w2 * v.getD j 0 + (ca * D.u1 i j * (fri.getD j 0 - xj) + cb * D.u2 i j * (gj - xj))

/-- New velocity of a particle of the second kind, with the limits of lines 480-483, 624-627. -/
def velRow2 (S : Space K) (g2 ngen k : ℕ) (D : Draws K) (pb : List (Indv K)) (gb x v fri : List K) (i st : ℕ) : List K :=
  (List.range S.bounds.length).map (fun j => limit (-vmax S j) (vmax S j) (rawVel S g2 ngen k D pb gb x v fri i st j))

/-- New velocity of a particle of group 1 in the exploration phase, lines 357-361. -/
def velRow1 (S : Space K) (ngen k : ℕ) (D : Draws K) (x v fri : List K) (i : ℕ) : List K :=
  (List.range S.bounds.length).map (fun j =>
    limit (-vmax S j) (vmax S j) (ramp (9 / 10) (1 / 2) ngen k * v.getD j 0 + ramp 3 (3 / 2) ngen k * D.u1 i j * (fri.getD j 0 - x.getD j 0)))

/-- `Positions[i,:] + vel[i,:]`. -/
def addRow (dim : ℕ) (x v : List K) : List K := (List.range dim).map (fun j => x.getD j 0 + v.getD j 0)

/-! ### State -/

structure State (K : Type) where
  pos : List (List K)
  vel : List (List K)
  fri : List (List K)
  mem : Mem K
  roul : Option (Roul K)
  flag : Bool
  /-- `self.fitcount` -/
  cnt : ℕ
  log : List (List K)
  hG : List K
  hL : List K
  /-- `success_hist` -/
  rates : List (List K)
  /-- ghost: was generation `k` an exploitation generation? -/
  phases : List Bool

/-- Configuration: space, group sizes, generations, learning period, one process. -/
structure Cfg (K : Type) where
  S : Space K
  g1 : ℕ
  g2 : ℕ
  ngen : ℕ
  LP : ℕ
  serial : Bool

def Cfg.g (C : Cfg K) : ℕ := C.g1 + C.g2

/-- Lines 237-339. -/
def start (C : Cfg K) (pc : ℕ → K) (f : List K → K) (x0 : List (List K)) (v0 : ℕ → ℕ → K) (D : Draws K) : Py (State K) :=
  let dim := C.S.bounds.length
  match mapRows (repair C.S 1 D.d) 0 x0 with
  | .error e => .error e
  | .ok pos =>
    match Swarm.select f pos with
    | .error e => .error e
    | .ok b =>
      let pb := pos.map (fun x => (x, f x))
      .ok { pos := pos, vel := (List.range C.g).map (fun i => (List.range dim).map (fun j => -vmax C.S j + (vmax C.S j - -vmax C.S j) * v0 i j)),
            fri := HCLPSO.firstFri dim C.g1 C.g pc pb D.fr, mem := ⟨pb, List.replicate C.g 0, b.1, .copy b.2⟩, roul := none, flag := false,
            cnt := if C.serial then pos.length else 0, log := pos.map C.S.clip, hG := [], hL := [], rates := [], phases := [] }

/-- Failure counter of group 1, lines 374-380. -/
def rule1 (result old _new : K) (s : ℕ) : ℕ := if result < old then 0 else s + 1

/-- Failure counter elsewhere, lines 504-507, 647-650: compared with the personal best *after* its update. -/
def rule2 (st : ℕ) (result _old new : K) (s : ℕ) : ℕ := if st = 4 ∧ result < new then 0 else s + 1

/-- `success_mem`, `failure_mem`, lines 497-502, 640-645: how often strategy `j` (not) improved. -/
def tally (f : List K → K) (pb : List (Indv K)) (lo : ℕ) (strat : List ℕ) (rows : List (List K)) (good : Bool) (j : ℕ) : ℕ :=
  (List.range rows.length).countP (fun i => strat.getD i 5 == j && (decide (f (rows.getD i []) < (pb.getD (lo + i) ([], 0)).2) == good))

/-- Group 1 in the exploration phase, lines 354-383. -/
def first (C : Cfg K) (pc : ℕ → K) (f : List K → K) (D : Draws K) (k : ℕ) (s : State K) : Py (State K) :=
  let dim := C.S.bounds.length
  let rf := (List.range C.g1).map (fun i => refresh dim C.g1 (pc i) s.mem.pb (D.fr i) i (s.fri.getD i []) (s.mem.slope.getD i 0))
  let vel := (List.range C.g1).map (fun i => velRow1 C.S C.ngen k D (s.pos.getD i []) (s.vel.getD i []) ((rf.getD i ([], 0)).1) i)
  match mapRows (repair C.S (1 - (k : K) * (1 / (C.ngen : K))) D.d) 0 ((List.range C.g1).map (fun i => addRow dim (s.pos.getD i []) (vel.getD i []))) with
  | .error e => .error e
  | .ok rows =>
    .ok { s with pos := rows ++ s.pos.drop C.g1, vel := vel ++ s.vel.drop C.g1, fri := rf.map Prod.fst ++ s.fri.drop C.g1,
                 mem := notes (fun _ => false) (fun _ => rule1) f { s.mem with slope := rf.map Prod.snd ++ s.mem.slope.drop C.g1 } 0 rows,
                 cnt := s.cnt + (if C.serial then rows.length else 0), log := s.log ++ rows.map C.S.clip }

/-- The roulette before the first of the particles from `lo` on. -/
def spin (C : Cfg K) (k lo : ℕ) (s : State K) : Py (Option (Roul K) × Bool) :=
  if lo < C.g then
    match prep k s.flag s.roul with
    | .error e => .error e
    | .ok q => .ok (some q.1, q.2)
  else .ok (s.roul, s.flag)

/-- The particles from `lo` on, lines 386-517 (`lo = g1`) and 527-660 (`lo = 0`).  LIPS multiplies three weight rows with the three nearest personal bests,
which fails for a swarm of two. -/
def second (C : Cfg K) (pc : ℕ → K) (f : List K → K) (D : Draws K) (k lo : ℕ) (gb : List K) (s : State K) : Py (State K) :=
  let dim := C.S.bounds.length
  match spin C k lo s with
  | .error e => .error e
  | .ok (ro, flag) =>
    let strat := (List.range' lo (C.g - lo)).map (fun i => choose ((ro.map Roul.rk).getD []) (D.prob i))
    if strat.any (fun st => decide (5 ≤ st)) then .error .unboundLocal
    else if strat.any (fun st => decide (st = 3)) ∧ C.g = 2 then .error .valueError
    else
      let st := fun i => strat.getD (i - lo) 5
      let rf := (List.range' lo (C.g - lo)).map (fun i =>
        if st i = 4 then refresh dim C.g1 (pc i) s.mem.pb (D.fr i) i (s.fri.getD i []) (s.mem.slope.getD i 0) else (s.fri.getD i [], s.mem.slope.getD i 0))
      let vel := (List.range' lo (C.g - lo)).map (fun i =>
        velRow2 C.S C.g2 C.ngen k D s.mem.pb gb (s.pos.getD i []) (s.vel.getD i []) ((rf.getD (i - lo) ([], 0)).1) i (st i))
      match mapRows (repair C.S (1 - (k : K) * (1 / (C.ngen : K))) D.d) lo
          ((List.range' lo (C.g - lo)).map (fun i => addRow dim (s.pos.getD i []) (vel.getD (i - lo) []))) with
      | .error e => .error e
      | .ok rows =>
        let mem0 := { s.mem with slope := s.mem.slope.take lo ++ rf.map Prod.snd }
        let ro' := ro.map (fun r => { r with succ := (List.range 5).map (fun j => r.succ.getD j 0 + tally f s.mem.pb lo strat rows true j),
                                             fail := (List.range 5).map (fun j => r.fail.getD j 0 + tally f s.mem.pb lo strat rows false j) })
        if C.LP = 0 then .error .zeroDivision
        else
          .ok { s with pos := s.pos.take lo ++ rows, vel := s.vel.take lo ++ vel, fri := s.fri.take lo ++ rf.map Prod.fst,
                       mem := notes (fun _ => true) (fun i => rule2 (st i)) f mem0 lo rows, roul := ro', flag := if (k + 1) % C.LP = 0 then true else flag,
                       cnt := s.cnt + (if C.serial then rows.length else 0), log := s.log ++ rows.map C.S.clip }

/-- Line 350. -/
def exploring (C : Cfg K) (s : State K) : Bool := decide (10 * s.cnt ≤ 9 * (C.ngen * C.g + C.g))

/-- Lines 350-660. -/
def body (C : Cfg K) (pc : ℕ → K) (f : List K → K) (D : Draws K) (k : ℕ) (s : State K) : Py (State K) :=
  let gb := s.mem.gref.get s.mem.pb
  if exploring C s then
    match first C pc f D k s with
    | .error e => .error e
    | .ok t => second C pc f D k C.g1 gb t
  else second C pc f D k 0 gb s

/-- One generation, lines 341-684. -/
def gen (C : Cfg K) (pc : ℕ → K) (f : List K → K) (D : Draws K) (k : ℕ) (s : State K) : Py (State K) :=
  match body C pc f D k s with
  | .error e => .error e
  | .ok t =>
    match t.roul with
    | none => .error .unboundLocal
    | some r =>
      match Swarm.select f t.pos with
      | .error e => .error e
      | .ok l => .ok { t with hG := t.hG ++ [t.mem.gval], hL := t.hL ++ [l.1], rates := t.rates ++ [r.pk], phases := t.phases ++ [!exploring C s] }

/-- The loop, line 341. -/
def run (C : Cfg K) (pc : ℕ → K) (f : List K → K) (D : ℕ → Draws K) (s0 : State K) : ℕ → Py (State K)
  | 0 => .ok s0
  | k + 1 =>
    match run C pc f D s0 k with
    | .error e => .error e
    | .ok s => gen C pc f (D k) k s

structure Result (K : Type) where
  x : List K
  y : K
  global : List K
  locals : List K
  rates : List (List K)
  lastPop : List (List K × K)
  mem : Mem K
  log : List (List K)
  phases : List Bool

/-- `evolute`, lines 237-727.  Without a generation `best_position` does not exist. -/
def evolute (C : Cfg K) (pc : ℕ → K) (m : Bool) (userFit : List K → K) (x0 : List (List K)) (v0 : ℕ → ℕ → K) (D0 : Draws K) (D : ℕ → Draws K) : Py (Result K) :=
  if x0.length ≠ C.g then .error .assertion else
  let f := worker C.S m userFit
  match start C pc f x0 v0 D0 with
  | .error e => .error e
  | .ok s0 =>
    match run C pc f D s0 C.ngen with
    | .error e => .error e
    | .ok s =>
      if C.ngen = 0 then .error .unboundLocal else
      .ok { x := s.mem.gref.get s.mem.pb, y := sgn m s.mem.gval, global := s.hG.map (sgn m), locals := s.hL.map (sgn m), rates := s.rates,
            lastPop := s.pos.map (fun p => (p, sgn m (f p))), mem := s.mem, log := s.log, phases := s.phases }

/-! ### Lemmas: roulette -/

/-- A probability vector in which no strategy dies out. -/
def ProbRow (pk : List K) : Prop := pk.length = 5 ∧ (∀ j < 5, (1 : K) / 505 ≤ pk.getD j 0) ∧ pk.sum = 1

/-- Probabilities with their cumulative sums. -/
structure Roul.OK (r : Roul K) : Prop where
  prob : ProbRow r.pk
  lenR : r.rk.length = 6
  zero : r.rk.getD 0 0 = 0
  one : r.rk.getD 5 0 = 1
  step : ∀ j < 5, r.rk.getD (j + 1) 0 = r.rk.getD j 0 + r.pk.getD j 0
  lenS : r.succ.length = 5
  lenF : r.fail.length = 5

theorem score_bounds (s f : ℕ) : (1 : K) / 100 ≤ score s f ∧ (score s f : K) ≤ 101 / 100 := by
  unfold score
  have h0 : (0 : K) < ((if s + f = 0 then 1 else s + f : ℕ) : K) := by split_ifs <;> norm_cast <;> omega
  have h1 : (s : K) ≤ ((if s + f = 0 then 1 else s + f : ℕ) : K) := by split_ifs <;> norm_cast <;> omega
  have h2 : (0 : K) ≤ (s : K) / ((if s + f = 0 then 1 else s + f : ℕ) : K) := by positivity
  have h3 : (s : K) / ((if s + f = 0 then 1 else s + f : ℕ) : K) ≤ 1 := (div_le_one h0).2 h1
  constructor <;> linarith

theorem uniform_ok : (Roul.uniform (K := K)).OK := by
  refine ⟨⟨by simp [Roul.uniform], ?_, ?_⟩, by simp [Roul.uniform], ?_, ?_, ?_, by simp [Roul.uniform], by simp [Roul.uniform]⟩
  · intro j hj
    interval_cases j <;> simp [Roul.uniform] <;> norm_num
  · simp [Roul.uniform]; norm_num
  · simp [Roul.uniform, List.range_succ]
  · simp [Roul.uniform, List.range_succ]
  · intro j hj
    interval_cases j <;> simp [Roul.uniform, List.range_succ] <;> norm_num

theorem learn_eq (r : Roul K) : ∃ a b c d e : K, (∀ x ∈ [a, b, c, d, e], (1 : K) / 100 ≤ x ∧ x ≤ 101 / 100) ∧
    a = score (r.succ.getD 0 0) (r.fail.getD 0 0) ∧ b = score (r.succ.getD 1 0) (r.fail.getD 1 0) ∧ c = score (r.succ.getD 2 0) (r.fail.getD 2 0) ∧
    d = score (r.succ.getD 3 0) (r.fail.getD 3 0) ∧ e = score (r.succ.getD 4 0) (r.fail.getD 4 0) ∧
    r.learn.pk = [a / (a + b + c + d + e), b / (a + b + c + d + e), c / (a + b + c + d + e), d / (a + b + c + d + e), e / (a + b + c + d + e)] := by
  refine ⟨_, _, _, _, _, ?_, rfl, rfl, rfl, rfl, rfl, ?_⟩
  · intro x hx
    simp only [List.mem_cons, List.not_mem_nil, or_false] at hx
    rcases hx with rfl | rfl | rfl | rfl | rfl <;> exact score_bounds _ _
  · unfold Roul.learn
    simp only [List.range_succ, List.range_zero, List.nil_append, List.cons_append, List.map_cons, List.map_nil, List.sum_cons, List.sum_nil, add_zero]
    simp only [add_assoc]

theorem learn_ok (r : Roul K) : r.learn.OK := by
  obtain ⟨a, b, c, d, e, hx, _, _, _, _, _, hpk⟩ := learn_eq r
  have ha := hx a (by simp)
  have hb := hx b (by simp)
  have hc := hx c (by simp)
  have hd := hx d (by simp)
  have he := hx e (by simp)
  have hrk : r.learn.rk = (List.range 6).map (fun n => (r.learn.pk.take n).sum) := rfl
  rw [hpk] at hrk
  obtain ⟨T, hT⟩ : ∃ T, T = a + b + c + d + e := ⟨_, rfl⟩
  rw [← hT] at hpk hrk
  have hT0 : 0 < T := by rw [hT]; linarith [ha.1, hb.1, hc.1, hd.1, he.1]
  have hT1 : T ≤ 505 / 100 := by rw [hT]; linarith [ha.2, hb.2, hc.2, hd.2, he.2]
  have low : ∀ x : K, 1 / 100 ≤ x → 1 / 505 ≤ x / T := by
    intro x hx
    rw [div_le_div_iff₀ (by norm_num) hT0]
    linarith
  have hsum : a / T + b / T + c / T + d / T + e / T = 1 := by
    rw [← add_div, ← add_div, ← add_div, ← add_div, ← hT]; exact div_self hT0.ne'
  refine ⟨⟨by rw [hpk]; rfl, ?_, ?_⟩, by rw [hrk]; simp, ?_, ?_, ?_, by simp [Roul.learn], by simp [Roul.learn]⟩
  · intro j hj
    rw [hpk]
    interval_cases j
    · exact low a ha.1
    · exact low b hb.1
    · exact low c hc.1
    · exact low d hd.1
    · exact low e he.1
  · rw [hpk]; simp only [List.sum_cons, List.sum_nil]; linarith
  · rw [hrk]; simp [List.range_succ]
  · rw [hrk]; simp [List.range_succ]; linarith
  · intro j hj
    rw [hrk, hpk]
    interval_cases j <;> simp [List.range_succ] <;> ring

theorem prep_ok {k : ℕ} {flag : Bool} {ro : Option (Roul K)} (h : ∀ r, ro = some r → r.OK) {q : Roul K × Bool} (hq : prep k flag ro = .ok q) : q.1.OK := by
  unfold prep at hq
  by_cases hk : k ≤ 1
  · rw [if_pos hk] at hq; cases hq; exact uniform_ok
  · rw [if_neg hk] at hq
    cases ro with
    | none => cases hq
    | some r =>
      dsimp only at hq
      cases flag with
      | true => cases hq; exact learn_ok _
      | false => cases hq; exact h _ rfl

theorem prep_early {k : ℕ} (hk : k ≤ 1) {flag : Bool} {ro : Option (Roul K)} {q : Roul K × Bool} (hq : prep k flag ro = .ok q) : q.1.pk = List.replicate 5 (1 / 5) := by
  unfold prep at hq
  rw [if_pos hk] at hq
  cases hq; rfl

theorem Roul.OK.mono {r : Roul K} (h : r.OK) : ∀ a b : ℕ, a ≤ b → b ≤ 5 → r.rk.getD a 0 ≤ r.rk.getD b 0 := by
  intro a b hab
  induction b, hab using Nat.le_induction with
  | base => intro _; exact le_rfl
  | succ b hab ih =>
    intro hb
    have h1 := ih (by omega)
    have h2 := h.step b (by omega)
    have h3 := h.prob.2.1 b (by omega)
    have : (0 : K) < 1 / 505 := by norm_num
    linarith

/-- Exactly one strategy for each number in [0,1). -/
theorem choose_spec {r : Roul K} (h : r.OK) {u : K} (h0 : 0 ≤ u) (h1 : u < 1) :
    choose r.rk u < 5 ∧ (r.rk.getD (choose r.rk u) 0 ≤ u ∧ u < r.rk.getD (choose r.rk u + 1) 0) ∧
    ∀ j < 5, r.rk.getD j 0 ≤ u → u < r.rk.getD (j + 1) 0 → j = choose r.rk u := by
  have hfind : ∃ j, (List.range 5).find? (fun j => decide (r.rk.getD j 0 ≤ u ∧ u < r.rk.getD (j + 1) 0)) = some j := by
    by_contra hn
    have hnone : (List.range 5).find? (fun j => decide (r.rk.getD j 0 ≤ u ∧ u < r.rk.getD (j + 1) 0)) = none := by
      cases hc : (List.range 5).find? (fun j => decide (r.rk.getD j 0 ≤ u ∧ u < r.rk.getD (j + 1) 0)) with
      | none => rfl
      | some j => exact absurd ⟨j, hc⟩ hn
    rw [List.find?_eq_none] at hnone
    have key : ∀ j ≤ 5, r.rk.getD j 0 ≤ u := by
      intro j
      induction j with
      | zero => intro _; rw [h.zero]; exact h0
      | succ j ih =>
        intro hj
        have a := ih (by omega)
        have b := hnone j (by simp; omega)
        simp only [decide_eq_true_eq, not_and, not_lt] at b
        exact b a
    have := key 5 le_rfl
    rw [h.one] at this
    linarith
  obtain ⟨j, hj⟩ := hfind
  have e : choose r.rk u = j := by unfold choose; rw [hj]; rfl
  have hp := List.find?_some hj
  have hm := List.mem_of_find?_eq_some hj
  simp only [decide_eq_true_eq] at hp
  simp only [List.mem_range] at hm
  rw [e]
  refine ⟨hm, hp, ?_⟩
  intro i hi a b
  rcases Nat.lt_trichotomy i j with hlt | rfl | hgt
  · have := h.mono (i + 1) j hlt (by omega); linarith [hp.1]
  · rfl
  · have := h.mono (j + 1) i hgt (by omega); linarith [hp.2]

/-! ### Lemmas: movement -/

/-- Velocities within half the width of their variable. -/
def VOK (S : Space K) (v : List K) : Prop := v.length = S.bounds.length ∧ ∀ (j : ℕ) (c : K), v[j]? = some c → -vmax S j ≤ c ∧ c ≤ vmax S j

theorem vmax_nonneg {S : Space K} (hS : S.OK) (j : ℕ) : 0 ≤ vmax S j := by
  unfold vmax
  rw [List.getD_eq_getElem?_getD]
  cases h : S.bounds[j]? with
  | none => simp
  | some b =>
    have hb := hS.ordered b (List.mem_of_getElem? h)
    simp only [Option.getD_some]
    have : 0 ≤ b.2 - b.1 := sub_nonneg.2 hb
    positivity

theorem vok_limit {S : Space K} (hS : S.OK) (F : ℕ → K) : VOK S ((List.range S.bounds.length).map (fun j => limit (-vmax S j) (vmax S j) (F j))) := by
  refine ⟨by simp, ?_⟩
  intro j c hc
  rw [List.getElem?_map] at hc
  rcases Nat.lt_or_ge j S.bounds.length with hj | hj
  · rw [List.getElem?_range hj] at hc
    simp only [Option.map_some, Option.some.injEq] at hc
    rw [← hc]; exact limit_le (vmax_nonneg hS j) _
  · rw [List.getElem?_eq_none (by simpa using hj)] at hc; cases hc

theorem length_addRow (dim : ℕ) (x v : List K) : (addRow dim x v).length = dim := by simp [addRow]

theorem repair_rows_at {S : Space K} (hS : S.OK) {a : K} {d : ℕ → ℕ → K × ℕ} {rows us : List (List K)} {lo : ℕ}
    (hl : ∀ r ∈ rows, r.length = S.bounds.length) (h : mapRows (repair S a d) lo rows = .ok us) :
    us.length = rows.length ∧ (∀ u ∈ us, S.Feasible u) ∧ us.map S.clip = us := by
  have hf := mapRows_forall h hl (fun k x y hx hy => repair_feasible hS hx hy)
  exact ⟨(mapRows_ok h).1, hf, Space.map_clip hf⟩

theorem repair_total_at {S : Space K} (hS : S.OK) (hm : S.method = .nearestInt) {a : K} {d : ℕ → ℕ → K × ℕ} {rows : List (List K)} {lo : ℕ}
    (hl : ∀ r ∈ rows, r.length = S.bounds.length) : ∃ us, mapRows (repair S a d) lo rows = .ok us :=
  mapRows_total (P := fun r => r.length = S.bounds.length) hl
    (fun k x hx => Space.disc_nearest_total hS hm a (d k) (Space.length_clip hS hx))

/-- What holds in the middle of a generation. -/
structure Mid (C : Cfg K) (f : List K → K) (s : State K) : Prop where
  npos : s.pos.length = C.g
  feas : ∀ p ∈ s.pos, C.S.Feasible p
  flog : ∀ p ∈ s.log, C.S.Feasible p
  mem : s.mem.OK f C.g s.log
  nvel : s.vel.length = C.g
  vel : ∀ v ∈ s.vel, VOK C.S v
  roul : ∀ r, s.roul = some r → r.OK

theorem first_spec {C : Cfg K} (hS : C.S.OK) {pc : ℕ → K} {f : List K → K} {D : Draws K} {k : ℕ} {s t : State K} (hi : Mid C f s)
    (h : first C pc f D k s = .ok t) :
    Mid C f t ∧ ∃ rows : List (List K), rows.length = C.g1 ∧ t.pos = rows ++ s.pos.drop C.g1 ∧ t.log = s.log ++ rows ∧
      (∀ (i : ℕ) (p : Indv K), s.mem.pb[i]? = some p → t.mem.pb[i]? = some (touch f p rows[i]?)) ∧
      t.roul = s.roul ∧ t.flag = s.flag ∧ t.cnt = s.cnt + (if C.serial then C.g1 else 0) ∧ t.hG = s.hG ∧ t.hL = s.hL ∧ t.rates = s.rates ∧ t.phases = s.phases := by
  unfold first at h
  dsimp only at h
  split at h
  · cases h
  rename_i rows hrows
  simp only [Except.ok.injEq] at h
  subst h
  obtain ⟨u1, u2, u3⟩ := repair_rows_at hS (by intro r hr; simp only [List.mem_map] at hr; obtain ⟨i, _, rfl⟩ := hr; exact length_addRow _ _ _) hrows
  have hl : rows.length = C.g1 := by rw [u1]; simp
  have hgg : C.g1 ≤ C.g := by unfold Cfg.g; omega
  have hm0 : ({ s.mem with slope := ((List.range C.g1).map (fun i => refresh C.S.bounds.length C.g1 (pc i) s.mem.pb (D.fr i) i (s.fri.getD i []) (s.mem.slope.getD i 0))).map Prod.snd ++ s.mem.slope.drop C.g1 } : Mem K).OK f C.g s.log := by
    refine ⟨hi.mem.size, ?_, hi.mem.own, hi.mem.seen, hi.mem.inc, hi.mem.shown⟩
    simp [hi.mem.slopes]; omega
  have hm := hm0.notes (view := fun _ => false) (rule := fun _ => rule1) rows 0 (by omega)
  refine ⟨⟨?_, ?_, ?_, ?_, ?_, ?_, hi.roul⟩, rows, hl, rfl, by dsimp only; rw [u3], ?_, rfl, rfl, by dsimp only; rw [hl], rfl, rfl, rfl, rfl⟩
  · dsimp only; rw [List.length_append, List.length_drop, hl, hi.npos]; omega
  · dsimp only; intro p hp
    rcases List.mem_append.1 hp with hp | hp
    · exact u2 p hp
    · exact hi.feas p (List.mem_of_mem_drop hp)
  · dsimp only; rw [u3]; intro p hp
    rcases List.mem_append.1 hp with hp | hp
    · exact hi.flog p hp
    · exact u2 p hp
  · dsimp only; rw [u3]; exact hm
  · dsimp only; rw [List.length_append, List.length_drop, hi.nvel]; simp; omega
  · dsimp only; intro v hv
    rcases List.mem_append.1 hv with hv | hv
    · simp only [List.mem_map] at hv
      obtain ⟨i, _, rfl⟩ := hv
      exact vok_limit hS _
    · exact hi.vel v (List.mem_of_mem_drop hv)
  · intro i p hp
    dsimp only
    have := notes_pb (view := fun _ => false) (rule := fun _ => rule1) (f := f) rows { s.mem with slope := ((List.range C.g1).map (fun i => refresh C.S.bounds.length C.g1 (pc i) s.mem.pb (D.fr i) i (s.fri.getD i []) (s.mem.slope.getD i 0))).map Prod.snd ++ s.mem.slope.drop C.g1 } 0 i p hp
    simpa using this

theorem spin_ok {C : Cfg K} {k lo : ℕ} {s : State K} (h : ∀ r, s.roul = some r → r.OK) {q : Option (Roul K) × Bool} (hq : spin C k lo s = .ok q) :
    ∀ r, q.1 = some r → r.OK := by
  intro r hr
  unfold spin at hq
  split_ifs at hq
  · split at hq
    · cases hq
    · rename_i q' hq'
      cases hq
      cases hr
      exact prep_ok h hq'
  · cases hq; exact h r hr

theorem second_spec {C : Cfg K} (hS : C.S.OK) {pc : ℕ → K} {f : List K → K} {D : Draws K} {k lo : ℕ} (hlo : lo ≤ C.g) {gb : List K} {s t : State K}
    (hi : Mid C f s) (h : second C pc f D k lo gb s = .ok t) :
    Mid C f t ∧ ∃ rows : List (List K), rows.length = C.g - lo ∧ t.pos = s.pos.take lo ++ rows ∧ t.log = s.log ++ rows ∧
      (∀ (i : ℕ) (p : Indv K), s.mem.pb[i]? = some p → t.mem.pb[i]? = some (if lo ≤ i then touch f p rows[i - lo]? else p)) ∧
      t.cnt = s.cnt + (if C.serial then C.g - lo else 0) ∧ t.hG = s.hG ∧ t.hL = s.hL ∧ t.rates = s.rates ∧ t.phases = s.phases ∧
      (k ≤ 1 → (∀ r, s.roul = some r → r.pk = List.replicate 5 (1 / 5)) → ∀ r, t.roul = some r → r.pk = List.replicate 5 (1 / 5)) ∧
      C.LP ≠ 0 ∧ (C.g ≤ lo → s.roul = none → t.roul = none) := by
  unfold second at h
  dsimp only at h
  split at h
  · cases h
  rename_i q ro flag hq
  split at h
  · cases h
  split at h
  · cases h
  split at h
  · cases h
  rename_i rows hrows
  split at h
  · cases h
  rename_i c3
  simp only [Except.ok.injEq] at h
  subst h
  obtain ⟨u1, u2, u3⟩ := repair_rows_at hS (by intro r hr; simp only [List.mem_map] at hr; obtain ⟨i, _, rfl⟩ := hr; exact length_addRow _ _ _) hrows
  have hl : rows.length = C.g - lo := by rw [u1]; simp
  have hm := fun (rf : List (List K × ℕ)) (hrf : rf.length = C.g - lo) (rule : ℕ → K → K → K → ℕ → ℕ) =>
    Mem.OK.notes (f := f) (g := C.g) (log := s.log) (m := { s.mem with slope := s.mem.slope.take lo ++ rf.map Prod.snd }) (view := fun _ => true) (rule := rule)
      ⟨hi.mem.size, by simp [hi.mem.slopes, hrf]; omega, hi.mem.own, hi.mem.seen, hi.mem.inc, hi.mem.shown⟩ rows lo (by omega)
  refine ⟨⟨?_, ?_, ?_, ?_, ?_, ?_, ?_⟩, rows, hl, rfl, by dsimp only; rw [u3], ?_, by dsimp only; rw [hl], rfl, rfl, rfl, rfl, ?_, c3, ?_⟩
  · dsimp only; rw [List.length_append, List.length_take, hl, hi.npos]; omega
  · dsimp only; intro p hp
    rcases List.mem_append.1 hp with hp | hp
    · exact hi.feas p (List.mem_of_mem_take hp)
    · exact u2 p hp
  · dsimp only; rw [u3]; intro p hp
    rcases List.mem_append.1 hp with hp | hp
    · exact hi.flog p hp
    · exact u2 p hp
  · dsimp only; rw [u3]; exact hm _ (by simp) _
  · dsimp only; rw [List.length_append, List.length_take, hi.nvel]; simp; omega
  · dsimp only; intro v hv
    rcases List.mem_append.1 hv with hv | hv
    · exact hi.vel v (List.mem_of_mem_take hv)
    · simp only [List.mem_map] at hv
      obtain ⟨i, _, rfl⟩ := hv
      exact vok_limit hS _
  · dsimp only
    intro r hr
    cases ro with
    | none => cases hr
    | some r0 =>
      simp only [Option.map_some, Option.some.injEq] at hr
      have h0 := spin_ok hi.roul hq r0 rfl
      subst hr
      exact ⟨h0.prob, h0.lenR, h0.zero, h0.one, h0.step, by simp, by simp⟩
  · intro i p hp
    dsimp only
    exact notes_pb rows { s.mem with slope := _ } lo i p hp
  · intro hk hu r hr
    dsimp only at hr
    cases ro with
    | none => cases hr
    | some r0 =>
      simp only [Option.map_some, Option.some.injEq] at hr
      subst hr
      dsimp only
      unfold spin at hq
      split_ifs at hq
      · split at hq
        · cases hq
        · rename_i q' hq'
          simp only [Except.ok.injEq, Prod.mk.injEq, Option.some.injEq] at hq
          rw [← hq.1]; exact prep_early hk hq'
      · simp only [Except.ok.injEq, Prod.mk.injEq] at hq
        exact hu r0 hq.1
  · intro hge hn
    dsimp only
    unfold spin at hq
    rw [if_neg (by omega)] at hq
    simp only [Except.ok.injEq, Prod.mk.injEq] at hq
    rw [← hq.1, hn]; rfl

/-- Everything known after `G` generations. -/
structure Inv (C : Cfg K) (f : List K → K) (G : ℕ) (s : State K) : Prop where
  mid : Mid C f s
  slots : ∀ (i : ℕ) (p : Indv K), s.mem.pb[i]? = some p → SlotBest true f C.g (G + 1) s.log i p.1 p.2
  hist : HistMin f C.g C.g s.log s.hG
  lens : s.hG.length = G ∧ s.hL.length = G ∧ s.rates.length = G ∧ s.phases.length = G
  locals : BlockBest true f C.g C.g s.log s.hL
  last : s.pos = s.log.drop (G * C.g)
  cnt : s.cnt = if C.serial then (G + 1) * C.g else 0
  rates : ∀ r ∈ s.rates, ProbRow r
  early : G ≤ 2 → ∀ r, s.roul = some r → r.pk = List.replicate 5 (1 / 5)
  early' : ∀ (k : ℕ) (r : List K), k ≤ 1 → s.rates[k]? = some r → r = List.replicate 5 (1 / 5)
  phases : ∀ (k : ℕ) (b : Bool), s.phases[k]? = some b → b = (C.serial && decide (9 * (C.ngen + 1) < 10 * (k + 1)))
  endG : G ≠ 0 → s.hG.getLast? = some s.mem.gval

theorem exploring_eq {C : Cfg K} (hg : 0 < C.g) {G : ℕ} {s : State K} (h : s.cnt = if C.serial then (G + 1) * C.g else 0) :
    (!exploring C s) = (C.serial && decide (9 * (C.ngen + 1) < 10 * (G + 1))) := by
  unfold exploring
  rw [h]
  cases C.serial with
  | false => simp
  | true =>
    simp only [if_true, Bool.true_and]
    rw [← decide_not]
    congr 1
    apply propext
    rw [not_le]
    have e1 : 9 * (C.ngen * C.g + C.g) = 9 * (C.ngen + 1) * C.g := by ring
    have e2 : 10 * ((G + 1) * C.g) = 10 * (G + 1) * C.g := by ring
    rw [e1, e2]
    exact Nat.mul_lt_mul_right hg

/-- The two phases do the same to the personal bests: each particle is moved once and compared with its new position. -/
theorem body_spec {C : Cfg K} (hS : C.S.OK) {pc : ℕ → K} {f : List K → K} {D : Draws K} {k : ℕ} {s t : State K} (hi : Mid C f s)
    (h : body C pc f D k s = .ok t) :
    Mid C f t ∧ t.log = s.log ++ t.pos ∧
      (∀ (i : ℕ) (p : Indv K) (x : List K), s.mem.pb[i]? = some p → t.pos[i]? = some x → t.mem.pb[i]? = some (if f x < p.2 then (x, f x) else p)) ∧
      t.cnt = s.cnt + (if C.serial then C.g else 0) ∧ t.hG = s.hG ∧ t.hL = s.hL ∧ t.rates = s.rates ∧ t.phases = s.phases ∧
      (k ≤ 1 → (∀ r, s.roul = some r → r.pk = List.replicate 5 (1 / 5)) → ∀ r, t.roul = some r → r.pk = List.replicate 5 (1 / 5)) := by
  have hgg : C.g1 ≤ C.g := by unfold Cfg.g; omega
  unfold body at h
  dsimp only at h
  split_ifs at h with hc
  · split at h
    · cases h
    rename_i w hw
    obtain ⟨m1, rows1, l1, p1, lg1, pb1, r1, f1, cnt1, a1, a2, a3, a4⟩ := first_spec hS hi hw
    obtain ⟨m2, rows2, l2, p2, lg2, pb2, cnt2, b1, b2, b3, b4, b5, b6, b7⟩ := second_spec hS hgg m1 h
    have hpos : t.pos = rows1 ++ rows2 := by rw [p2, p1, ← l1, List.take_left]
    refine ⟨m2, by rw [hpos, lg2, lg1, List.append_assoc], ?_, ?_, by rw [b1, a1], by rw [b2, a2], by rw [b3, a3], by rw [b4, a4], ?_⟩
    · intro i p x hp hx
      have h1 := pb1 i p hp
      have h2 := pb2 i _ h1
      rw [hpos] at hx
      rcases Nat.lt_or_ge i C.g1 with hlt | hge
      · rw [List.getElem?_append_left (by omega)] at hx
        rw [if_neg (by omega), hx] at h2
        exact h2
      · have hn : rows1[i]? = none := List.getElem?_eq_none (by omega)
        rw [List.getElem?_append_right (by omega), l1] at hx
        rw [if_pos hge, hx, hn] at h2
        exact h2
    · rw [cnt2, cnt1]; split_ifs <;> omega
    · intro hk hu; exact b5 hk (by rw [r1]; exact hu)
  · obtain ⟨m2, rows2, l2, p2, lg2, pb2, cnt2, b1, b2, b3, b4, b5, b6, b7⟩ := second_spec hS (Nat.zero_le _) hi h
    have hpos : t.pos = rows2 := by rw [p2]; simp
    refine ⟨m2, by rw [hpos, lg2], ?_, ?_, b1, b2, b3, b4, b5⟩
    · intro i p x hp hx
      have h2 := pb2 i p hp
      rw [hpos] at hx
      rw [if_pos (Nat.zero_le _), Nat.sub_zero, hx] at h2
      exact h2
    · rw [cnt2, Nat.sub_zero]

theorem gen_inv {C : Cfg K} (hS : C.S.OK) (hg : 0 < C.g) {pc : ℕ → K} {f : List K → K} {D : Draws K} {G : ℕ} {s s' : State K}
    (hi : Inv C f G s) (h : gen C pc f D G s = .ok s') : Inv C f (G + 1) s' := by
  unfold gen at h
  split at h
  · cases h
  rename_i t ht
  obtain ⟨m, hlog, hpb, hcnt, e1, e2, e3, e4, hearly⟩ := body_spec hS hi.mid ht
  split at h
  · cases h
  rename_i r hr
  split at h
  · cases h
  rename_i l hl
  simp only [Except.ok.injEq] at h
  subst h
  have hL : s.log.length = (G + 1) * C.g := by have := hi.hist.1; rw [hi.lens.1] at this; rw [this]; ring
  have hrow : G ≤ 1 → r.pk = List.replicate 5 (1 / 5) := fun hG => hearly hG (hi.early (by omega)) r hr
  refine ⟨⟨m.npos, m.feas, m.flog, m.mem, m.nvel, m.vel, m.roul⟩, ?_, ?_, ?_, ?_, ?_, ?_, ?_, ?_, ?_, ?_, ?_⟩
  · intro i p' hp'
    dsimp only at hp' ⊢
    have hip : i < s.mem.pb.length := by
      have := (List.getElem?_eq_some_iff.1 hp').1
      rw [m.mem.size] at this; rw [hi.mid.mem.size]; exact this
    have hix : i < t.pos.length := by rw [hi.mid.mem.size] at hip; rw [m.npos]; exact hip
    have q1 := List.getElem?_eq_getElem hip
    have q2 := List.getElem?_eq_getElem hix
    have q3 := hpb i _ _ q1 q2
    rw [q3] at hp'
    simp only [Option.some.injEq] at hp'
    rw [hlog]
    refine (hi.slots i _ q1).step hL m.npos q2 ?_
    rw [← hp']
    split_ifs with hc
    · exact Or.inl ⟨rfl, rfl, by simpa [NotWorse] using hc.le⟩
    · exact Or.inr ⟨rfl, rfl, by simpa [NotWorse] using not_lt.1 hc⟩
  · dsimp only; rw [e1]
    have := m.mem.inc.minOn
    rw [hlog] at this ⊢
    exact hi.hist.step m.npos this
  · dsimp only; rw [e1, e2, e3, e4]; simp [hi.lens]
  · dsimp only; rw [hlog, e2]
    refine hi.locals.step ?_ m.npos (HCLPSO.select_best hl)
    rw [hi.lens.2.1, hL]; ring
  · dsimp only; rw [hlog, List.drop_append_of_le_length (le_of_eq hL.symm), List.drop_of_length_le (le_of_eq hL)]
    simp
  · dsimp only; rw [hcnt, hi.cnt]; split_ifs <;> ring
  · dsimp only; rw [e3]
    intro x hx
    rcases List.mem_append.1 hx with hx | hx
    · exact hi.rates x hx
    · simp only [List.mem_singleton] at hx
      subst hx
      exact (m.roul r hr).prob
  · intro hG r' hr'
    exact hearly (by omega) (hi.early (by omega)) r' hr'
  · intro k x hk hx
    dsimp only at hx
    rw [e3] at hx
    rcases Nat.lt_or_ge k G with hlt | hge
    · rw [List.getElem?_append_left (by rw [hi.lens.2.2.1]; exact hlt)] at hx
      exact hi.early' k x hk hx
    · have hkG : k = G := by
        have := (List.getElem?_eq_some_iff.1 hx).1
        simp [hi.lens.2.2.1] at this; omega
      rw [List.getElem?_append_right (by rw [hi.lens.2.2.1]; exact hge), hi.lens.2.2.1, hkG, Nat.sub_self] at hx
      simp only [List.getElem?_cons_zero, Option.some.injEq] at hx
      rw [← hx]; exact hrow (by omega)
  · intro k b hb
    dsimp only at hb
    rw [e4] at hb
    rcases Nat.lt_or_ge k G with hlt | hge
    · rw [List.getElem?_append_left (by rw [hi.lens.2.2.2]; exact hlt)] at hb
      exact hi.phases k b hb
    · have hkG : k = G := by
        have := (List.getElem?_eq_some_iff.1 hb).1
        simp [hi.lens.2.2.2] at this; omega
      rw [List.getElem?_append_right (by rw [hi.lens.2.2.2]; exact hge), hi.lens.2.2.2, hkG, Nat.sub_self] at hb
      simp only [List.getElem?_cons_zero, Option.some.injEq] at hb
      rw [← hb, hkG]; exact exploring_eq hg hi.cnt
  · intro _; dsimp only; simp

theorem start_inv {C : Cfg K} (hS : C.S.OK) {pc : ℕ → K} {f : List K → K} {x0 : List (List K)} (hn : x0.length = C.g) (hx : ∀ x ∈ x0, x.length = C.S.bounds.length)
    {v0 : ℕ → ℕ → K} (hv : ∀ i j, 0 ≤ v0 i j ∧ v0 i j ≤ 1) {D : Draws K} {s : State K} (h : start C pc f x0 v0 D = .ok s) : Inv C f 0 s := by
  unfold start at h
  dsimp only at h
  split at h
  · cases h
  rename_i pos hpos
  split at h
  · cases h
  rename_i b hb
  simp only [Except.ok.injEq] at h
  subst h
  obtain ⟨u1, u2, u3⟩ := repair_rows_at hS hx hpos
  have hl : pos.length = C.g := by rw [u1, hn]
  have hinc := Swarm.select_inc hb
  refine ⟨⟨hl, u2, by dsimp only; rw [u3]; exact u2, ?_, by simp, ?_, by intro r hr; cases hr⟩, ?_, ?_, ⟨rfl, rfl, rfl, rfl⟩, blockBest_nil _ _ _ _ _, by simp [u3], ?_, by simp,
    (by intro _ r hr; cases hr), (by intro k r _ hr; simp at hr), (by intro k b hb; simp at hb), by intro hc; exact absurd rfl hc⟩
  · dsimp only; rw [u3]
    refine ⟨by simp [hl], by simp, ?_, ?_, hinc, by intro i hi; cases hi⟩
    · intro p hp; obtain ⟨x, _, rfl⟩ := List.mem_map.1 hp; rfl
    · intro p hp; obtain ⟨x, hx, rfl⟩ := List.mem_map.1 hp; exact hx
  · dsimp only
    intro v hv'
    simp only [List.mem_map] at hv'
    obtain ⟨i, _, rfl⟩ := hv'
    refine ⟨by simp, ?_⟩
    intro j c hc
    rw [List.getElem?_map] at hc
    rcases Nat.lt_or_ge j C.S.bounds.length with hj | hj
    · rw [List.getElem?_range hj] at hc
      simp only [Option.map_some, Option.some.injEq] at hc
      rw [← hc]
      have := vmax_nonneg hS j
      have := hv i j
      constructor <;> nlinarith
    · rw [List.getElem?_eq_none (by simpa using hj)] at hc; cases hc
  · intro i p hp
    dsimp only at hp ⊢
    rw [List.getElem?_map] at hp
    cases e : pos[i]? with
    | none => rw [e] at hp; cases hp
    | some x =>
      rw [e] at hp; cases hp
      rw [u3]
      exact slotBest_init e
  · dsimp only; rw [u3, ← hl]; exact histMin_nil f _ pos
  · dsimp only; rw [hl]; simp

theorem run_inv {C : Cfg K} (hS : C.S.OK) (hg : 0 < C.g) {pc : ℕ → K} {f : List K → K} {D : ℕ → Draws K} {s0 : State K} (h0 : Inv C f 0 s0) {G : ℕ} {s : State K}
    (h : run C pc f D s0 G = .ok s) : Inv C f G s := by
  induction G generalizing s with
  | zero => cases h; exact h0
  | succ G ih =>
    simp only [run] at h
    split at h
    · cases h
    rename_i t ht
    exact gen_inv hS hg (ih ht) h

end
end Neorl.EPSO

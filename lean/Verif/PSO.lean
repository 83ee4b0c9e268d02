import Verif.Feasible
import Verif.Best
import Verif.Sort

/-!
# Particle swarm optimisation

Model of `neorl/evolu/pso.py`.  Fitness is an arbitrary function of the encoded vector (grid decoding included).  PSO maximises
internally.  The parallel evaluation (lines 389-417) performs the same updates in the same order as the serial one.
-/

set_option linter.unusedSectionVars false
set_option linter.unusedVariables false

namespace Neorl.PSO

section
variable {K : Type} [Field K] [LinearOrder K] [IsStrictOrderedRing K] [FloorRing K]

/-- `speed_mech`, `neorl/evolu/pso.py` lines 71-81. -/
inductive Mech
  | constric | timew | globw
  deriving DecidableEq

/-- Arguments, lines 44-106.  `w0` is the value of `self.w` set by the constructor (line 73: constriction factor, line 77: `wmax`);
`sig` is `_sigmoid` (lines 306-314).  `intArr` says that `self.low` and `self.up` are integer arrays (lines 105-106): numpy gives the
whole array the type float as soon as one bound is a float, and `range` rejects numpy floats. -/
structure Conf (K : Type) where
  S : Space K
  npar : ℕ
  ngen : ℕ
  c1 : K
  c2 : K
  mech : Mech
  w0 : K
  wmin : K
  wmax : K
  kwW : Option (List K)
  sig : K → K
  intArr : Bool

/-- Draws for one particle in one generation, per dimension: `r1`, `r2` (lines 247-248), the fallback `w` (line 264), the move test (line
286) and the index picked by `random.choice` (line 297). -/
structure Draw (K : Type) where
  r1 : ℕ → K
  r2 : ℕ → K
  wr : ℕ → K
  u : ℕ → K
  pick : ℕ → ℕ

/-- `particle[0]`, `particle[1]`. -/
structure Part (K : Type) where
  pos : List K
  vel : List K

/-- New speed of dimension `i`, lines 247-269. -/
def newVel (c : Conf K) (w sfit lfit : K) (d : Draw K) (i : ℕ) (x v lp sp : K) : K :=
  let cog := c.c1 * d.r1 i * (lp - x)
  let soc := c.c2 * d.r2 i * (sp - x)
  match c.mech with
  | .constric => w * (v + cog + soc)
  | .timew => w * v + cog + soc
  | .globw => (if lfit = 0 then d.wr i else 11 / 10 - sfit / lfit) * v + cog + soc

/-- New position of dimension `i`, lines 274-299. -/
def newPos (c : Conf K) (d : Draw K) (i : ℕ) (x v : K) : Py K :=
  match c.S.types[i]?, c.S.bounds[i]? with
  | some .float, some b =>
    let y := x + v
    let y := if y > b.2 then b.2 else y
    .ok (if y < b.1 then b.1 else y)
  | some .int, some b =>
    if d.u i < c.sig v then
      if truncZ b.1 = truncZ b.2 then .ok ((truncZ b.1 : ℤ) : K)
      else if c.intArr = false then .error .typeError
      else if x = ((truncZ x : ℤ) : K) then
        match flipChoice (truncZ b.1) (truncZ b.2) (truncZ x) (d.pick i) with
        | .error e => .error e
        | .ok z => .ok (z : K)
      else .error .valueError
    else .ok x
  | _, _ => .error .valueError

/-- `UpdateParticle`, lines 230-304. -/
def updateParticle (c : Conf K) (w : K) (swm : List K × K) (d : Draw K) (p : Part K) (l : List K × K) : Py (Part K) :=
  let vel := p.vel.mapIdx fun i v => newVel c w swm.2 l.2 d i (p.pos.getD i 0) v (l.1.getD i 0) (swm.1.getD i 0)
  match mapRows (fun i x => newPos c d i x (vel.getD i 0)) 0 p.pos with
  | .error e => .error e
  | .ok pos => .ok { pos := pos, vel := vel }

/-- `GenSwarm`, lines 340-355; every particle comes with its memory `(local_pos, local_fit)`. -/
def genSwarm (c : Conf K) (w : K) (swm : List K × K) (dr : ℕ → Draw K) (ps : List (Part K × (List K × K))) : Py (List (Part K)) :=
  mapRows (fun i pl => updateParticle c w swm (dr i) pl.1 pl.2) 0 ps

/-- Evaluation and update of the particle memories and the swarm best, lines 421-435. -/
def evalLoop (f : List K → K) : List (List K) → List (List K × K) → List K × K → List (List K × K) × (List K × K)
  | p :: ps, l :: ls, g =>
    if f p > l.2 then
      let r := evalLoop f ps ls (if f p > g.2 then (p, f p) else g)
      ((p, f p) :: r.1, r.2)
    else
      let r := evalLoop f ps ls g
      (l :: r.1, r.2)
  | _, ls, g => (ls, g)

/-- State between generations. -/
structure State (K : Type) where
  swarm : List (Part K)
  mem : List (List K × K)
  swm : List K × K
  w : K
  /-- `self.best_scores`, internal sign -/
  scores : List K
  log : List (List K)

/-- `InitSwarm` (lines 154-228) and lines 379-381; `v0 = 0.1` (line 69).  `select(swarm, k=1)` is the head of the stable descending sort
(lines 316-338). -/
def init (c : Conf K) (fit : List K → K) (pos0 : List (List K)) : Py (State K) :=
  let f := fun p => fit (c.S.clip p)
  let mem := pos0.map fun p => (p, f p)
  match (sortDesc (fun e : List K × K => e.2) mem).head? with
  | none => .error .indexError
  | some b =>
    .ok { swarm := pos0.map fun p => { pos := p, vel := p.map fun x => 1 / 10 * x }, mem := mem, swm := b, w := c.w0, scores := [],
          log := pos0.map c.S.clip }

/-- `self.w` after generation `g` (counted from 0), lines 439-450. -/
def nextW (c : Conf K) (g : ℕ) (w : K) : Py K :=
  match c.mech with
  | .timew =>
    match c.kwW with
    | some ws =>
      if ws.length ≠ c.ngen then .error .assertion
      else match ws[g]? with
        | none => .error .indexError
        | some w => .ok w
    | none => .ok (c.wmax - (c.wmax - c.wmin) * (((g + 1) * c.npar : ℕ) : K) / ((c.ngen * c.npar : ℕ) : K))
  | _ => .ok w

/-- `np.max`. -/
def listMax : List K → Py K
  | [] => .error .valueError
  | v :: vs => .ok (vs.foldl max v)

/-- One generation, lines 386-454; `g` counts from 0. -/
def gen (c : Conf K) (fit : List K → K) (g : ℕ) (dr : ℕ → Draw K) (s : State K) : Py (State K) :=
  let f := fun p => fit (c.S.clip p)
  match genSwarm c s.w s.swm dr (s.swarm.zip s.mem) with
  | .error e => .error e
  | .ok off =>
    let xs := off.map fun p => p.pos
    let r := evalLoop f xs s.mem s.swm
    match nextW c g s.w with
    | .error e => .error e
    | .ok w =>
      match listMax (xs.map f) with
      | .error e => .error e
      | .ok mx =>
        .ok { swarm := off, mem := r.1, swm := r.2, w := w, scores := s.scores ++ [mx], log := s.log ++ xs.map c.S.clip }

/-- `g` generations. -/
def run (c : Conf K) (fit : List K → K) (dr : ℕ → ℕ → Draw K) (pos0 : List (List K)) : ℕ → Py (State K)
  | 0 => init c fit pos0
  | g + 1 =>
    match run c fit dr pos0 g with
    | .error e => .error e
    | .ok s => gen c fit g (dr g) s

/-- What `evolute` returns, plus the ghost log. -/
structure Result (K : Type) where
  x : List K
  y : K
  global : List K
  locals : List K
  lastPop : List (List K × K)
  log : List (List K)

/-- `evolute`, lines 357-522.  `m` is `mode == 'min'`; the constructor negates the fitness in that mode.  `swm_fit_correct` is only
assigned inside the loop. -/
def evolute (c : Conf K) (m : Bool) (userFit : List K → K) (dr : ℕ → ℕ → Draw K) (pos0 : List (List K)) : Py (Result K) :=
  if pos0.length ≠ c.npar then .error .assertion else
  match run c (fun x => sgn (!m) (userFit x)) dr pos0 c.ngen with
  | .error e => .error e
  | .ok s =>
    if c.ngen = 0 then .error .unboundLocal else
    let last := (sortDesc (fun e : List K × K => e.2) (s.swarm.map fun p => (p.pos, sgn (!m) (userFit (c.S.clip p.pos))))).take c.npar
    let scores := s.scores.map (sgn (!m))
    .ok { x := s.swm.1, y := sgn (!m) s.swm.2, global := acc m scores, locals := scores,
          lastPop := last.map fun e => (e.1, sgn (!m) e.2), log := s.log }

/-! ### Lemmas -/

theorem listMax_spec {vs : List K} {y : K} (h : listMax vs = .ok y) : y ∈ vs ∧ ∀ v ∈ vs, v ≤ y := by
  have key : ∀ (vs : List K) (a : K), (vs.foldl max a = a ∨ vs.foldl max a ∈ vs) ∧ a ≤ vs.foldl max a ∧ ∀ v ∈ vs, v ≤ vs.foldl max a := by
    intro vs
    induction vs with
    | nil => simp
    | cons v vs ih =>
      intro a
      obtain ⟨h1, h2, h3⟩ := ih (max a v)
      simp only [List.foldl_cons]
      refine ⟨?_, (le_max_left _ _).trans h2, ?_⟩
      · rcases h1 with h1 | h1
        · rw [h1]
          rcases max_choice a v with h | h
          · exact Or.inl h
          · right; rw [h]; simp
        · right; simp [h1]
      · intro w hw
        rcases List.mem_cons.1 hw with rfl | hw
        · exact (le_max_right _ _).trans h2
        · exact h3 w hw
  cases vs with
  | nil => cases h
  | cons v vs =>
    cases h
    obtain ⟨h1, h2, h3⟩ := key vs v
    refine ⟨?_, ?_⟩
    · rcases h1 with h1 | h1
      · rw [h1]; simp
      · simp [h1]
    · intro w hw
      rcases List.mem_cons.1 hw with rfl | hw
      · exact h2
      · exact h3 w hw

/-- A new coordinate respects its bounds and its type. -/
theorem newPos_ok {c : Conf K} (hS : c.S.OK) {d : Draw K} {i : ℕ} {x v y : K} (h : newPos c d i x v = .ok y)
    (hx : c.S.types[i]? = some .int → (∃ n : ℤ, x = n) ∧ ∀ b, c.S.bounds[i]? = some b → b.1 ≤ x ∧ x ≤ b.2) :
    (∀ b, c.S.bounds[i]? = some b → b.1 ≤ y ∧ y ≤ b.2) ∧ (c.S.types[i]? = some .int → ∃ n : ℤ, y = n) := by
  unfold newPos at h
  split at h
  · rename_i b ht hb
    cases h
    have hbo := hS.ordered b (List.mem_of_getElem? hb)
    refine ⟨?_, by rw [ht]; intro h; cases h⟩
    intro b' hb'
    rw [hb] at hb'; cases hb'
    split_ifs with h1 h2
    · exact ⟨le_rfl, hbo⟩
    · exact ⟨hbo, le_rfl⟩
    · exact ⟨le_rfl, hbo⟩
    · rename_i h2
      exact ⟨not_lt.1 h2, not_lt.1 h1⟩
  · rename_i b ht hb
    obtain ⟨l, u, e1, e2⟩ := hS.intBounds i b ht hb
    have hbo := hS.ordered b (List.mem_of_getElem? hb)
    obtain ⟨hxi, hxb⟩ := hx ht
    split_ifs at h with h1 h2 h3 h4
    · cases h
      refine ⟨?_, fun _ => ⟨_, rfl⟩⟩
      intro b' hb'
      rw [hb] at hb'; cases hb'
      rw [e1, e2] at *
      rw [truncZ_intCast]
      exact ⟨le_rfl, hbo⟩
    · split at h
      · cases h
      · rename_i z hz
        cases h
        obtain ⟨-, -, f1, f2, -⟩ := flipChoice_ok hz
        refine ⟨?_, fun _ => ⟨z, rfl⟩⟩
        intro b' hb'
        rw [hb] at hb'; cases hb'
        rw [e1, truncZ_intCast] at f1
        rw [e2, truncZ_intCast] at f2
        rw [e1, e2]
        exact ⟨by exact_mod_cast f1, by exact_mod_cast f2⟩
    · cases h
      exact ⟨hxb, fun _ => hxi⟩
  · cases h

theorem updateParticle_ok {c : Conf K} (hS : c.S.OK) {w : K} {swm : List K × K} {d : Draw K} {p q : Part K} {l : List K × K}
    (hp : c.S.Feasible p.pos) (h : updateParticle c w swm d p l = .ok q) : c.S.Feasible q.pos := by
  unfold updateParticle at h
  simp only at h
  split at h
  · cases h
  rename_i pos hpos
  cases h
  obtain ⟨h1, h2⟩ := mapRows_ok hpos
  have hc : ∀ (i : ℕ) (y : K), pos[i]? = some y → (∀ b, c.S.bounds[i]? = some b → b.1 ≤ y ∧ y ≤ b.2) ∧
      (c.S.types[i]? = some .int → ∃ n : ℤ, y = n) := by
    intro i y hy
    obtain ⟨x, hx, hf⟩ := h2 i y hy
    rw [Nat.zero_add] at hf
    exact newPos_ok hS hf (fun ht => ⟨hp.2 i x ht hx, fun b hb => inBox_getElem? hp.1 hx hb⟩)
  refine ⟨inBox_of_getElem? (by rw [h1]; exact hp.1.length_eq) ?_, ?_⟩
  · intro i y b hy hb
    exact (hc i y hy).1 b hb
  · intro i y ht hy
    exact (hc i y hy).2 ht

theorem evalLoop_mem (f : List K → K) {ps : List (List K)} {ls : List (List K × K)} (hl : ps.length = ls.length) (g : List K × K) :
    (evalLoop f ps ls g).1.length = ls.length ∧
    ∀ (i : ℕ) (p : List K) (l : List K × K), ps[i]? = some p → ls[i]? = some l →
      (evalLoop f ps ls g).1[i]? = some (if f p > l.2 then (p, f p) else l) := by
  induction ps generalizing ls g with
  | nil =>
    cases ls with
    | nil => simp [evalLoop]
    | cons l ls => simp at hl
  | cons p ps ih =>
    cases ls with
    | nil => simp at hl
    | cons l ls =>
      simp only [evalLoop]
      by_cases hc : f p > l.2
      · simp only [if_pos hc]
        obtain ⟨h1, h2⟩ := ih (ls := ls) (by simpa using hl) (if f p > g.2 then (p, f p) else g)
        refine ⟨by simp [h1], ?_⟩
        intro i p' l' hp hl'
        cases i with
        | zero => simp at hp hl'; subst hp hl'; simp [if_pos hc]
        | succ i => simp at hp hl'; simpa using h2 i p' l' hp hl'
      · simp only [if_neg hc]
        obtain ⟨h1, h2⟩ := ih (ls := ls) (by simpa using hl) g
        refine ⟨by simp [h1], ?_⟩
        intro i p' l' hp hl'
        cases i with
        | zero => simp at hp hl'; subst hp hl'; simp [if_neg hc]
        | succ i => simp at hp hl'; simpa using h2 i p' l' hp hl'

/-- The nested update keeps the swarm best correct because a particle memory never exceeds it. -/
theorem evalLoop_swm (f : List K → K) {ps : List (List K)} {ls : List (List K × K)} (hl : ps.length = ls.length) {g : List K × K}
    (hle : ∀ l ∈ ls, l.2 ≤ g.2) {log : List (List K)} (hb : IsBest false f log g.1 g.2) :
    IsBest false f (log ++ ps) (evalLoop f ps ls g).2.1 (evalLoop f ps ls g).2.2 := by
  induction ps generalizing ls g log with
  | nil =>
    cases ls with
    | nil => simpa [evalLoop] using hb
    | cons l ls => simp at hl
  | cons p ps ih =>
    cases ls with
    | nil => simp at hl
    | cons l ls =>
      have happ : log ++ p :: ps = (log ++ [p]) ++ ps := by simp
      rw [happ]
      have hstep : IsBest false f (log ++ [p]) (if f p > g.2 then (p, f p) else g).1 (if f p > g.2 then (p, f p) else g).2 := by
        obtain ⟨b1, b2, b3⟩ := hb
        split_ifs with hc
        · refine ⟨by simp, rfl, ?_⟩
          intro z hz
          rcases List.mem_append.1 hz with hz | hz
          · have := b3 z hz
            simp only [NotWorse, Bool.false_eq_true, if_false] at this ⊢
            exact this.trans hc.le
          · simp at hz; subst hz; exact NotWorse.refl _
        · refine ⟨by simp [b1], b2, ?_⟩
          intro z hz
          rcases List.mem_append.1 hz with hz | hz
          · exact b3 z hz
          · simp at hz; subst hz; simpa [NotWorse] using hc
      simp only [evalLoop]
      by_cases hc : f p > l.2
      · simp only [if_pos hc]
        refine ih (by simpa using hl) ?_ hstep
        intro l' hl'
        have := hle l' (by simp [hl'])
        split_ifs with h1
        · exact this.trans h1.le
        · exact this
      · simp only [if_neg hc]
        refine ih (by simpa using hl) (fun l' hl' => hle l' (by simp [hl'])) ?_
        rw [if_neg (not_lt.2 ((not_lt.1 hc).trans (hle l (by simp))))] at hstep
        exact hstep

/-- Everything known about the state after `g` generations. -/
structure Inv (c : Conf K) (fit : List K → K) (g : ℕ) (s : State K) : Prop where
  nswarm : s.swarm.length = c.npar
  nmem : s.mem.length = c.npar
  pos : s.swarm.map (fun p => p.pos) = s.log.drop (g * c.npar)
  feas : ∀ p ∈ s.log, c.S.Feasible p
  len : s.log.length = (g + 1) * c.npar
  best : IsBest false fit s.log s.swm.1 s.swm.2
  slots : ∀ i x y, s.mem[i]? = some (x, y) → SlotBest false fit c.npar (g + 1) s.log i x y
  nscores : s.scores.length = g
  scores : BlockBest false fit c.npar c.npar s.log s.scores

theorem Inv.mem_le {c : Conf K} {fit : List K → K} {g : ℕ} {s : State K} (h : Inv c fit g s) : ∀ l ∈ s.mem, l.2 ≤ s.swm.2 := by
  intro l hl
  obtain ⟨i, hi⟩ := List.mem_iff_getElem?.1 hl
  obtain ⟨⟨k, -, e⟩, h2, -⟩ := h.slots i l.1 l.2 hi
  have := h.best.2.2 l.1 (List.mem_of_getElem? e)
  rw [← h2] at this
  simpa [NotWorse] using this

theorem init_inv {c : Conf K} {fit : List K → K} {pos0 : List (List K)} (hn : pos0.length = c.npar)
    (hf : ∀ p ∈ pos0, c.S.Feasible p) {s : State K} (h : init c fit pos0 = .ok s) : Inv c fit 0 s := by
  unfold init at h
  simp only at h
  split at h
  · cases h
  rename_i b hb
  cases h
  have hclip : ∀ p ∈ pos0, c.S.clip p = p := fun p hp => Space.clip_of_inBox (hf p hp).1
  have hmem : pos0.map (fun p => (p, fit (c.S.clip p))) = pos0.map (fun p => (p, fit p)) :=
    List.map_congr_left (fun p hp => by rw [hclip p hp])
  rw [hmem] at hb
  obtain ⟨h1, h2⟩ := sortDesc_head_max _ hb
  obtain ⟨x, hx, rfl⟩ := List.mem_map.1 h1
  refine ⟨by simp [hn], by simp [hn], ?_, ?_, by simp [hn], ?_, ?_, rfl, blockBest_nil _ _ _ _ _⟩
  · simp only [Space.map_clip hf]; simp [Function.comp_def]
  · simp only [Space.map_clip hf]; exact hf
  · simp only [Space.map_clip hf]
    refine ⟨hx, rfl, ?_⟩
    intro z hz
    simpa [NotWorse] using h2 (z, fit z) (List.mem_map_of_mem (f := fun p => (p, fit p)) hz)
  · simp only [Space.map_clip hf, hmem]
    intro i x y hxy
    rw [List.getElem?_map] at hxy
    cases e : pos0[i]? with
    | none => rw [e] at hxy; cases hxy
    | some p => rw [e] at hxy; cases hxy; exact slotBest_init e

theorem gen_inv {c : Conf K} (hS : c.S.OK) {fit : List K → K} {g : ℕ} {dr : ℕ → Draw K} {s s' : State K}
    (hi : Inv c fit g s) (h : gen c fit g dr s = .ok s') : Inv c fit (g + 1) s' := by
  unfold gen at h
  simp only at h
  split at h
  · cases h
  rename_i off hoff
  split at h
  · cases h
  rename_i w hw
  split at h
  · cases h
  rename_i mx hmx
  cases h
  have hlz : (s.swarm.zip s.mem).length = c.npar := by simp [hi.nswarm, hi.nmem]
  have hlo : off.length = c.npar := by rw [(mapRows_ok hoff).1, hlz]
  have hposF : ∀ p ∈ s.swarm, c.S.Feasible p.pos := by
    intro p hp
    have : p.pos ∈ s.log.drop (g * c.npar) := by rw [← hi.pos]; exact List.mem_map_of_mem hp
    exact hi.feas _ (List.mem_of_mem_drop this)
  have hfo : ∀ q ∈ off, c.S.Feasible q.pos :=
    mapRows_forall (P := fun x : Part K × (List K × K) => c.S.Feasible x.1.pos) hoff
      (fun x hx => hposF _ (List.of_mem_zip (a := x.1) (b := x.2) hx).1) (fun i x y hx h => updateParticle_ok hS hx h)
  set xs := off.map (fun p => p.pos) with hxs
  have hfx : ∀ x ∈ xs, c.S.Feasible x := by
    intro x hx
    obtain ⟨q, hq, rfl⟩ := List.mem_map.1 hx
    exact hfo q hq
  have hlx : xs.length = c.npar := by simp [hxs, hlo]
  have hfeq : ∀ x ∈ xs, fit (c.S.clip x) = fit x := fun x hx => by rw [Space.clip_of_inBox (hfx x hx).1]
  have hmapf : xs.map (fun p => fit (c.S.clip p)) = xs.map fit := List.map_congr_left hfeq
  have hcongr : ∀ (ps : List (List K)) (ls : List (List K × K)) (b : List K × K), (∀ x ∈ ps, fit (c.S.clip x) = fit x) →
      evalLoop (fun p => fit (c.S.clip p)) ps ls b = evalLoop fit ps ls b := by
    intro ps
    induction ps with
    | nil => intro ls b _; cases ls <;> rfl
    | cons p ps ih =>
      intro ls b hp
      cases ls with
      | nil => rfl
      | cons l ls =>
        simp only [evalLoop]
        rw [hp p (by simp), ih _ _ (fun x hx => hp x (by simp [hx])), ih _ _ (fun x hx => hp x (by simp [hx]))]
  rw [hmapf] at hmx
  obtain ⟨m1, m2⟩ := listMax_spec hmx
  simp only [hcongr xs s.mem s.swm hfeq, Space.map_clip hfx]
  obtain ⟨e1, e2⟩ := evalLoop_mem fit (ps := xs) (ls := s.mem) (by rw [hlx, hi.nmem]) s.swm
  refine ⟨hlo, by rw [e1, hi.nmem], ?_, ?_, ?_, evalLoop_swm fit (by rw [hlx, hi.nmem]) hi.mem_le hi.best, ?_, by simp [hi.nscores], ?_⟩
  · rw [List.drop_append_of_le_length (by rw [hi.len]), List.drop_of_length_le (by rw [hi.len]), List.nil_append]
  · intro p hp
    rcases List.mem_append.1 hp with hp | hp
    · exact hi.feas p hp
    · exact hfx p hp
  · rw [List.length_append, hi.len, hlx]; ring
  · intro i x y hxy
    have hilt : i < c.npar := by
      have := (List.getElem?_eq_some_iff.1 hxy).1
      rwa [e1, hi.nmem] at this
    have hp : xs[i]? = some (xs[i]'(by omega)) := List.getElem?_eq_getElem _
    have hl : s.mem[i]? = some (s.mem[i]'(by rw [hi.nmem]; exact hilt)) := List.getElem?_eq_getElem _
    set p := xs[i]'(by omega)
    set l := s.mem[i]'(by rw [hi.nmem]; exact hilt)
    have e := e2 i p l hp hl
    rw [hxy] at e
    refine (hi.slots i l.1 l.2 hl).step (by rw [hi.len]) hlx hp ?_
    split_ifs at e with hc
    · have e' : x = p ∧ y = fit p := by simpa using e
      exact Or.inl ⟨e'.1, e'.2, by rw [e'.2]; simpa [NotWorse] using le_of_lt hc⟩
    · have e' : (x, y) = l := by simpa using e
      exact Or.inr ⟨congrArg Prod.fst e', congrArg Prod.snd e', by simpa [NotWorse] using not_lt.1 hc⟩
  · refine hi.scores.step (by rw [hi.len, hi.nscores]; ring) hlx ?_
    obtain ⟨z, hz, e⟩ := List.mem_map.1 m1
    exact ⟨⟨z, hz, e⟩, fun z hz => by simpa [NotWorse] using m2 _ (List.mem_map_of_mem hz)⟩

theorem run_inv {c : Conf K} (hS : c.S.OK) {fit : List K → K} {dr : ℕ → ℕ → Draw K} {pos0 : List (List K)}
    (hn : pos0.length = c.npar) (hf : ∀ p ∈ pos0, c.S.Feasible p) {g : ℕ} {s : State K}
    (h : run c fit dr pos0 g = .ok s) : Inv c fit g s := by
  induction g generalizing s with
  | zero => exact init_inv hn hf h
  | succ g ih =>
    simp only [run] at h
    split at h
    · cases h
    rename_i s0 h0
    exact gen_inv hS (ih h0) h

end
end Neorl.PSO

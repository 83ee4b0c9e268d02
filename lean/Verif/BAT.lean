import Verif.Swarm

/-!
# Bat algorithm

Model of `neorl/evolu/bat.py`.  Fitness is an arbitrary function of the encoded vector (grid decoding included).  The
points handed to the fitness function are collected: `log0` for the initial evaluation, `log` for the three stages of all
generations.
-/

set_option linter.unusedSectionVars false
set_option linter.unusedVariables false

namespace Neorl.BAT

open Swarm (select Inc)

section
variable {K : Type} [Field K] [LinearOrder K] [IsStrictOrderedRing K] [FloorRing K]

/-- Arguments, `neorl/evolu/bat.py` lines 57-109; `pulse l` stands for `1 - math.exp(-gamma*l)` (line 329). -/
structure Conf (K : Type) where
  S : Space K
  nbats : ℕ
  ngen : ℕ
  fmin : K
  fmax : K
  A : K
  alpha : K
  r0 : K
  pulse : ℕ → K
  levy : Bool

/-- Draws of one bat in one generation: the Lévy jump vector (line 270), the uniform behind `f1` (line 273), the first two
sampled indices (line 275, the other two are never used), then for stages 2 and 3 the test draw and the uniform vector, and
the draws of the three discrete repairs. -/
structure Draw (K : Type) where
  jump : ℕ → K
  u1 : K
  b0 : ℕ
  b1 : ℕ
  t2 : K
  w2 : ℕ → K
  t3 : K
  w3 : ℕ → K
  d1 : ℕ → K × ℕ
  d2 : ℕ → K × ℕ
  d3 : ℕ → K × ℕ

/-- `ensure_bounds` then `ensure_discrete` with `self.a = 1 - l/ngen`. -/
def repair (c : Conf K) (l : ℕ) (draw : ℕ → K × ℕ) (v : List K) : Py (List K) :=
  c.S.disc (1 - (l : K) * (1 / (c.ngen : K))) draw (c.S.clip v)

/-- Stage 1A for bat `i`, lines 268-279.  The second summand of the formula stands on its own line 277 and is a separate
expression statement without effect, so it is not part of the assignment. -/
def stage1 (c : Conf K) (l : ℕ) (dr : ℕ → Draw K) (xbest : List K) (i : ℕ) (pop : List (List K)) (row : List K) : Py (List K) :=
  let d := dr i
  let pop := if c.levy then pop.set i (row.mapIdx fun j x => x + d.jump j) else pop
  let f1 := ((c.fmin - c.fmax) * (l : K) / (c.ngen : K) + c.fmax) * d.u1
  match pop[d.b0]?, pop[d.b1]? with
  | some p, some q => repair c l d.d1 (List.zipWith (fun b e => b + f1 * e) xbest (List.zipWith (fun a b => a - b) p q))
  | _, _ => .error .indexError

/-- Stage 2A for bat `i`, lines 293-296. -/
def stage2 (c : Conf K) (l : ℕ) (A r : K) (dr : ℕ → Draw K) (xbest : List K) (i : ℕ) (pop : List (List K)) (row : List K) :
    Py (List K) :=
  let d := dr i
  repair c l d.d2 (if d.t2 > r then xbest.mapIdx (fun j b => b + A * d.w2 j) else row)

/-- Stage 3A for bat `i`, lines 310-313. -/
def stage3 (c : Conf K) (l : ℕ) (A r : K) (dr : ℕ → Draw K) (xbest : List K) (i : ℕ) (pop : List (List K)) (row : List K) :
    Py (List K) :=
  let d := dr i
  repair c l d.d3 (if d.t3 < A then xbest.mapIdx (fun j b => b + r * d.w3 j) else row)

/-- `if f1 <= self.fbest: ...`, lines 285-287, 302-304, 319-321. -/
def accept (s : K × List K) (b : WithTop K × List K) : WithTop K × List K :=
  if (s.1 : WithTop K) ≤ b.1 then ((s.1 : WithTop K), s.2) else b

/-- State between generations. -/
structure State (K : Type) where
  pos : List (List K)
  best : WithTop K × List K
  A : K
  r : K
  global : List (WithTop K)
  locals : List K
  hA : List K
  hr : List K
  log0 : List (List K)
  log : List (List K)

/-- One stage: move all bats, evaluate, select, accept. -/
def stage (c : Conf K) (fit : List K → K) (mv : List K → ℕ → List (List K) → List K → Py (List K))
    (pos : List (List K)) (best : WithTop K × List K) : Py (List (List K) × (K × List K) × (WithTop K × List K)) :=
  match sweep (mv best.2) c.nbats pos with
  | .error e => .error e
  | .ok pos' =>
    match select (fun p => fit (c.S.clip p)) pos' with
    | .error e => .error e
    | .ok s => .ok (pos', s, accept s best)

/-- One generation, lines 261-347. -/
def gen (c : Conf K) (fit : List K → K) (l : ℕ) (dr : ℕ → Draw K) (s : State K) : Py (State K) :=
  match stage c fit (stage1 c l dr) s.pos s.best with
  | .error e => .error e
  | .ok (p1, s1, b1) =>
    match stage c fit (stage2 c l s.A s.r dr) p1 b1 with
    | .error e => .error e
    | .ok (p2, s2, b2) =>
      match stage c fit (stage3 c l s.A s.r dr) p2 b2 with
      | .error e => .error e
      | .ok (p3, s3, b3) =>
        let loc := min (min s1.1 s2.1) s3.1
        let hit := (loc : WithTop K) ≤ b3.1
        let A := if hit then c.alpha * s.A else s.A
        let r := if hit then c.r0 * c.pulse l else s.r
        .ok { pos := p3, best := b3, A := A, r := r, global := s.global ++ [b3.1], locals := s.locals ++ [loc],
              hA := s.hA ++ [A], hr := s.hr ++ [r], log0 := s.log0,
              log := s.log ++ (p1.map c.S.clip ++ p2.map c.S.clip ++ p3.map c.S.clip) }

/-- Initial evaluation (lines 238-258) and `g` generations.  `fbest` stays infinite after the initial evaluation; only
`xbest` is set. -/
def run (c : Conf K) (fit : List K → K) (dr : ℕ → ℕ → Draw K) (pos0 : List (List K)) : ℕ → Py (State K)
  | 0 =>
    match select (fun p => fit (c.S.clip p)) pos0 with
    | .error e => .error e
    | .ok s => .ok { pos := pos0, best := (⊤, s.2), A := c.A, r := c.r0, global := [], locals := [], hA := [], hr := [],
                     log0 := pos0.map c.S.clip, log := [] }
  | g + 1 =>
    match run c fit dr pos0 g with
    | .error e => .error e
    | .ok s => gen c fit g (dr g) s

/-- What `evolute` returns, plus the ghost logs. -/
structure Result (K : Type) where
  x : List K
  y : K
  global : List (Option K)
  locals : List K
  hA : List K
  hr : List K
  lastPop : List (List K × K)
  log0 : List (List K)
  log : List (List K)

/-- `evolute`, lines 227-386. `best_position` does not exist when `ngen = 0`. -/
def evolute (c : Conf K) (m : Bool) (userFit : List K → K) (dr : ℕ → ℕ → Draw K) (pos0 : List (List K)) : Py (Result K) :=
  if pos0.length ≠ c.nbats then .error .assertion else
  match run c (fun x => sgn m (userFit x)) dr pos0 c.ngen with
  | .error e => .error e
  | .ok s =>
    match outScore m s.best.1 with
    | none => .error .unboundLocal
    | some y =>
      .ok { x := s.best.2, y := y, global := s.global.map (outScore m), locals := s.locals.map (sgn m),
            hA := s.hA, hr := s.hr,
            lastPop := s.pos.map (fun p => (p, sgn m (sgn m (userFit (c.S.clip p))))), log0 := s.log0, log := s.log }

/-! ### Lemmas -/

theorem accept_spec {f : List K → K} {log ps : List (List K)} {b : WithTop K × List K} {s : K × List K}
    (hb : RunMin f log b) (hs : Inc f ps s) : RunMin f (log ++ ps) (accept s b) := by
  obtain ⟨h1, h2⟩ := hb
  obtain ⟨g1, g2, g3⟩ := hs
  unfold accept
  split_ifs with hc
  · refine ⟨?_, Or.inr ⟨by simp [g1], by simp [g2]⟩⟩
    intro z hz
    rcases List.mem_append.1 hz with hz | hz
    · exact hc.trans (h1 z hz)
    · exact WithTop.coe_le_coe.2 (g3 z hz)
  · have hc := not_le.1 hc
    refine ⟨?_, ?_⟩
    · intro z hz
      rcases List.mem_append.1 hz with hz | hz
      · exact h1 z hz
      · exact hc.le.trans (by exact_mod_cast g3 z hz)
    · rcases h2 with h | h
      · exact Or.inl h
      · exact Or.inr ⟨by simp [h.1], h.2⟩

theorem repair_feasible {c : Conf K} (hS : c.S.OK) {l : ℕ} {draw : ℕ → K × ℕ} {v v' : List K}
    (hl : v.length = c.S.bounds.length) (h : repair c l draw v = .ok v') : c.S.Feasible v' :=
  Space.disc_feasible hS (c.S.clip_inBox hS hl) h

theorem repair_total {c : Conf K} (hS : c.S.OK) (hm : c.S.method = .nearestInt) (l : ℕ) (draw : ℕ → K × ℕ) {v : List K}
    (hl : v.length = c.S.bounds.length) : ∃ v', repair c l draw v = .ok v' :=
  Space.disc_nearest_total hS hm _ _ (by rw [Space.length_clip hS hl])

/-- What a stage move must guarantee. -/
def StageOK (c : Conf K) (mv : List K → ℕ → List (List K) → List K → Py (List K)) : Prop :=
  ∀ b, c.S.Feasible b → ∀ k (ps : List (List K)) x y, ps.length = c.nbats → (∀ p ∈ ps, c.S.Feasible p) →
    ps[k]? = some x → mv b k ps x = .ok y → c.S.Feasible y

theorem stage1_ok {c : Conf K} (hS : c.S.OK) (l : ℕ) (dr : ℕ → Draw K) : StageOK c (stage1 c l dr) := by
  intro b hb k ps x y hn hp hx h
  unfold stage1 at h
  simp only at h
  have hx' := hp x (List.mem_of_getElem? hx)
  have hlen : ∀ q ∈ (if c.levy = true then ps.set k (x.mapIdx fun j x => x + (dr k).jump j) else ps),
      q.length = c.S.bounds.length := by
    intro q hq
    split_ifs at hq
    · rcases List.mem_or_eq_of_mem_set hq with hq | rfl
      · exact (hp q hq).1.length_eq
      · simp [hx'.1.length_eq]
    · exact (hp q hq).1.length_eq
  split at h
  · rename_i p q h1 h2
    refine repair_feasible hS ?_ h
    simp [hb.1.length_eq, hlen p (List.mem_of_getElem? h1), hlen q (List.mem_of_getElem? h2)]
  · cases h

theorem stage2_ok {c : Conf K} (hS : c.S.OK) (l : ℕ) (A r : K) (dr : ℕ → Draw K) : StageOK c (stage2 c l A r dr) := by
  intro b hb k ps x y hn hp hx h
  have hx' := hp x (List.mem_of_getElem? hx)
  refine repair_feasible hS ?_ h
  split_ifs
  · simp [hb.1.length_eq]
  · exact hx'.1.length_eq

theorem stage3_ok {c : Conf K} (hS : c.S.OK) (l : ℕ) (A r : K) (dr : ℕ → Draw K) : StageOK c (stage3 c l A r dr) := by
  intro b hb k ps x y hn hp hx h
  have hx' := hp x (List.mem_of_getElem? hx)
  refine repair_feasible hS ?_ h
  split_ifs
  · simp [hb.1.length_eq]
  · exact hx'.1.length_eq

theorem stage_spec {c : Conf K} {fit : List K → K} {mv : List K → ℕ → List (List K) → List K → Py (List K)}
    (hmv : StageOK c mv) {pos : List (List K)} {best : WithTop K × List K}
    (hn : pos.length = c.nbats) (hp : ∀ p ∈ pos, c.S.Feasible p) (hb : c.S.Feasible best.2) {log : List (List K)}
    (hr : RunMin fit log best) {pos' : List (List K)} {s : K × List K} {b : WithTop K × List K}
    (h : stage c fit mv pos best = .ok (pos', s, b)) :
    pos'.length = c.nbats ∧ (∀ p ∈ pos', c.S.Feasible p) ∧ Inc fit pos' s ∧ RunMin fit (log ++ pos') b ∧
    c.S.Feasible b.2 := by
  unfold stage at h
  split at h
  · cases h
  · rename_i q hq
    obtain ⟨h1, h2⟩ := sweep_ok (P := fun p => c.S.Feasible p) (hmv best.2 hb) hn hp hq
    split at h
    · cases h
    · rename_i t ht
      cases h
      rw [Swarm.select_congr (g := fit) (fun p hp => by rw [Space.clip_of_inBox (h2 p hp).1])] at ht
      have hi := Swarm.select_inc ht
      refine ⟨h1, h2, hi, accept_spec hr hi, ?_⟩
      unfold accept
      split_ifs
      · exact h2 _ hi.1
      · exact hb

theorem stage_total {c : Conf K} {fit : List K → K} {mv : List K → ℕ → List (List K) → List K → Py (List K)}
    (hmv : StageOK c mv) {pos : List (List K)} {best : WithTop K × List K} (hn : pos.length = c.nbats) (h0 : 0 < c.nbats)
    (hp : ∀ p ∈ pos, c.S.Feasible p) (hb : c.S.Feasible best.2)
    (ht : ∀ k (ps : List (List K)) x, k < c.nbats → ps.length = c.nbats → (∀ p ∈ ps, c.S.Feasible p) → ps[k]? = some x →
      ∃ y, mv best.2 k ps x = .ok y) :
    ∃ r, stage c fit mv pos best = .ok r := by
  obtain ⟨q, hq⟩ := sweep_total (P := fun p => c.S.Feasible p) (hmv best.2 hb) ht le_rfl hn hp
  obtain ⟨h1, h2⟩ := sweep_ok (P := fun p => c.S.Feasible p) (hmv best.2 hb) hn hp hq
  obtain ⟨t, ht⟩ := Swarm.select_total (f := fun p => fit (c.S.clip p)) (ps := q) (by
    intro h; rw [h] at h1; simp at h1; omega)
  unfold stage
  simp only [hq, ht]
  exact ⟨_, rfl⟩

end
end Neorl.BAT

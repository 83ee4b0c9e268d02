import Verif.Feasible
import Verif.Best

/-!
# Grey wolf optimiser

Model of `neorl/evolu/gwo.py`.  Fitness is an arbitrary function of the encoded vector (the grid decoding of `fit_worker`,
lines 125-127, is part of that function).  The points handed to the fitness function are collected in `log`.
-/

set_option linter.unusedSectionVars false
set_option linter.unusedVariables false

namespace Neorl.GWO

section
variable {K : Type} [Field K] [LinearOrder K] [IsStrictOrderedRing K] [FloorRing K]

/-- Arguments, `neorl/evolu/gwo.py` lines 43-86 and 159; `a` is the optional keyword argument `a`. -/
structure Conf (K : Type) where
  S : Space K
  nwolves : ℕ
  ngen : ℕ
  a : Option (List K)

/-- Draws of one generation: for wolf `i` and dimension `j` six uniform draws (lines 271-302), and the draws of the
discrete repair of wolf `i` (line 313). -/
structure Draw (K : Type) where
  r : ℕ → ℕ → ℕ → K
  disc : ℕ → ℕ → K × ℕ

/-- The three leaders: score and position.  `⊤` is `float("inf")`. -/
structure Lead (K : Type) where
  alpha : WithTop K × List K
  beta : WithTop K × List K
  delta : WithTop K × List K

/-- Lines 190-197. -/
def Lead.init (dim : ℕ) : Lead K :=
  { alpha := (⊤, List.replicate dim 0), beta := (⊤, List.replicate dim 0), delta := (⊤, List.replicate dim 0) }

/-- Lines 228-235. -/
def step1 (v : K) (p : List K) (L : Lead K) : Lead K :=
  if (v : WithTop K) < L.alpha.1 then { alpha := (v, p), beta := L.alpha, delta := L.beta } else L

/-- Lines 237-241. -/
def step2 (v : K) (p : List K) (L : Lead K) : Lead K :=
  if (v : WithTop K) > L.alpha.1 ∧ (v : WithTop K) < L.beta.1 then { L with beta := (v, p), delta := L.beta } else L

/-- Lines 243-245. -/
def step3 (v : K) (p : List K) (L : Lead K) : Lead K :=
  if (v : WithTop K) > L.alpha.1 ∧ (v : WithTop K) > L.beta.1 ∧ (v : WithTop K) < L.delta.1 then { L with delta := (v, p) }
  else L

/-- Lines 228-245: the three consecutive `if`s, each seeing the updates of the previous ones. -/
def lead (v : K) (p : List K) (L : Lead K) : Lead K := step3 v p (step2 v p (step1 v p L))

/-- The loop of lines 226-245 over the wolves. -/
def leadAll (fit : List K → K) : Lead K → List (List K) → Lead K
  | L, [] => L
  | L, p :: ps => leadAll fit (lead (fit p) p L) ps

/-- One leader's pull, lines 274-281: `X1 = Alpha_pos[j] - A1 * |C1 * Alpha_pos[j] - Positions[i,j]|`. -/
def pull (a r1 r2 l x : K) : K := l - (2 * a * r1 - a) * |2 * r2 * l - x|

/-- Lines 268-310 for one wolf.  Simplification: leaders always have `dim` entries, so `getD` never uses the default. -/
def moveRow (a : K) (r : ℕ → ℕ → K) (L : Lead K) (row : List K) : List K :=
  row.mapIdx fun j x =>
    (pull a (r j 0) (r j 1) (L.alpha.2.getD j 0) x + pull a (r j 2) (r j 3) (L.beta.2.getD j 0) x
      + pull a (r j 4) (r j 5) (L.delta.2.getD j 0) x) / 3

/-- Lines 268-313 for one wolf: move, clamp, repair discrete entries. -/
def move (c : Conf K) (b a : K) (dr : Draw K) (L : Lead K) (i : ℕ) (row : List K) : Py (List K) :=
  c.S.disc b (dr.disc i) (c.S.clip (moveRow a (dr.r i) L row))

/-- State between generations. -/
structure State (K : Type) where
  pos : List (List K)
  lead : Lead K
  best : WithTop K × List K
  hAlpha : List (WithTop K)
  hBeta : List (WithTop K)
  hDelta : List (WithTop K)
  hFit : List (WithTop K)
  last : List (List K × K)
  log : List (List K)

/-- Lines 257-261. -/
def coefA (c : Conf K) (l : ℕ) : Py K :=
  match c.a with
  | none => .ok (2 - (l : K) * (2 / (c.ngen : K)))
  | some as =>
    if as.length = c.ngen then
      match as[l]? with
      | some a => .ok a
      | none => .error .indexError
    else .error .assertion

/-- One generation, lines 201-339.  `fit` is the internal (minimised) fitness; `fit_worker` clamps first (line 123). -/
def gen (c : Conf K) (fit : List K → K) (l : ℕ) (dr : Draw K) (s : State K) : Py (State K) :=
  let b : K := 1 - (l : K) * (1 / (c.ngen : K))
  let f := fun p => fit (c.S.clip p)
  let L := leadAll f s.lead s.pos
  let best := updAll f s.best s.pos
  match coefA c l with
  | .error e => .error e
  | .ok a =>
    match mapRows (move c b a dr L) 0 s.pos with
    | .error e => .error e
    | .ok pos' =>
      .ok { pos := pos', lead := L, best := best,
            hAlpha := s.hAlpha ++ [L.alpha.1], hBeta := s.hBeta ++ [L.beta.1], hDelta := s.hDelta ++ [L.delta.1],
            hFit := s.hFit ++ [best.1], last := s.pos.map (fun p => (p, f p)),
            log := s.log ++ s.pos.map c.S.clip }

/-- The loop of line 201 after `g` generations.  `pos0` are the initial positions (lines 173-186). -/
def run (c : Conf K) (fit : List K → K) (dr : ℕ → Draw K) (pos0 : List (List K)) : ℕ → Py (State K)
  | 0 => .ok { pos := pos0, lead := Lead.init c.S.bounds.length, best := (⊤, []), hAlpha := [], hBeta := [], hDelta := [],
               hFit := [], last := [], log := [] }
  | g + 1 =>
    match run c fit dr pos0 g with
    | .error e => .error e
    | .ok s => gen c fit g (dr g) s

/-- What `evolute` returns (lines 354-368), plus the ghost log of evaluated points. -/
structure Result (K : Type) where
  x : List K
  y : K
  hAlpha : List (Option K)
  hBeta : List (Option K)
  hDelta : List (Option K)
  hFit : List (Option K)
  lastPop : List (List K × K)
  log : List (List K)

/-- `evolute`, lines 159-368, with the constructor's sign change for `mode='max'` (lines 55-61).  If no point was evaluated
`self.x_best` does not exist (AttributeError, here `unboundLocal`). -/
def evolute (c : Conf K) (minMode : Bool) (userFit : List K → K) (dr : ℕ → Draw K) (pos0 : List (List K)) : Py (Result K) :=
  if pos0.length ≠ c.nwolves then .error .assertion else
  match run c (fun x => sgn minMode (userFit x)) dr pos0 c.ngen with
  | .error e => .error e
  | .ok s =>
    match outScore minMode s.best.1 with
    | none => .error .unboundLocal
    | some y =>
      .ok { x := s.best.2, y := y, hAlpha := s.hAlpha.map (outScore minMode), hBeta := s.hBeta.map (outScore minMode),
            hDelta := s.hDelta.map (outScore minMode), hFit := s.hFit.map (outScore minMode),
            lastPop := s.last.map (fun p => (p.1, sgn minMode p.2)), log := s.log }

/-! ### Leaders -/

/-- Specification: alpha, beta and delta hold the smallest, second smallest and third smallest distinct values of `f` over
`log` (`⊤` when there is none), each with a point attaining it. -/
def ThreeBest (f : List K → K) (log : List (List K)) (A B D : WithTop K × List K) : Prop :=
  (A.1 < B.1 ∨ B.1 = ⊤) ∧ (B.1 < D.1 ∨ D.1 = ⊤) ∧
  (A.1 = ⊤ ∨ (A.2 ∈ log ∧ A.1 = (f A.2 : WithTop K))) ∧
  (B.1 = ⊤ ∨ (B.2 ∈ log ∧ B.1 = (f B.2 : WithTop K))) ∧
  (D.1 = ⊤ ∨ (D.2 ∈ log ∧ D.1 = (f D.2 : WithTop K))) ∧
  ∀ z ∈ log, (f z : WithTop K) = A.1 ∨ (f z : WithTop K) = B.1 ∨ D.1 ≤ (f z : WithTop K)

theorem threeBest_nil (f : List K → K) (x y z : List K) : ThreeBest f [] (⊤, x) (⊤, y) (⊤, z) := by
  simp [ThreeBest]

private theorem att_mono {f : List K → K} {log : List (List K)} {x : List K} {A : WithTop K × List K}
    (h : A.1 = ⊤ ∨ (A.2 ∈ log ∧ A.1 = (f A.2 : WithTop K))) :
    A.1 = ⊤ ∨ (A.2 ∈ log ++ [x] ∧ A.1 = (f A.2 : WithTop K)) := by
  rcases h with h | h
  · exact Or.inl h
  · exact Or.inr ⟨by simp [h.1], h.2⟩

theorem lead_spec {f : List K → K} {log : List (List K)} {L : Lead K} (h : ThreeBest f log L.alpha L.beta L.delta)
    (p : List K) :
    ThreeBest f (log ++ [p]) (lead (f p) p L).alpha (lead (f p) p L).beta (lead (f p) p L).delta := by
  obtain ⟨h1, h2, h3, h4, h5, h6⟩ := h
  have g3 := att_mono (x := p) h3
  have g4 := att_mono (x := p) h4
  have g5 := att_mono (x := p) h5
  have hv : (f p : WithTop K) < ⊤ := WithTop.coe_lt_top _
  unfold lead step1
  by_cases c1 : (f p : WithTop K) < L.alpha.1
  · rw [if_pos c1]
    have e2 : step2 (f p) p { alpha := ((f p : WithTop K), p), beta := L.alpha, delta := L.beta } =
        { alpha := ((f p : WithTop K), p), beta := L.alpha, delta := L.beta } := by
      unfold step2; rw [if_neg]; simp
    rw [e2]
    have e3 : step3 (f p) p { alpha := ((f p : WithTop K), p), beta := L.alpha, delta := L.beta } =
        { alpha := ((f p : WithTop K), p), beta := L.alpha, delta := L.beta } := by
      unfold step3; rw [if_neg]; simp
    rw [e3]
    refine ⟨Or.inl c1, h1, Or.inr ⟨by simp, rfl⟩, g3, g4, ?_⟩
    intro z hz
    rcases List.mem_append.1 hz with hz | hz
    · rcases h6 z hz with h | h | h
      · exact Or.inr (Or.inl h)
      · exact Or.inr (Or.inr h.ge)
      · right; right
        rcases h2 with h2 | h2
        · exact h2.le.trans h
        · rw [h2] at h; exact absurd (top_le_iff.1 h) WithTop.coe_ne_top
    · simp at hz; subst hz; exact Or.inl rfl
  · rw [if_neg c1]
    unfold step2
    by_cases c2 : (f p : WithTop K) > L.alpha.1 ∧ (f p : WithTop K) < L.beta.1
    · rw [if_pos c2]
      have e3 : step3 (f p) p { L with beta := ((f p : WithTop K), p), delta := L.beta } =
          { L with beta := ((f p : WithTop K), p), delta := L.beta } := by
        unfold step3; rw [if_neg]; simp
      rw [e3]
      refine ⟨Or.inl c2.1, Or.inl c2.2, g3, Or.inr ⟨by simp, rfl⟩, g4, ?_⟩
      intro z hz
      rcases List.mem_append.1 hz with hz | hz
      · rcases h6 z hz with h | h | h
        · exact Or.inl h
        · exact Or.inr (Or.inr h.ge)
        · right; right
          rcases h2 with h2 | h2
          · exact h2.le.trans h
          · rw [h2] at h; exact absurd (top_le_iff.1 h) WithTop.coe_ne_top
      · simp at hz; subst hz; exact Or.inr (Or.inl rfl)
    · rw [if_neg c2]
      unfold step3
      by_cases c3 : (f p : WithTop K) > L.alpha.1 ∧ (f p : WithTop K) > L.beta.1 ∧ (f p : WithTop K) < L.delta.1
      · rw [if_pos c3]
        refine ⟨h1, Or.inl c3.2.1, g3, g4, Or.inr ⟨by simp, rfl⟩, ?_⟩
        intro z hz
        rcases List.mem_append.1 hz with hz | hz
        · rcases h6 z hz with h | h | h
          · exact Or.inl h
          · exact Or.inr (Or.inl h)
          · exact Or.inr (Or.inr (c3.2.2.le.trans h))
        · simp at hz; subst hz; exact Or.inr (Or.inr le_rfl)
      · rw [if_neg c3]
        refine ⟨h1, h2, g3, g4, g5, ?_⟩
        intro z hz
        rcases List.mem_append.1 hz with hz | hz
        · exact h6 z hz
        · simp at hz; subst hz
          rcases eq_or_lt_of_le (not_lt.1 c1) with h | h
          · exact Or.inl h.symm
          · have hb : L.beta.1 ≤ (f z : WithTop K) := not_lt.1 (fun hh => c2 ⟨h, hh⟩)
            rcases eq_or_lt_of_le hb with hb | hb
            · exact Or.inr (Or.inl hb.symm)
            · exact Or.inr (Or.inr (not_lt.1 (fun hh => c3 ⟨h, hb, hh⟩)))

theorem leadAll_spec {f : List K → K} {log : List (List K)} {L : Lead K} (h : ThreeBest f log L.alpha L.beta L.delta)
    (ps : List (List K)) :
    ThreeBest f (log ++ ps) (leadAll f L ps).alpha (leadAll f L ps).beta (leadAll f L ps).delta := by
  induction ps generalizing log L with
  | nil => simpa [leadAll] using h
  | cons p ps ih => simpa [leadAll] using ih (lead_spec h p)

theorem leadAll_congr {f g : List K → K} {ps : List (List K)} (h : ∀ p ∈ ps, f p = g p) (L : Lead K) :
    leadAll f L ps = leadAll g L ps := by
  induction ps generalizing L with
  | nil => rfl
  | cons p ps ih =>
    simp only [leadAll]
    rw [h p (by simp)]
    exact ih (fun y hy => h y (by simp [hy])) _

/-- The alpha wolf is the overall best. -/
theorem ThreeBest.alpha_le {f : List K → K} {log : List (List K)} {A B D : WithTop K × List K} (h : ThreeBest f log A B D) :
    A.1 ≤ B.1 ∧ B.1 ≤ D.1 ∧ RunMin f log A := by
  obtain ⟨h1, h2, h3, h4, h5, h6⟩ := h
  have a1 : A.1 ≤ B.1 := by rcases h1 with h | h; exact h.le; rw [h]; exact le_top
  have a2 : B.1 ≤ D.1 := by rcases h2 with h | h; exact h.le; rw [h]; exact le_top
  refine ⟨a1, a2, ?_, h3⟩
  intro z hz
  rcases h6 z hz with h | h | h
  · exact h.ge
  · rw [h]; exact a1
  · exact (a1.trans a2).trans h

/-! ### Runs -/

theorem length_moveRow (a : K) (r : ℕ → ℕ → K) (L : Lead K) (row : List K) : (moveRow a r L row).length = row.length := by
  simp [moveRow]

theorem move_feasible {c : Conf K} (hS : c.S.OK) {b a : K} {dr : Draw K} {L : Lead K} {i : ℕ} {row row' : List K}
    (hl : row.length = c.S.bounds.length) (h : move c b a dr L i row = .ok row') : c.S.Feasible row' :=
  Space.disc_feasible hS (c.S.clip_inBox hS (by rw [length_moveRow, hl])) h

theorem gen_ok {c : Conf K} {fit : List K → K} {l : ℕ} {dr : Draw K} {s s' : State K} (h : gen c fit l dr s = .ok s') :
    ∃ a pos', coefA c l = .ok a ∧
      mapRows (move c (1 - (l : K) * (1 / (c.ngen : K))) a dr (leadAll (fun p => fit (c.S.clip p)) s.lead s.pos)) 0 s.pos
        = .ok pos' ∧
      s' = { pos := pos', lead := leadAll (fun p => fit (c.S.clip p)) s.lead s.pos,
             best := updAll (fun p => fit (c.S.clip p)) s.best s.pos,
             hAlpha := s.hAlpha ++ [(leadAll (fun p => fit (c.S.clip p)) s.lead s.pos).alpha.1],
             hBeta := s.hBeta ++ [(leadAll (fun p => fit (c.S.clip p)) s.lead s.pos).beta.1],
             hDelta := s.hDelta ++ [(leadAll (fun p => fit (c.S.clip p)) s.lead s.pos).delta.1],
             hFit := s.hFit ++ [(updAll (fun p => fit (c.S.clip p)) s.best s.pos).1],
             last := s.pos.map (fun p => (p, fit (c.S.clip p))),
             log := s.log ++ s.pos.map c.S.clip } := by
  unfold gen at h
  simp only at h
  split at h
  · cases h
  · rename_i a ha
    split at h
    · cases h
    · rename_i pos' hp
      cases h
      exact ⟨a, pos', ha, hp, rfl⟩

end
end Neorl.GWO

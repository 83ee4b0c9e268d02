import Verif.Swarm

/-!
# Harris hawks optimisation

Model of `neorl/evolu/hho.py`.  Fitness is an arbitrary function of the encoded vector (grid decoding included).  Ghost
logs: `starts` collects the start-of-generation evaluations (`eval_hawks`), `dives` the evaluations made inside
`team_rapid_dives` during the latest generation, `early` everything evaluated before those dives.
-/

set_option linter.unusedSectionVars false
set_option linter.unusedVariables false

namespace Neorl.HHO

open Swarm (select Inc)

section
variable {K : Type} [Field K] [LinearOrder K] [IsStrictOrderedRing K] [FloorRing K]

/-- Arguments, `neorl/evolu/hho.py` lines 44-92 and 94; `kwE1` is the keyword argument `E1`. -/
structure Conf (K : Type) where
  S : Space K
  nhawks : ℕ
  ngen : ℕ
  kwE1 : Option (List K)

/-- Draws of one hawk in one generation.  `hawk` is reduced modulo `nhawks` (line 338), `jump` stands for the vector
`randn * levy()`. -/
structure Draw (K : Type) where
  e0 : K
  q : K
  hawk : ℕ
  u1 : K
  u2 : K
  r : K
  uJ : K
  jump : ℕ → K
  dY : ℕ → K × ℕ
  dZ : ℕ → K × ℕ
  dF : ℕ → K × ℕ

/-- Lines 132-138. -/
def coefE1 (c : Conf K) (t : ℕ) : Py K :=
  match c.kwE1 with
  | none => .ok (2 * (1 - (t : K) / (c.ngen : K)))
  | some es =>
    if es.length = c.ngen then
      match es[t]? with
      | some e => .ok e
      | none => .error .indexError
    else .error .assertion

/-- `ensure_bounds` then the discrete repair with `self.a = 1 - t/ngen`: lines 401-402, 184-193. -/
def repair (c : Conf K) (t : ℕ) (draw : ℕ → K × ℕ) (v : List K) : Py (List K) :=
  c.S.disc (1 - (t : K) * (1 / (c.ngen : K))) draw (c.S.clip v)

/-- `self.hawk_positions.mean(0)[j]`. -/
def colMean (pop : List (List K)) (j : ℕ) : K := (pop.map (fun p => p.getD j 0)).sum / (pop.length : K)

/-- `exploration`, lines 337-346. -/
def explore (c : Conf K) (d : Draw K) (rabbit : List K) (pop : List (List K)) (row : List K) : List K :=
  row.mapIdx fun j x =>
    if d.q < 1 / 2 then
      let h := (pop.getD (d.hawk % c.nhawks) []).getD j 0
      h - d.u1 * |h - 2 * d.u2 * x|
    else
      let b := c.S.bounds.getD j (0, 0)
      (rabbit.getD j 0 - colMean pop j) - d.u1 * ((b.2 - b.1) * d.u2 + b.1)

/-- `surprise_pounce`, lines 365-375. -/
def pounce (E : K) (d : Draw K) (rabbit row : List K) : List K :=
  row.mapIdx fun j x =>
    if |E| < 1 / 2 then rabbit.getD j 0 - E * |rabbit.getD j 0 - x|
    else (rabbit.getD j 0 - x) - E * |2 * (1 - d.uJ) * rabbit.getD j 0 - x|

/-- The dive target before repair, lines 396-397, 423-424 (`Y`) and 407-409, 434-436 (`Z`, with the Lévy term). -/
def diveTarget (E : K) (d : Draw K) (rabbit : List K) (pop : List (List K)) (levy : Bool) (row : List K) : List K :=
  row.mapIdx fun j x =>
    let ref := if |E| ≥ 1 / 2 then x else colMean pop j
    let y := rabbit.getD j 0 - E * |2 * (1 - d.uJ) * rabbit.getD j 0 - ref|
    if levy then y + d.jump j else y

/-- `team_rapid_dives`, lines 377-444: new row and the points evaluated. -/
def dive (c : Conf K) (fit : List K → K) (t : ℕ) (E : K) (d : Draw K) (rabbit : List K) (hawkFit : K) (pop : List (List K))
    (row : List K) : Py (List K × List (List K)) :=
  match repair c t d.dY (diveTarget E d rabbit pop false row) with
  | .error e => .error e
  | .ok Y =>
    if fit (c.S.clip Y) < hawkFit then .ok (Y, [c.S.clip Y])
    else
      match repair c t d.dZ (diveTarget E d rabbit pop true row) with
      | .error e => .error e
      | .ok Z =>
        if fit (c.S.clip Z) < hawkFit then .ok (Z, [c.S.clip Y, c.S.clip Z])
        else .ok (row, [c.S.clip Y, c.S.clip Z])

/-- Body of `update_hawks` for one hawk, lines 296-323. -/
def updHawk (c : Conf K) (fit : List K → K) (t : ℕ) (E1 : K) (d : Draw K) (rabbit : List K) (hawkFit : K)
    (pop : List (List K)) (row : List K) : Py (List K × List (List K)) :=
  let E := E1 * (2 * d.e0 - 1)
  if |E| ≥ 1 then .ok (explore c d rabbit pop row, [])
  else if d.r ≥ 1 / 2 then .ok (pounce E d rabbit row, [])
  else dive c fit t E d rabbit hawkFit pop row

/-- `update_hawks` for hawks `0 .. i-1`, in place; `fits` is `fitness_lst`. -/
def updTo (c : Conf K) (fit : List K → K) (t : ℕ) (E1 : K) (dr : ℕ → Draw K) (rabbit : List K) (fits : List K) :
    ℕ → List (List K) → Py (List (List K) × List (List K))
  | 0, pop => .ok (pop, [])
  | i + 1, pop =>
    match updTo c fit t E1 dr rabbit fits i pop with
    | .error e => .error e
    | .ok (p, ev) =>
      match p[i]?, fits[i]? with
      | some row, some hf =>
        match updHawk c fit t E1 (dr i) rabbit hf p row with
        | .error e => .error e
        | .ok (row', ev') => .ok (p.set i row', ev ++ ev')
      | _, _ => .error .indexError

/-- State between generations. -/
structure State (K : Type) where
  pos : List (List K)
  rabbit : WithTop K × List K
  /-- `self.best_scores` -/
  scores : List K
  last : List (List K × K)
  starts : List (List K)
  early : List (List K)
  dives : List (List K)

/-- One generation, lines 129-193. -/
def gen (c : Conf K) (fit : List K → K) (t : ℕ) (dr : ℕ → Draw K) (s : State K) : Py (State K) :=
  match coefE1 c t with
  | .error e => .error e
  | .ok E1 =>
    let f := fun p => fit (c.S.clip p)
    match select f s.pos with
    | .error e => .error e
    | .ok b =>
      let rabbit := updAll f s.rabbit s.pos
      match updTo c fit t E1 dr rabbit.2 (s.pos.map f) c.nhawks s.pos with
      | .error e => .error e
      | .ok (p, ev) =>
        match mapRows (fun i row => repair c t (dr i).dF row) 0 p with
        | .error e => .error e
        | .ok pos' =>
          .ok { pos := pos', rabbit := rabbit, scores := s.scores ++ [b.1], last := s.pos.map (fun p => (p, f p)),
                starts := s.starts ++ s.pos.map c.S.clip, early := s.early ++ s.dives ++ s.pos.map c.S.clip, dives := ev }

/-- `g` generations from the initial hawks (lines 114-126). -/
def run (c : Conf K) (fit : List K → K) (dr : ℕ → ℕ → Draw K) (pos0 : List (List K)) : ℕ → Py (State K)
  | 0 => .ok { pos := pos0, rabbit := (⊤, List.replicate c.S.bounds.length 0), scores := [], last := [], starts := [],
               early := [], dives := [] }
  | g + 1 =>
    match run c fit dr pos0 g with
    | .error e => .error e
    | .ok s => gen c fit g (dr g) s

/-- What `evolute` returns, plus ghost logs. -/
structure Result (K : Type) where
  x : List K
  y : K
  global : List K
  locals : List K
  lastPop : List (List K × K)
  starts : List (List K)
  early : List (List K)
  lastDives : List (List K)

/-- `evolute`, lines 94-225: `np.maximum.accumulate` of the negated scores in mode 'max', `np.minimum.accumulate` in mode
'min' (lines 208-215). -/
def evolute (c : Conf K) (m : Bool) (userFit : List K → K) (dr : ℕ → ℕ → Draw K) (pos0 : List (List K)) : Py (Result K) :=
  if pos0.length ≠ c.nhawks then .error .assertion else
  match run c (fun x => sgn m (userFit x)) dr pos0 c.ngen with
  | .error e => .error e
  | .ok s =>
    match outScore m s.rabbit.1 with
    | none => .error .unboundLocal
    | some y =>
      let loc := if m then s.scores else s.scores.map (fun v => -v)
      .ok { x := s.rabbit.2, y := y, global := if m then accMin loc else accMax loc, locals := loc,
            lastPop := s.last.map (fun p => (p.1, sgn m p.2)), starts := s.starts, early := s.early, lastDives := s.dives }

/-! ### Lemmas -/

theorem repair_feasible {c : Conf K} (hS : c.S.OK) {t : ℕ} {draw : ℕ → K × ℕ} {v v' : List K}
    (hl : v.length = c.S.bounds.length) (h : repair c t draw v = .ok v') : c.S.Feasible v' :=
  Space.disc_feasible hS (c.S.clip_inBox hS hl) h

theorem repair_total {c : Conf K} (hS : c.S.OK) (hm : c.S.method = .nearestInt) (t : ℕ) (draw : ℕ → K × ℕ) {v : List K}
    (hl : v.length = c.S.bounds.length) : ∃ v', repair c t draw v = .ok v' :=
  Space.disc_nearest_total hS hm _ _ (by rw [Space.length_clip hS hl])

theorem repair_id {c : Conf K} (hS : c.S.OK) (hm : c.S.method = .nearestInt) (t : ℕ) (draw : ℕ → K × ℕ) {v : List K}
    (hv : c.S.Feasible v) : repair c t draw v = .ok v := by
  unfold repair
  rw [Space.clip_of_inBox hv.1]
  exact Space.disc_nearest_id hS hm hv

/-- What one hawk update does: the row keeps its length; every dive evaluation is feasible; it is either no better
than the hawk's own fitness or it is the hawk's new row. At most two evaluations. -/
theorem updHawk_spec {c : Conf K} (hS : c.S.OK) {fit : List K → K} {t : ℕ} {E1 : K} {d : Draw K} {rabbit : List K}
    {hf : K} {pop : List (List K)} {row row' : List K} {ev : List (List K)} (hl : row.length = c.S.bounds.length)
    (h : updHawk c fit t E1 d rabbit hf pop row = .ok (row', ev)) :
    row'.length = c.S.bounds.length ∧ ev.length ≤ 2 ∧
    ∀ z ∈ ev, c.S.Feasible z ∧ (hf ≤ fit z ∨ (z = row' ∧ c.S.Feasible row')) := by
  unfold updHawk at h
  simp only at h
  by_cases h1 : |E1 * (2 * d.e0 - 1)| ≥ 1
  · rw [if_pos h1] at h; cases h; simp [explore, hl]
  rw [if_neg h1] at h
  by_cases h2 : d.r ≥ 1 / 2
  · rw [if_pos h2] at h; cases h; simp [pounce, hl]
  rw [if_neg h2] at h
  unfold dive at h
  split at h
  · cases h
  · rename_i Y hY
    have fY : c.S.Feasible Y := repair_feasible hS (by simp [diveTarget, hl]) hY
    rw [Space.clip_of_inBox fY.1] at h
    by_cases h3 : fit Y < hf
    · rw [if_pos h3] at h
      cases h
      exact ⟨fY.1.length_eq, by simp, by simp [fY]⟩
    · rw [if_neg h3] at h
      split at h
      · cases h
      · rename_i Z hZ
        have fZ : c.S.Feasible Z := repair_feasible hS (by simp [diveTarget, hl]) hZ
        rw [Space.clip_of_inBox fZ.1] at h
        by_cases h4 : fit Z < hf
        · rw [if_pos h4] at h
          cases h
          refine ⟨fZ.1.length_eq, by simp, ?_⟩
          intro z hz
          simp at hz
          rcases hz with rfl | rfl
          · exact ⟨fY, Or.inl (not_lt.1 h3)⟩
          · exact ⟨fZ, Or.inr ⟨rfl, fZ⟩⟩
        · rw [if_neg h4] at h
          cases h
          refine ⟨hl, by simp, ?_⟩
          intro z hz
          simp at hz
          rcases hz with rfl | rfl
          · exact ⟨fY, Or.inl (not_lt.1 h3)⟩
          · exact ⟨fZ, Or.inl (not_lt.1 h4)⟩

theorem updTo_spec {c : Conf K} (hS : c.S.OK) {fit : List K → K} {t : ℕ} {E1 : K} {dr : ℕ → Draw K} {rabbit : List K}
    {fits : List K} {i : ℕ} {pop p : List (List K)} {ev : List (List K)}
    (hl : ∀ x ∈ pop, x.length = c.S.bounds.length)
    (h : updTo c fit t E1 dr rabbit fits i pop = .ok (p, ev)) :
    p.length = pop.length ∧ (∀ x ∈ p, x.length = c.S.bounds.length) ∧ ev.length ≤ 2 * i ∧
    (∀ k, i ≤ k → p[k]? = pop[k]?) ∧
    ∀ z ∈ ev, c.S.Feasible z ∧ ((∃ hf ∈ fits, hf ≤ fit z) ∨ ∃ k < i, p[k]? = some z) := by
  induction i generalizing p ev with
  | zero => cases h; exact ⟨rfl, hl, by simp, fun _ _ => rfl, by simp⟩
  | succ i ih =>
    simp only [updTo] at h
    split at h
    · cases h
    · rename_i q ev0 hq
      obtain ⟨h1, h2, h3, h4, h5⟩ := ih hq
      split at h
      · rename_i row hf hrow hfit
        split at h
        · cases h
        · rename_i row' ev' hu
          cases h
          obtain ⟨g1, g2, g3⟩ := updHawk_spec hS (h2 row (List.mem_of_getElem? hrow)) hu
          have hi : i < q.length := (List.getElem?_eq_some_iff.1 hrow).1
          refine ⟨by simp [h1], ?_, by simp; omega, ?_, ?_⟩
          · intro x hx
            rcases List.mem_or_eq_of_mem_set hx with hx | rfl
            · exact h2 x hx
            · exact g1
          · intro k hk
            rw [List.getElem?_set_ne (by omega)]
            exact h4 k (by omega)
          · intro z hz
            rcases List.mem_append.1 hz with hz | hz
            · obtain ⟨f, hh | hh⟩ := h5 z hz
              · exact ⟨f, Or.inl hh⟩
              · obtain ⟨k, hk, e⟩ := hh
                exact ⟨f, Or.inr ⟨k, by omega, by rw [List.getElem?_set_ne (by omega)]; exact e⟩⟩
            · obtain ⟨f, hh⟩ := g3 z hz
              refine ⟨f, ?_⟩
              rcases hh with hh | ⟨rfl, _⟩
              · exact Or.inl ⟨hf, List.mem_of_getElem? hfit, hh⟩
              · exact Or.inr ⟨i, by omega, by simp [hi]⟩
      · cases h

theorem updTo_total {c : Conf K} (hS : c.S.OK) (hm : c.S.method = .nearestInt) {fit : List K → K} {t : ℕ} {E1 : K}
    {dr : ℕ → Draw K} {rabbit : List K} {fits : List K} {i : ℕ} {pop : List (List K)}
    (hl : ∀ x ∈ pop, x.length = c.S.bounds.length) (hi : i ≤ pop.length) (hf : fits.length = pop.length) :
    ∃ r, updTo c fit t E1 dr rabbit fits i pop = .ok r := by
  induction i with
  | zero => exact ⟨_, rfl⟩
  | succ i ih =>
    obtain ⟨⟨p, ev⟩, h⟩ := ih (by omega)
    obtain ⟨h1, h2, -, -, -⟩ := updTo_spec hS hl h
    simp only [updTo, h]
    rw [List.getElem?_eq_getElem (by omega), List.getElem?_eq_getElem (by omega)]
    have hrl := h2 (p[i]'(by omega)) (List.getElem_mem _)
    have : ∃ r, updHawk c fit t E1 (dr i) rabbit (fits[i]'(by omega)) p (p[i]'(by omega)) = .ok r := by
      unfold updHawk
      simp only
      split_ifs
      · exact ⟨_, rfl⟩
      · exact ⟨_, rfl⟩
      · unfold dive
        obtain ⟨Y, hY⟩ := repair_total hS hm t (dr i).dY
          (v := diveTarget (E1 * (2 * (dr i).e0 - 1)) (dr i) rabbit p false (p[i]'(by omega))) (by simp [diveTarget, hrl])
        obtain ⟨Z, hZ⟩ := repair_total hS hm t (dr i).dZ
          (v := diveTarget (E1 * (2 * (dr i).e0 - 1)) (dr i) rabbit p true (p[i]'(by omega))) (by simp [diveTarget, hrl])
        simp only [hY, hZ]
        split_ifs
        · exact ⟨_, rfl⟩
        · exact ⟨_, rfl⟩
        · exact ⟨_, rfl⟩
    obtain ⟨r, hr⟩ := this
    simp only [hr]
    exact ⟨_, rfl⟩

/-- Everything known about the state after `g` generations. -/
structure Inv (c : Conf K) (fit : List K → K) (g : ℕ) (s : State K) : Prop where
  npos : s.pos.length = c.nhawks
  feas : ∀ p ∈ s.pos, c.S.Feasible p
  rabbit : RunMin fit s.starts s.rabbit
  nsc : s.scores.length = g
  hist : HistMin fit 0 c.nhawks s.starts (accMin s.scores)
  sc1 : ∀ v ∈ s.scores, ∃ z ∈ s.starts, fit z = v
  sc2 : ∀ z ∈ s.starts, ∃ v ∈ s.scores, v ≤ fit z
  locals : ∀ (k : ℕ) (y : K), s.scores[k]? = some y → MinOn fit ((s.starts.drop (k * c.nhawks)).take c.nhawks) y
  fearly : ∀ p ∈ s.early, c.S.Feasible p
  fdives : ∀ p ∈ s.dives, c.S.Feasible p
  sub : s.starts.Sublist s.early
  evals : s.early.length + s.dives.length ≤ 3 * (g * c.nhawks)
  last : g ≠ 0 → s.last = (s.starts.drop ((g - 1) * c.nhawks)).map (fun p => (p, fit p))
  cover : c.S.method = .nearestInt → ∀ z ∈ s.early ++ s.dives, ∃ w ∈ s.starts ++ s.pos, fit w ≤ fit z
  exact : c.S.method = .nearestInt → ∀ z ∈ s.early, ∃ w ∈ s.starts, fit w ≤ fit z

theorem run_inv {c : Conf K} (hS : c.S.OK) {fit : List K → K} {dr : ℕ → ℕ → Draw K} {pos0 : List (List K)}
    (hn : pos0.length = c.nhawks) (hf : ∀ p ∈ pos0, c.S.Feasible p) {g : ℕ} {s : State K}
    (h : run c fit dr pos0 g = .ok s) : Inv c fit g s := by
  induction g generalizing s with
  | zero =>
    cases h
    exact ⟨hn, hf, runMin_nil _ _, rfl, histMin_nil fit c.nhawks [], by simp, by simp, by simp, by simp, by simp,
      List.Sublist.refl _, by simp, by simp, by simp, by simp⟩
  | succ g ih =>
    simp only [run] at h
    split at h
    · cases h
    rename_i s0 h0
    have hi := ih h0
    simp only [gen] at h
    split at h
    · cases h
    rename_i E1 hE
    split at h
    · cases h
    rename_i b hb
    split at h
    · cases h
    rename_i p ev hu
    split at h
    · cases h
    rename_i pos' hm
    cases h
    have hcong : ∀ p ∈ s0.pos, fit (c.S.clip p) = fit p := fun p hp => by rw [Space.clip_of_inBox (hi.feas p hp).1]
    rw [Swarm.select_congr (g := fit) hcong] at hb
    simp only [Space.map_clip hi.feas, updAll_congr hcong]
    have hmin := (Swarm.select_inc hb).minOn
    have hl : ∀ x ∈ s0.pos, x.length = c.S.bounds.length := fun x hx => (hi.feas x hx).1.length_eq
    rw [List.map_congr_left hcong] at hu
    obtain ⟨u1, u2, u3, u4, u5⟩ := updTo_spec hS hl hu
    have hst : s0.starts.length = g * c.nhawks := by
      have := hi.hist.1; rw [length_accMin, hi.nsc] at this; omega
    have hpos : pos'.length = c.nhawks := by rw [(mapRows_ok hm).1, u1, hi.npos]
    have hfpos : ∀ q ∈ pos', c.S.Feasible q :=
      mapRows_forall (P := fun x : List K => x.length = c.S.bounds.length) hm u2 (fun i x y hx h => repair_feasible hS hx h)
    have hsc2 : ∀ z ∈ s0.starts ++ s0.pos, ∃ v ∈ s0.scores ++ [b.1], v ≤ fit z := by
      intro z hz
      rcases List.mem_append.1 hz with hz | hz
      · obtain ⟨v, hv, e⟩ := hi.sc2 z hz
        exact ⟨v, by simp [hv], e⟩
      · exact ⟨b.1, by simp, hmin.2 z hz⟩
    have hexact : c.S.method = .nearestInt → ∀ z ∈ s0.early ++ s0.dives ++ s0.pos, ∃ w ∈ s0.starts ++ s0.pos, fit w ≤ fit z := by
      intro hne z hz
      rcases List.mem_append.1 hz with hz | hz
      · exact hi.cover hne z hz
      · exact ⟨z, by simp [hz], le_rfl⟩
    refine ⟨hpos, hfpos, hi.rabbit.updAll _, by simp [hi.nsc], hi.hist.acc hi.sc1 hi.sc2 hi.npos hmin, ?_, hsc2, ?_, ?_, ?_, ?_, ?_, ?_,
      ?_, hexact⟩
    · intro v hv
      rcases List.mem_append.1 hv with hv | hv
      · obtain ⟨z, hz, e⟩ := hi.sc1 v hv
        exact ⟨z, by simp [hz], e⟩
      · simp at hv; subst hv
        obtain ⟨z, hz, e⟩ := hmin.1
        exact ⟨z, by simp [hz], e⟩
    · intro k y hy
      rcases Nat.lt_or_ge k g with hk | hk
      · rw [List.getElem?_append_left (by rw [hi.nsc]; omega)] at hy
        have h1 : (k + 1) * c.nhawks ≤ g * c.nhawks := Nat.mul_le_mul_right _ hk
        have h2 : (k + 1) * c.nhawks = k * c.nhawks + c.nhawks := by ring
        rw [List.drop_append_of_le_length (by omega), List.take_append_of_le_length]
        · exact hi.locals k y hy
        · rw [List.length_drop]; omega
      · rw [List.getElem?_append_right (by rw [hi.nsc]; omega)] at hy
        have hk' : k = g := by
          have := (List.getElem?_eq_some_iff.1 hy).1
          simp [hi.nsc] at this; omega
        subst hk'
        simp [hi.nsc] at hy
        subst hy
        rw [List.drop_append_of_le_length (by omega), List.drop_of_length_le (by omega)]
        rw [List.nil_append, List.take_of_length_le (by rw [hi.npos])]
        exact hmin
    · intro q hq
      rcases List.mem_append.1 hq with hq | hq
      · rcases List.mem_append.1 hq with hq | hq
        · exact hi.fearly q hq
        · exact hi.fdives q hq
      · exact hi.feas q hq
    · exact fun q hq => (u5 q hq).1
    · exact (hi.sub.trans (List.sublist_append_left _ _)).append (List.Sublist.refl _)
    · have := hi.evals
      have hp := hi.npos
      simp only [List.length_append]
      have e : 3 * ((g + 1) * c.nhawks) = 3 * (g * c.nhawks) + 3 * c.nhawks := by ring
      omega
    · intro _
      simp only [Nat.add_sub_cancel]
      rw [List.drop_append_of_le_length (by omega), List.drop_of_length_le (by omega), List.nil_append]
      exact List.map_congr_left (fun q hq => by rw [hcong q hq])
    · intro hne z hz
      rcases List.mem_append.1 hz with hz | hz
      · obtain ⟨w, hw, e⟩ := hexact hne z hz
        exact ⟨w, List.mem_append_left _ hw, e⟩
      · obtain ⟨fz, hh | ⟨k, hk, e⟩⟩ := u5 z hz
        · obtain ⟨hf', hmem, hle⟩ := hh
          obtain ⟨w, hw, rfl⟩ := List.mem_map.1 hmem
          exact ⟨w, by simp [hw], hle⟩
        · have hk' := (List.getElem?_eq_some_iff.1 e).1
          refine ⟨z, List.mem_append_right _ ?_, le_rfl⟩
          have hk2 : k < pos'.length := by rw [(mapRows_ok hm).1]; exact hk'
          obtain ⟨x, hx1, hx2⟩ := (mapRows_ok hm).2 k _ (List.getElem?_eq_getElem hk2)
          rw [e] at hx1
          cases hx1
          rw [repair_id hS hne _ _ fz] at hx2
          cases hx2
          exact List.getElem_mem hk2

end
end Neorl.HHO

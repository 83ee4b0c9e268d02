import Verif.Feasible
import Verif.Best

/-!
# JAYA

Model of `neorl/evolu/jaya.py`.  Fitness is an arbitrary function of the encoded vector.  `Best_pos` and `Worst_pos` are numpy
*views* of rows of `pos` (lines 222, 225, 260, 263): the model stores the row index and reads the row at use time.
-/

set_option linter.unusedSectionVars false
set_option linter.unusedVariables false

namespace Neorl.JAYA

section
variable {K : Type} [Field K] [LinearOrder K] [IsStrictOrderedRing K] [FloorRing K]

/-- Arguments, `neorl/evolu/jaya.py` lines 41-85 and 188. -/
structure Conf (K : Type) where
  S : Space K
  npop : ℕ
  ngen : ℕ

/-- Draws for one row of one generation: `r1`, `r2` (lines 236-237) and those of the discrete repair. -/
structure Draw (K : Type) where
  r1 : ℕ → K
  r2 : ℕ → K
  disc : ℕ → K × ℕ

/-- Lines 257-263 (and 219-225) for the best: index and score, strict `>`. -/
def scanBest : ℕ → K × ℕ → List K → K × ℕ
  | _, b, [] => b
  | i, b, v :: vs => scanBest (i + 1) (if v > b.1 then (v, i) else b) vs

/-- The same loop for the worst: strict `<`. -/
def scanWorst : ℕ → K × ℕ → List K → K × ℕ
  | _, b, [] => b
  | i, b, v :: vs => scanWorst (i + 1) (if v < b.1 then (v, i) else b) vs

/-- State between generations. -/
structure State (K : Type) where
  pos : List (List K)
  /-- `fitness_mat` (internal sign: larger is better) -/
  fits : List K
  best : K × ℕ
  worst : K × ℕ
  global : List K
  locals : List K
  last : List (List K × K)
  log : List (List K)

/-- Initialisation, lines 204-225.  The scores start at `-inf` and `+inf`, so the first row always sets both; without rows
`x_best` stays all zeros, which the constructor's `assert npop > 3` (line 66) excludes: modelled as an assertion. -/
def init (fit : List K → K) (pos0 : List (List K)) : Py (State K) :=
  match pos0.map fit with
  | [] => .error .assertion
  | v :: vs => .ok { pos := pos0, fits := v :: vs, best := scanBest 1 (v, 0) vs, worst := scanWorst 1 (v, 0) vs, global := [],
                     locals := [], last := [], log := pos0 }

/-- Lines 239-243: the trial row before repair. -/
def trial (best worst : List K) (d : Draw K) (row : List K) : List K :=
  row.mapIdx fun j x => x + d.r1 j * (best.getD j 0 - |x|) - d.r2 j * (worst.getD j 0 - |x|)

/-- `ensure_bounds`, `ensure_discrete` with `self.b = 1 - gen/ngen` (`gen` counts from 1): lines 230, 245-246. -/
def repair (c : Conf K) (g : ℕ) (d : Draw K) (v : List K) : Py (List K) :=
  c.S.disc (1 - ((g + 1 : ℕ) : K) * (1 / (c.ngen : K))) d.disc (c.S.clip v)

/-- Greedy selection, lines 251-254. -/
def greedy : List (List K) → List K → List (List K) → List K → List (List K) × List K
  | p :: ps, f :: fs, q :: qs, g :: gs =>
    let r := greedy ps fs qs gs
    if g > f then (q :: r.1, g :: r.2) else (p :: r.1, f :: r.2)
  | ps, fs, _, _ => (ps, fs)

/-- `np.max`. -/
def listMax : List K → Py K
  | [] => .error .valueError
  | v :: vs => .ok (vs.foldl max v)

/-- One generation, lines 228-284; `g` counts from 0. -/
def gen (c : Conf K) (fit : List K → K) (g : ℕ) (dr : ℕ → Draw K) (s : State K) : Py (State K) :=
  match s.pos[s.best.2]?, s.pos[s.worst.2]? with
  | some b, some w =>
    match mapRows (fun i row => repair c g (dr i) (trial b w (dr i) row)) 0 s.pos with
    | .error e => .error e
    | .ok new =>
      let fnew := new.map fit
      let r := greedy s.pos s.fits new fnew
      let best := scanBest 0 s.best r.2
      let worst := scanWorst 0 s.worst r.2
      match listMax fnew with
      | .error e => .error e
      | .ok mx =>
        .ok { pos := r.1, fits := r.2, best := best, worst := worst, global := s.global ++ [best.1], locals := s.locals ++ [mx],
              last := new.map (fun x => (x, fit x)), log := s.log ++ new }
  | _, _ => .error .indexError

/-- `g` generations. -/
def run (c : Conf K) (fit : List K → K) (dr : ℕ → ℕ → Draw K) (pos0 : List (List K)) : ℕ → Py (State K)
  | 0 => init fit pos0
  | g + 1 =>
    match run c fit dr pos0 g with
    | .error e => .error e
    | .ok s => gen c fit g (dr g) s

/-- What `evolute` returns, plus the ghost log. -/
structure Result (K : Type) where
  x : List K
  y : K
  global : List K
  locals : List K
  lastPop : List (List K × K)
  log : List (List K)

/-- `evolute`, lines 188-329.  `m` is `mode == 'min'`; the constructor negates the fitness in that mode.  With `ngen = 0` the name
`x_best` is unbound. -/
def evolute (c : Conf K) (m : Bool) (userFit : List K → K) (dr : ℕ → ℕ → Draw K) (pos0 : List (List K)) : Py (Result K) :=
  if pos0.length ≠ c.npop then .error .assertion else
  match run c (fun x => sgn (!m) (userFit x)) dr pos0 c.ngen with
  | .error e => .error e
  | .ok s =>
    if c.ngen = 0 then .error .unboundLocal else
    match s.pos[s.best.2]? with
    | none => .error .indexError
    | some x =>
      .ok { x := x, y := sgn (!m) s.best.1, global := s.global.map (sgn (!m)), locals := s.locals.map (sgn (!m)),
            lastPop := s.last.map (fun p => (p.1, sgn (!m) p.2)), log := s.log }

/-! ### Lemmas -/

/-- The score and index found by the best loop: the greatest of the start value and the list; if the list beats the start, the
index points at it. -/
theorem scanBest_spec (vs : List K) (i : ℕ) (b : K × ℕ) :
    b.1 ≤ (scanBest i b vs).1 ∧ (∀ v ∈ vs, v ≤ (scanBest i b vs).1) ∧
    (scanBest i b vs = b ∨ ∃ k, (scanBest i b vs).2 = i + k ∧ vs[k]? = some (scanBest i b vs).1 ∧ b.1 < (scanBest i b vs).1) := by
  induction vs generalizing i b with
  | nil => simp [scanBest]
  | cons v vs ih =>
    simp only [scanBest]
    obtain ⟨h1, h2, h3⟩ := ih (i + 1) (if v > b.1 then (v, i) else b)
    by_cases hv : v > b.1
    · simp only [if_pos hv] at h1 h2 h3 ⊢
      refine ⟨hv.le.trans h1, ?_, ?_⟩
      · intro w hw
        rcases List.mem_cons.1 hw with rfl | hw
        · exact h1
        · exact h2 w hw
      · right
        rcases h3 with h3 | ⟨k, e1, e2, e3⟩
        · rw [h3]; exact ⟨0, rfl, rfl, hv⟩
        · exact ⟨k + 1, by rw [e1]; ring, by simpa using e2, hv.trans e3⟩
    · simp only [if_neg hv] at h1 h2 h3 ⊢
      refine ⟨h1, ?_, ?_⟩
      · intro w hw
        rcases List.mem_cons.1 hw with rfl | hw
        · exact (not_lt.1 hv).trans h1
        · exact h2 w hw
      · rcases h3 with h3 | ⟨k, e1, e2, e3⟩
        · exact Or.inl h3
        · exact Or.inr ⟨k + 1, by rw [e1]; ring, by simpa using e2, e3⟩

theorem scanWorst_spec (vs : List K) (i : ℕ) (b : K × ℕ) :
    (scanWorst i b vs).1 ≤ b.1 ∧ (∀ v ∈ vs, (scanWorst i b vs).1 ≤ v) ∧
    (scanWorst i b vs = b ∨ ∃ k, (scanWorst i b vs).2 = i + k ∧ vs[k]? = some (scanWorst i b vs).1) := by
  induction vs generalizing i b with
  | nil => simp [scanWorst]
  | cons v vs ih =>
    simp only [scanWorst]
    obtain ⟨h1, h2, h3⟩ := ih (i + 1) (if v < b.1 then (v, i) else b)
    by_cases hv : v < b.1
    · simp only [if_pos hv] at h1 h2 h3 ⊢
      refine ⟨h1.trans hv.le, ?_, ?_⟩
      · intro w hw
        rcases List.mem_cons.1 hw with rfl | hw
        · exact h1
        · exact h2 w hw
      · right
        rcases h3 with h3 | ⟨k, e1, e2⟩
        · rw [h3]; exact ⟨0, rfl, rfl⟩
        · exact ⟨k + 1, by rw [e1]; ring, by simpa using e2⟩
    · simp only [if_neg hv] at h1 h2 h3 ⊢
      refine ⟨h1, ?_, ?_⟩
      · intro w hw
        rcases List.mem_cons.1 hw with rfl | hw
        · exact h1.trans (not_lt.1 hv)
        · exact h2 w hw
      · rcases h3 with h3 | ⟨k, e1, e2⟩
        · exact Or.inl h3
        · exact Or.inr ⟨k + 1, by rw [e1]; ring, by simpa using e2⟩

theorem scanWorst_id {vs : List K} (i : ℕ) {b : K × ℕ} (h : ∀ v ∈ vs, b.1 ≤ v) : scanWorst i b vs = b := by
  induction vs generalizing i with
  | nil => rfl
  | cons v vs ih =>
    simp only [scanWorst]
    rw [if_neg (not_lt.2 (h v (by simp)))]
    exact ih _ (fun w hw => h w (by simp [hw]))

theorem listMax_spec {vs : List K} {y : K} (h : listMax vs = .ok y) : y ∈ vs ∧ ∀ v ∈ vs, v ≤ y := by
  have key : ∀ (vs : List K) (a : K), (vs.foldl max a = a ∨ vs.foldl max a ∈ vs) ∧ a ≤ vs.foldl max a ∧ ∀ v ∈ vs, v ≤ vs.foldl max a := by
    intro vs
    induction vs with
    | nil => simp
    | cons v vs ih =>
      intro a
      obtain ⟨h1, h2, h3⟩ := ih (max a v)
      simp only [List.foldl_cons]
      refine ⟨?_, (le_max_left _ _).trans h2, ?_⟩
      · rcases h1 with h1 | h1
        · rw [h1]
          rcases max_choice a v with h | h
          · exact Or.inl h
          · right; rw [h]; simp
        · right; simp [h1]
      · intro w hw
        rcases List.mem_cons.1 hw with rfl | hw
        · exact (le_max_right _ _).trans h2
        · exact h3 w hw
  cases vs with
  | nil => cases h
  | cons v vs =>
    cases h
    obtain ⟨h1, h2, h3⟩ := key vs v
    refine ⟨?_, ?_⟩
    · rcases h1 with h1 | h1
      · rw [h1]; simp
      · simp [h1]
    · intro w hw
      rcases List.mem_cons.1 hw with rfl | hw
      · exact h2
      · exact h3 w hw

/-- What greedy selection does to row `i`. -/
theorem greedy_spec {fit : List K → K} {ps qs : List (List K)} (hl : qs.length = ps.length) :
    (greedy ps (ps.map fit) qs (qs.map fit)).1.length = ps.length ∧
    (greedy ps (ps.map fit) qs (qs.map fit)).2 = (greedy ps (ps.map fit) qs (qs.map fit)).1.map fit ∧
    ∀ (i : ℕ) (p q : List K), ps[i]? = some p → qs[i]? = some q →
      (greedy ps (ps.map fit) qs (qs.map fit)).1[i]? = some (if fit q > fit p then q else p) := by
  induction ps generalizing qs with
  | nil => simp [greedy]
  | cons p ps ih =>
    cases qs with
    | nil => simp at hl
    | cons q qs =>
      obtain ⟨h1, h2, h3⟩ := ih (qs := qs) (by simpa using hl)
      simp only [List.map_cons, greedy]
      by_cases hc : fit q > fit p
      · simp only [if_pos hc]
        refine ⟨by simp [h1], by simp [← h2], ?_⟩
        intro i p' q' hp hq
        cases i with
        | zero => simp at hp hq; subst hp hq; simp [if_pos hc]
        | succ i => simp at hp hq; simpa using h3 i p' q' hp hq
      · simp only [if_neg hc]
        refine ⟨by simp [h1], by simp [← h2], ?_⟩
        intro i p' q' hp hq
        cases i with
        | zero => simp at hp hq; subst hp hq; simp [if_neg hc]
        | succ i => simp at hp hq; simpa using h3 i p' q' hp hq

theorem repair_feasible {c : Conf K} (hS : c.S.OK) {g : ℕ} {d : Draw K} {v v' : List K} (hl : v.length = c.S.bounds.length)
    (h : repair c g d v = .ok v') : c.S.Feasible v' := Space.disc_feasible hS (c.S.clip_inBox hS hl) h

/-- Everything known about the state after `g` generations. -/
structure Inv (c : Conf K) (fit : List K → K) (g : ℕ) (s : State K) : Prop where
  npos : s.pos.length = c.npop
  fits : s.fits = s.pos.map fit
  feas : ∀ p ∈ s.log, c.S.Feasible p
  mem : ∀ p ∈ s.pos, p ∈ s.log
  len : s.log.length = (g + 1) * c.npop
  bidx : ∃ x, s.pos[s.best.2]? = some x ∧ s.best.1 = fit x
  bmax : ∀ z ∈ s.log, fit z ≤ s.best.1
  slots : ∀ i p, s.pos[i]? = some p → SlotBest false fit c.npop (g + 1) s.log i p (fit p)
  wmin : ∀ z ∈ s.log.take c.npop, s.worst.1 ≤ fit z
  wpos : ∀ p ∈ s.pos, s.worst.1 ≤ fit p
  widx : ∃ x, s.log[s.worst.2]? = some x ∧ s.worst.1 = fit x ∧ s.worst.2 < c.npop
  hist : HistBest false fit c.npop c.npop s.log s.global
  locals : BlockBest false fit c.npop c.npop s.log s.locals
  lens : s.global.length = g ∧ s.locals.length = g
  lastg : g ≠ 0 → s.global.getLast? = some s.best.1
  last : g ≠ 0 → s.last = (s.log.drop (g * c.npop)).map (fun x => (x, fit x))

theorem Inv.isBest {c : Conf K} {fit : List K → K} {g : ℕ} {s : State K} (h : Inv c fit g s) {x : List K}
    (hx : s.pos[s.best.2]? = some x) : IsBest false fit s.log x s.best.1 := by
  obtain ⟨x', h1, h2⟩ := h.bidx
  rw [hx] at h1; cases h1
  refine ⟨h.mem x (List.mem_of_getElem? hx), h2, ?_⟩
  intro z hz
  simpa [NotWorse] using h.bmax z hz

theorem init_inv {c : Conf K} {fit : List K → K} {pos0 : List (List K)} (hn : pos0.length = c.npop)
    (hf : ∀ p ∈ pos0, c.S.Feasible p) {s : State K} (h : init fit pos0 = .ok s) : Inv c fit 0 s := by
  unfold init at h
  split at h
  · cases h
  rename_i v vs hv
  cases h
  obtain ⟨b1, b2, b3⟩ := scanBest_spec vs 1 (v, 0)
  obtain ⟨w1, w2, w3⟩ := scanWorst_spec vs 1 (v, 0)
  have hget : ∀ (k : ℕ) (y : K), (v :: vs)[k]? = some y → ∃ x, pos0[k]? = some x ∧ y = fit x := by
    intro k y hk
    rw [← hv, List.getElem?_map] at hk
    cases e : pos0[k]? with
    | none => rw [e] at hk; cases hk
    | some x => rw [e] at hk; cases hk; exact ⟨x, rfl, rfl⟩
  have hmem : ∀ z ∈ pos0, fit z ∈ v :: vs := fun z hz => by rw [← hv]; exact List.mem_map_of_mem hz
  refine ⟨hn, hv.symm, hf, fun p hp => hp, by simp [hn], ?_, ?_, ?_, ?_, ?_, ?_, ?_, blockBest_nil _ _ _ _ _, by simp, by simp, by simp⟩
  · rcases b3 with b3 | ⟨k, e1, e2, -⟩
    · rw [b3]; exact hget 0 v rfl
    · rw [e1]; exact hget (1 + k) _ (by rw [Nat.add_comm]; simpa using e2)
  · intro z hz
    rcases List.mem_cons.1 (hmem z hz) with e | e
    · rw [e]; exact b1
    · exact b2 _ e
  · intro i p hp; exact slotBest_init hp
  · intro z hz
    rcases List.mem_cons.1 (hmem z (List.mem_of_mem_take hz)) with e | e
    · rw [e]; exact w1
    · exact w2 _ e
  · intro z hz
    rcases List.mem_cons.1 (hmem z hz) with e | e
    · rw [e]; exact w1
    · exact w2 _ e
  · rcases w3 with w3 | ⟨k, e1, e2⟩
    · rw [w3]
      obtain ⟨x, hx, e⟩ := hget 0 v rfl
      exact ⟨x, hx, e, by show 0 < c.npop; have := (List.getElem?_eq_some_iff.1 hx).1; omega⟩
    · rw [e1]
      obtain ⟨x, hx, e⟩ := hget (1 + k) _ (by rw [Nat.add_comm]; simpa using e2)
      exact ⟨x, hx, e, by have := (List.getElem?_eq_some_iff.1 hx).1; omega⟩
  · have := histBest_nil false fit c.npop pos0
    rw [hn] at this
    exact this

theorem gen_inv {c : Conf K} (hS : c.S.OK) {fit : List K → K} {g : ℕ} {dr : ℕ → Draw K} {s s' : State K}
    (hi : Inv c fit g s) (h : gen c fit g dr s = .ok s') : Inv c fit (g + 1) s' ∧ s'.worst = s.worst := by
  unfold gen at h
  split at h
  swap
  · cases h
  rename_i b w hb hw
  split at h
  · cases h
  rename_i new hnew
  simp only at h
  split at h
  · cases h
  rename_i mx hmx
  cases h
  have hlnew : new.length = s.pos.length := (mapRows_ok hnew).1
  have hfnew : ∀ q ∈ new, c.S.Feasible q :=
    mapRows_forall (P := fun x : List K => x.length = c.S.bounds.length) hnew
      (fun p hp => (hi.feas p (hi.mem p hp)).1.length_eq) (fun i x y hx h => repair_feasible hS (by simp [trial, hx]) h)
  obtain ⟨m1, m2⟩ := listMax_spec hmx
  rw [hi.fits]
  obtain ⟨g1, g2, g3⟩ := greedy_spec (fit := fit) (ps := s.pos) (qs := new) hlnew
  set P := greedy s.pos (s.pos.map fit) new (new.map fit) with hP
  obtain ⟨b1, b2, b3⟩ := scanBest_spec P.2 0 s.best
  have hget : ∀ (k : ℕ) (y : K), P.2[k]? = some y → ∃ x, P.1[k]? = some x ∧ y = fit x := by
    intro k y hk
    rw [g2, List.getElem?_map] at hk
    cases e : P.1[k]? with
    | none => rw [e] at hk; cases hk
    | some x => rw [e] at hk; cases hk; exact ⟨x, rfl, rfl⟩
  have hrow : ∀ (i : ℕ) (p' : List K), P.1[i]? = some p' → ∃ p q, s.pos[i]? = some p ∧ new[i]? = some q ∧
      p' = if fit q > fit p then q else p := by
    intro i p' hp'
    have hi' : i < s.pos.length := by have := (List.getElem?_eq_some_iff.1 hp').1; omega
    have e := g3 i _ _ (List.getElem?_eq_getElem hi') (List.getElem?_eq_getElem (by omega))
    rw [hp'] at e
    cases e
    exact ⟨_, _, List.getElem?_eq_getElem hi', List.getElem?_eq_getElem (by omega), rfl⟩
  have hmem : ∀ p ∈ P.1, p ∈ s.log ++ new := by
    intro p hp
    obtain ⟨i, e⟩ := List.mem_iff_getElem?.1 hp
    obtain ⟨p0, q0, e1, e2, rfl⟩ := hrow i p e
    split_ifs
    · exact List.mem_append_right _ (List.mem_of_getElem? e2)
    · exact List.mem_append_left _ (hi.mem _ (List.mem_of_getElem? e1))
  -- all of the new population is bounded by the new best
  have hnewle : ∀ z ∈ new, fit z ≤ (scanBest 0 s.best P.2).1 := by
    intro z hz
    obtain ⟨i, e⟩ := List.mem_iff_getElem?.1 hz
    have hi' : i < s.pos.length := by have := (List.getElem?_eq_some_iff.1 e).1; omega
    have e' := g3 i _ z (List.getElem?_eq_getElem hi') e
    have hle : fit z ≤ fit (if fit z > fit s.pos[i] then z else s.pos[i]) := by
      split_ifs with hc
      · exact le_rfl
      · exact not_lt.1 hc
    refine hle.trans (b2 _ ?_)
    rw [g2]
    exact List.mem_map_of_mem (List.mem_of_getElem? e')
  have hbidx : ∃ x, P.1[(scanBest 0 s.best P.2).2]? = some x ∧ (scanBest 0 s.best P.2).1 = fit x := by
    rcases b3 with b3 | ⟨k, e1, e2, -⟩
    · rw [b3]
      obtain ⟨x, hx, e⟩ := hi.bidx
      have hi' : s.best.2 < s.pos.length := (List.getElem?_eq_some_iff.1 hx).1
      have e' := g3 _ x _ hx (List.getElem?_eq_getElem (by omega))
      refine ⟨_, e', ?_⟩
      split_ifs with hc
      · -- a replaced best row would have raised the best score
        exfalso
        rw [if_pos hc] at e'
        have := b2 (fit new[s.best.2]) (by rw [g2]; exact List.mem_map_of_mem (List.mem_of_getElem? e'))
        rw [b3, e] at this
        exact absurd hc (not_lt.2 this)
      · exact e
    · rw [e1, Nat.zero_add]
      exact hget k _ e2
  have hbmax : ∀ z ∈ s.log ++ new, fit z ≤ (scanBest 0 s.best P.2).1 := by
    intro z hz
    rcases List.mem_append.1 hz with hz | hz
    · exact (hi.bmax z hz).trans b1
    · exact hnewle z hz
  have hwpos : ∀ p ∈ P.1, s.worst.1 ≤ fit p := by
    intro p hp
    obtain ⟨i, e⟩ := List.mem_iff_getElem?.1 hp
    obtain ⟨p0, q0, e1, e2, rfl⟩ := hrow i p e
    have := hi.wpos p0 (List.mem_of_getElem? e1)
    split_ifs with hc
    · exact this.trans (le_of_lt hc)
    · exact this
  have hworst : scanWorst 0 s.worst P.2 = s.worst := by
    apply scanWorst_id
    intro v hv
    rw [g2] at hv
    obtain ⟨p, hp, rfl⟩ := List.mem_map.1 hv
    exact hwpos p hp
  have hlen' : (g + 1 + 1) * c.npop = (g + 1) * c.npop + c.npop := by ring
  have hnn : new.length = c.npop := by rw [hlnew, hi.npos]
  have hbest : BestOn false fit (s.log ++ new) (scanBest 0 s.best P.2).1 := by
    obtain ⟨x, h1, h2⟩ := hbidx
    exact ⟨⟨x, hmem x (List.mem_of_getElem? h1), h2.symm⟩, fun z hz => by simpa [NotWorse] using hbmax z hz⟩
  have hle : c.npop ≤ s.log.length := by rw [hi.len]; nlinarith [Nat.zero_le (g * c.npop)]
  refine ⟨⟨by rw [g1, hi.npos], g2, ?_, hmem, by simp [hi.len, hnn, hlen'], hbidx, hbmax, ?_, ?_, ?_, ?_, hi.hist.step hnn hbest,
    ?_, by simp [hi.lens], by simp, ?_⟩, hworst⟩
  · intro p hp
    rcases List.mem_append.1 hp with hp | hp
    · exact hi.feas p hp
    · exact hfnew p hp
  · intro i p hp
    obtain ⟨p0, q0, e1, e2, rfl⟩ := hrow i p hp
    refine (hi.slots i p0 e1).step (by rw [hi.len]) hnn e2 ?_
    split_ifs with hc
    · exact Or.inl ⟨rfl, rfl, by simpa [NotWorse] using le_of_lt hc⟩
    · exact Or.inr ⟨rfl, rfl, by simpa [NotWorse] using not_lt.1 hc⟩
  · show ∀ z ∈ List.take c.npop (s.log ++ new), (scanWorst 0 s.worst P.2).1 ≤ fit z
    rw [hworst, List.take_append_of_le_length hle]
    exact hi.wmin
  · show ∀ z ∈ P.1, (scanWorst 0 s.worst P.2).1 ≤ fit z
    rw [hworst]
    exact hwpos
  · show ∃ x, (s.log ++ new)[(scanWorst 0 s.worst P.2).2]? = some x ∧ (scanWorst 0 s.worst P.2).1 = fit x ∧ (scanWorst 0 s.worst P.2).2 < c.npop
    rw [hworst]
    obtain ⟨x, h1, h2, h3⟩ := hi.widx
    exact ⟨x, by rw [List.getElem?_append_left (by omega)]; exact h1, h2, h3⟩
  · refine hi.locals.step (by rw [hi.len, hi.lens.2]; ring) hnn ?_
    obtain ⟨z, hz, e⟩ := List.mem_map.1 m1
    exact ⟨⟨z, hz, e⟩, fun z hz => by simpa [NotWorse] using m2 _ (List.mem_map_of_mem hz)⟩
  · intro _
    show new.map _ = _
    rw [List.drop_append_of_le_length (by rw [hi.len]), List.drop_of_length_le (by rw [hi.len]), List.nil_append]

theorem run_inv {c : Conf K} (hS : c.S.OK) {fit : List K → K} {dr : ℕ → ℕ → Draw K} {pos0 : List (List K)}
    (hn : pos0.length = c.npop) (hf : ∀ p ∈ pos0, c.S.Feasible p) {g : ℕ} {s : State K}
    (h : run c fit dr pos0 g = .ok s) : Inv c fit g s := by
  induction g generalizing s with
  | zero => exact init_inv hn hf h
  | succ g ih =>
    simp only [run] at h
    split at h
    · cases h
    rename_i s0 h0
    exact (gen_inv hS (ih h0) h).1

end
end Neorl.JAYA

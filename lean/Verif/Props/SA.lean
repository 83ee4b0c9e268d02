import Verif.SA

/-!
# C25: simulated annealing
-/

set_option linter.unusedSectionVars false
set_option linter.unusedVariables false

namespace Neorl.SA

section
variable {K : Type} [Field K] [LinearOrder K] [IsStrictOrderedRing K] [FloorRing K]

/-! ### The default move -/

theorem sampler_mem {t : VType} {b : K × K} (hb : b.1 ≤ b.2) (hi : t = .int → ∃ l u : ℤ, b.1 = l ∧ b.2 = u) {d : K × ℕ}
    (hd : 0 ≤ d.1 ∧ d.1 ≤ 1) :
    (b.1 ≤ sampler t b d ∧ sampler t b d ≤ b.2) ∧ (t = .int → ∃ n : ℤ, sampler t b d = n) := by
  cases t with
  | int =>
    obtain ⟨l, u, h1, h2⟩ := hi rfl
    have hlu : l ≤ u := by rw [h1, h2] at hb; exact_mod_cast hb
    simp only [sampler, h1, h2]
    have e : ⌊((u : K) - (l : K))⌋.toNat + 1 = (u - l).toNat + 1 := by
      rw [show ((u : K) - (l : K)) = ((u - l : ℤ) : K) by push_cast; ring, Int.floor_intCast]
    rw [e]
    have hm := Nat.mod_lt d.2 (Nat.succ_pos (u - l).toNat)
    obtain ⟨q, hq⟩ : ∃ q, q = d.2 % ((u - l).toNat + 1) := ⟨_, rfl⟩
    rw [← hq]
    have hz : (q : ℤ) ≤ u - l := by
      have : q < (u - l).toNat + 1 := by rw [hq]; exact hm
      have h' : ((u - l).toNat : ℤ) = u - l := Int.toNat_of_nonneg (by linarith)
      omega
    have hz' : ((q : ℤ) : K) ≤ ((u - l : ℤ) : K) := by exact_mod_cast hz
    push_cast at hz'
    have h0 : (0 : K) ≤ (q : K) := Nat.cast_nonneg _
    exact ⟨⟨by linarith, by linarith⟩, fun _ => ⟨l + (q : ℤ), by push_cast; rfl⟩⟩
  | float =>
    simp only [sampler]
    refine ⟨⟨?_, ?_⟩, by simp⟩
    · nlinarith [mul_nonneg (sub_nonneg.2 hb) hd.1]
    · nlinarith [mul_nonneg (sub_nonneg.2 hb) (sub_nonneg.2 hd.2)]

theorem resample_spec {t : VType} {b : K × K} {x y : K} {ds : List (K × ℕ)} (h : resample t b x ds = some y) :
    (∃ d ∈ ds, y = sampler t b d) ∧ (b.1 ≠ b.2 → y ≠ x) := by
  induction ds with
  | nil => cases h
  | cons d ds ih =>
    simp only [resample] at h
    by_cases hc : x = sampler t b d ∧ b.1 ≠ b.2
    · rw [if_pos hc] at h
      obtain ⟨⟨d', hd', e⟩, h2⟩ := ih h
      exact ⟨⟨d', by simp [hd'], e⟩, h2⟩
    · rw [if_neg hc] at h
      cases h
      refine ⟨⟨d, by simp, rfl⟩, ?_⟩
      intro hb e
      exact hc ⟨e.symm, hb⟩

/-- C25 (default move): `def_move` perturbs exactly the coordinates whose draw is below `chi`; a perturbed coordinate takes a legal value
of its variable that differs from the old one unless the variable has a single value; the others are untouched. -/
theorem C25_default_move {chi : K} {u : ℕ → K} {ds : ℕ → List (K × ℕ)} {i : ℕ} {ts : List VType} {bs : List (K × K)} {x y : List K}
    (hb : BoundsOK bs) (ht : ts.length = bs.length) (hl : x.length = bs.length)
    (hint : ∀ (d : ℕ) (b : K × K), ts[d]? = some VType.int → bs[d]? = some b → ∃ l u : ℤ, b.1 = l ∧ b.2 = u)
    (hd : ∀ i, ∀ d ∈ ds i, 0 ≤ d.1 ∧ d.1 ≤ 1) (h : defMove chi u ds i ts bs x = some y) :
    y.length = x.length ∧ ∀ (j : ℕ) (xj yj : K) (b : K × K) (t : VType), x[j]? = some xj → y[j]? = some yj → bs[j]? = some b → ts[j]? = some t →
      if u (i + j) < chi then (b.1 ≤ yj ∧ yj ≤ b.2) ∧ (t = .int → ∃ n : ℤ, yj = n) ∧ (b.1 ≠ b.2 → yj ≠ xj) else yj = xj := by
  induction bs generalizing i ts x y with
  | nil =>
    cases x with
    | nil => cases ts <;> (cases h; simp)
    | cons a l => simp at hl
  | cons b bs ih =>
    cases ts with
    | nil => simp at ht
    | cons t ts =>
      cases x with
      | nil => simp at hl
      | cons a x =>
        simp only [defMove] at h
        split at h
        · rename_i v vs hv hvs
          cases h
          obtain ⟨h1, h2⟩ := ih (fun b hb' => hb b (by simp [hb'])) (by simpa using ht) (by simpa using hl)
            (fun d b' h1 h2 => hint (d + 1) b' (by simpa using h1) (by simpa using h2)) hvs
          refine ⟨by simp [h1], ?_⟩
          intro j xj yj b' t' e1 e2 e3 e4
          cases j with
          | zero =>
            simp only [List.getElem?_cons_zero, Option.some.injEq] at e1 e2 e3 e4
            subst e1 e2 e3 e4
            by_cases hc : u (i + 0) < chi
            · rw [if_pos hc]
              rw [Nat.add_zero] at hc
              rw [if_pos hc] at hv
              obtain ⟨⟨d, hd', e⟩, h4⟩ := resample_spec hv
              obtain ⟨m1, m2⟩ := sampler_mem (t := t) (hb b (by simp)) (fun e => hint 0 b (by rw [e]; rfl) rfl) (hd i d hd')
              rw [e]
              exact ⟨m1, m2, fun hne => by rw [← e]; exact h4 hne⟩
            · rw [if_neg hc]
              rw [Nat.add_zero] at hc
              rw [if_neg hc] at hv
              cases hv; rfl
          | succ j =>
            have := h2 j xj yj b' t' (by simpa using e1) (by simpa using e2) (by simpa using e3) (by simpa using e4)
            rwa [show i + 1 + j = i + (j + 1) by ring] at this
        · cases h

/-- The move of a chain is the default move. -/
def IsDefMove (S : Space K) (d : Draw K) : Prop :=
  ∀ k x, S.Feasible x → ∃ (chi : K) (u : ℕ → K) (ds : ℕ → List (K × ℕ)), (∀ i, ∀ d ∈ ds i, 0 ≤ d.1 ∧ d.1 ≤ 1) ∧
    defMove chi u ds 0 S.types S.bounds x = some (d.mv k x)

/-- A custom move that returns as many coordinates as it gets. -/
def LenOK (S : Space K) (d : Draw K) : Prop := ∀ k x, x.length = S.bounds.length → (d.mv k x).length = S.bounds.length

theorem moveOK_box {S : Space K} (hS : S.OK) {d : Draw K} (hd : LenOK S d) : MoveOK S (InBox S.bounds) d :=
  ⟨fun _ h => h, fun k x h => S.clip_inBox hS (hd k x h.length_eq)⟩

theorem moveOK_def {S : Space K} (hS : S.OK) {d : Draw K} (hd : IsDefMove S d) : MoveOK S S.Feasible d := by
  refine ⟨fun _ h => h.1, ?_⟩
  intro k x hx
  obtain ⟨chi, u, ds, hds, h⟩ := hd k x hx
  obtain ⟨h1, h2⟩ := C25_default_move hS.ordered hS.ntypes hx.1.length_eq hS.intBounds hds h
  apply S.clip_feasible hS (by rw [h1, hx.1.length_eq])
  intro j v ht hv
  have hj : j < x.length := by have := (List.getElem?_eq_some_iff.1 hv).1; omega
  have hjb : j < S.bounds.length := by rw [← hx.1.length_eq]; exact hj
  have := h2 j _ v _ _ (List.getElem?_eq_getElem hj) hv (List.getElem?_eq_getElem hjb) ht
  split_ifs at this
  · exact this.2.1 rfl
  · rw [this]; exact hx.2 j _ ht (List.getElem?_eq_getElem hj)

/-! ### One chain -/

/-- C25 (chain): a chain run on the inclusive step range `[kmin, kmax]` from a point `x0` of the box with its true energy evaluates exactly
`kmax + 1 - kmin` candidates, at the consecutive steps `kmin, …, kmax`.  Every candidate is the clipped move of the state before it,
consecutive states are linked, the new state is the candidate exactly when the Metropolis rule accepts.  The counters count accepted,
rejected and improving candidates; accepted plus rejected is the number of steps; every improvement is accepted; the reported best is the
best of the start and all candidates; the reported state carries its own energy. -/
theorem C25_chain {S : Space K} (hS : S.OK) {fit : List K → K} {accP : K → K → K} {temp : ℕ → K} {d : Draw K} (hd : LenOK S d)
    {x0 : List K} (hx : InBox S.bounds x0) (kmin kmax : ℕ) :
    let s := chainObject S fit accP temp d x0 (fit x0) kmin kmax
    let n := kmax + 1 - kmin
    let ok := fun e : Entry K => decide (fit e.src < fit e.cand ∨ d.u e.step ≤ accP (fit e.cand - fit e.src) (temp e.step))
    (s.trace.length = n ∧ s.trace.map (fun e => e.step) = (List.range n).map (fun i => kmin + i)) ∧
    (∀ (i : ℕ) (e : Entry K), s.trace[i]? = some e →
      (i = 0 → e.src = x0) ∧ (∀ e', s.trace[i + 1]? = some e' → e'.src = e.dst) ∧ (i + 1 = n → s.x = e.dst)) ∧
    (∀ e ∈ s.trace, e.cand = S.clip (d.mv e.step e.src) ∧ InBox S.bounds e.cand ∧ e.dst = if ok e then e.cand else e.src) ∧
    (s.acc = s.trace.countP ok ∧ s.rej = s.trace.countP (fun e => !ok e) ∧ s.imp = s.trace.countP (fun e => decide (fit e.src < fit e.cand))) ∧
    (s.acc + s.rej = n ∧ s.imp ≤ s.acc) ∧
    IsBest false fit (x0 :: s.trace.map (fun e => e.cand)) s.xb s.Eb ∧ s.E = fit s.x := by
  intro s n ok
  have h := chainObject_inv (moveOK_box hS hd) hx (rfl : fit x0 = fit x0) (accP := accP) (temp := temp) kmin kmax
  refine ⟨⟨h.len, h.steps⟩, h.links, ?_, ⟨h.acc, h.rej, h.imp⟩, h.total, h.best, h.cur⟩
  intro e he
  refine ⟨h.cands e he, h.box.2 e he, ?_⟩
  rw [h.rule e he]
  simp only [ok, Metropolis, decide_eq_true_eq]

/-- C25 (parallel chains): the ranges handed to `n` cores, laid side by side, are exactly the steps `step0, …, step0 + n*npop - 1`,
each once and in order. -/
theorem C25_ranges (npop step0 n : ℕ) (h0 : 1 ≤ step0) :
    (ranges npop step0 n 1 step0).length = n ∧
    ((ranges npop step0 n 1 step0).flatMap fun r => (List.range (r.2 + 1 - r.1)).map (fun i => r.1 + i)) =
      (List.range (n * npop)).map (fun i => step0 + i) := by
  rw [ranges_start h0]
  refine ⟨by simp, ?_⟩
  rw [List.flatMap_def, List.map_map]
  have := flatten_blocks (npop := npop) ((List.range n).map (((fun r : ℕ × ℕ => (List.range (r.2 + 1 - r.1)).map (fun i => r.1 + i))) ∘
      fun i => (step0 + i * npop, step0 + (i + 1) * npop - 1))) step0 (by
    intro j l hl
    rw [List.getElem?_map] at hl
    cases e : (List.range n)[j]? with
    | none => rw [e] at hl; cases hl
    | some i =>
      rw [e] at hl
      have : i = j := by
        obtain ⟨_, h⟩ := List.getElem?_eq_some_iff.1 e
        simpa using h.symm
      subst this
      cases hl
      simp only [Function.comp]
      rw [show step0 + (i + 1) * npop - 1 + 1 - (step0 + i * npop) = npop by rw [Nat.add_mul, Nat.one_mul]; omega])
  rw [this]
  simp

/-! ### The optimiser -/

/-- C25 (run): SA started at `ncores` points of the box with any length-preserving move and a schedule that does not stop early.  The
returned pair is the best of all evaluated points; all of them lie in the box; `int(ngen/ncores)` generations make exactly
`ncores * npop` evaluations each, at the consecutive steps 1, 2, …; every reported accept/reject/improve triple accounts for `npop` steps. -/
theorem C25_evolute {c : Conf K} (hS : c.S.OK) (hstop : ∀ l, c.stop l = false) {m : Bool} {userFit : List K → K} {dr : ℕ → GDraw K}
    (hd : ∀ i j, LenOK c.S ((dr i).core j)) {x0 : List (List K)} (hg : ∀ x ∈ x0, InBox c.S.bounds x) {r : Result K}
    (h : evolute c m userFit dr x0 = .ok r) :
    IsBest m userFit r.log r.x r.y ∧ (∀ z ∈ r.log, InBox c.S.bounds z) ∧
    r.log.length = c.ncores + (c.ngen / c.ncores) * (c.ncores * c.npop) ∧
    r.steps = (List.range ((c.ngen / c.ncores) * (c.ncores * c.npop))).map (fun i => 1 + i) ∧
    r.fits.length = c.ngen / c.ncores ∧ r.stats.length = c.ngen / c.ncores ∧
    (∀ p ∈ r.stats, p.1 + p.2.1 = c.npop ∧ p.2.2 ≤ p.1) ∧
    (c.reinforce = .hard → HistBest m userFit c.ncores (c.ncores * c.npop) r.log r.fits) := by
  unfold evolute at h
  split at h
  · cases h
  rename_i hl
  have hl := not_not.1 hl
  split at h
  · cases h
  split at h
  · cases h
  rename_i s hs
  have hns : s.stopped = false := by
    have : ∀ n s, run c (fun x => sgn (!m) (userFit x)) dr x0 n = .ok s → s.stopped = false := by
      intro n
      induction n with
      | zero => intro s hs; cases hs; rfl
      | succ n ih =>
        intro s hs
        simp only [run] at hs
        split at hs
        · cases hs
        rename_i s0 h0
        unfold gen at hs
        rw [ih s0 h0] at hs
        simp only [Bool.false_eq_true, if_false, hstop] at hs
        split at hs
        · cases hs
        split at hs
        · cases hs
        split at hs
        · cases hs
        cases hs
        rfl
    exact this _ s hs
  obtain ⟨G, hG, hGe, hinv⟩ := run_inv (Good := InBox c.S.bounds) (fun i j => moveOK_box hS (hd i j)) hl (fun _ h => h) hg hs
  have hGe := hGe hns
  subst hGe
  split at h
  · rename_i x o hxc ho
    cases h
    have hG0 : c.ngen / c.ncores ≠ 0 := by
      intro h0
      rw [(hinv.opt0 h0).1] at ho
      cases ho
    obtain ⟨o', ho', hb⟩ := hinv.opt hG0
    rw [ho] at ho'; cases ho'
    have hx := hinv.xc hns
    rw [hxc, ho] at hx
    cases hx
    exact ⟨hb.flip, hinv.good, hinv.len, hinv.steps, by simp [hinv.lens.1], hinv.lens.2, hinv.stats, fun hh => (hinv.hist hh).1.flip⟩
  · cases h

/-- C25 (feasibility): with the default move and feasible starting points every evaluated point, and hence the returned one, is feasible:
inside the box with integral int coordinates; whatever the schedule. -/
theorem C25_feasible {c : Conf K} (hS : c.S.OK) {m : Bool} {userFit : List K → K} {dr : ℕ → GDraw K}
    (hd : ∀ i j, IsDefMove c.S ((dr i).core j)) {x0 : List (List K)} (hg : ∀ x ∈ x0, c.S.Feasible x) {r : Result K}
    (h : evolute c m userFit dr x0 = .ok r) : ∀ z ∈ r.log, c.S.Feasible z := by
  unfold evolute at h
  split at h
  · cases h
  rename_i hl
  split at h
  · cases h
  split at h
  · cases h
  rename_i s hs
  obtain ⟨G, hG, hGe, hinv⟩ := run_inv (Good := c.S.Feasible) (fun i j => moveOK_def hS (hd i j)) (not_not.1 hl) (fun _ h => h.1) hg hs
  split at h
  · cases h; exact hinv.good
  · cases h

/-- C25 (no generation): with fewer generations than cores the loop body never runs and the returned name is unbound. -/
theorem C25_no_generation {c : Conf K} (hc : c.ngen < c.ncores) (m : Bool) (userFit : List K → K) (dr : ℕ → GDraw K) {x0 : List (List K)}
    (hl : x0.length = c.ncores) : evolute c m userFit dr x0 = .error .unboundLocal := by
  unfold evolute
  rw [if_neg (not_not.2 hl), if_neg (by omega), Nat.div_eq_of_lt hc]
  rfl

/-! ### Soft reinforcement -/

theorem sampling_get {w : List K} {i : ℕ} (hi : i < w.length) : (sampling w).getD i 0 = (w.take (i + 1)).sum / w.sum := by
  simp [sampling, List.getD_eq_getElem?_getD, hi]

/-- C25 (soft index): with positive weights and draws below one, an index is always found, and it is a valid chain index. -/
theorem C25_soft_index {w : List K} (hw : ∀ v ∈ w, 0 < v) (hne : w ≠ []) {rho : ℕ → K} (hr : ∀ i, rho i ≤ 1)
    (hr1 : ∀ i, i + 1 = w.length → w.length ≠ 1 → rho i < 1) {am count : ℕ} (ham : am < w.length) (nan : Bool) (hc : w.length = 1 → count = 0 ∧ rho 0 = 1) :
    ∃ i, softIndex w.length (sampling w) rho nan am count = .ok i ∧ i < w.length := by
  have hpos : 0 < w.length := List.length_pos_of_ne_nil hne
  unfold softIndex
  split_ifs with h1 h2 h3
  · exact ⟨_, rfl, by omega⟩
  · exact ⟨_, rfl, ham⟩
  · exact ⟨_, rfl, hpos⟩
  · split
    · rename_i i hi
      refine ⟨i, rfl, ?_⟩
      have := List.mem_of_find?_eq_some hi
      simpa [sampling] using this
    · rename_i hnone
      exfalso
      by_cases h1' : w.length = 1
      · obtain ⟨e1, e2⟩ := hc h1'
        rw [e1] at h1
        exact h1 e2
      have := List.find?_eq_none.1 hnone (w.length - 1) (by simp [sampling]; omega)
      have hsum : 0 < w.sum := List.sum_pos w hw hne
      rw [sampling_get (by omega), Nat.sub_add_cancel hpos, List.take_length, div_self hsum.ne'] at this
      simp only [gt_iff_lt, decide_eq_true_eq, not_lt] at this
      exact absurd (hr1 (w.length - 1) (by omega) h1') (not_lt.2 this)

/-- C25 (soft index, defect): the chosen index does not depend on the chain's own draw: all chains whose draw is above the first
cumulative probability (and not one) restart from the same chain. -/
theorem C25_soft_same_start (n : ℕ) (smp : List K) (rho : ℕ → K) (am a b : ℕ) (ha : smp.getD 0 0 < rho a) (ha1 : rho a ≠ 1)
    (hb : smp.getD 0 0 < rho b) (hb1 : rho b ≠ 1) : softIndex n smp rho false am a = softIndex n smp rho false am b := by
  unfold softIndex
  simp only [if_neg ha1, if_neg hb1, Bool.false_eq_true, if_false, if_neg (not_le.2 ha), if_neg (not_le.2 hb)]

/-! ### Totality -/

/-- C25 (totality): with at least one core, `ncores ≤ ngen`, starting points in the box, length-preserving moves, a schedule that does
not stop early and, under soft reinforcement, positive weights and draws below one, SA returns a result. -/
theorem C25_total {c : Conf K} (hS : c.S.OK) (hstop : ∀ l, c.stop l = false) (hn : 1 ≤ c.ncores) (hgen : c.ncores ≤ c.ngen) (m : Bool)
    (userFit : List K → K) {dr : ℕ → GDraw K} (hd : ∀ i j, LenOK c.S ((dr i).core j)) (hw : ∀ i v, 0 < (dr i).wt v)
    (hr : ∀ i j, (dr i).rho j < 1) {x0 : List (List K)} (hl : x0.length = c.ncores) (hg : ∀ x ∈ x0, InBox c.S.bounds x) :
    ∃ r, evolute c m userFit dr x0 = .ok r := by
  have hrun : ∀ n, ∃ s, run c (fun x => sgn (!m) (userFit x)) dr x0 n = .ok s ∧ s.stopped = false := by
    intro n
    induction n with
    | zero => exact ⟨_, rfl, rfl⟩
    | succ n ih =>
      obtain ⟨s, hs, hns⟩ := ih
      obtain ⟨G, -, -, hinv⟩ := run_inv (Good := InBox c.S.bounds) (fun i j => moveOK_box hS (hd i j)) hl (fun _ h => h) hg hs
      have hlen := length_chains (c := c) (fit := fun x => sgn (!m) (userFit x)) (g := dr n) (step0 := s.step0) (by rw [hinv.step0]; omega) hinv.starts.1
      have hlogic : ∃ s', gen c (fun x => sgn (!m) (userFit x)) (dr n) s = .ok s' ∧ s'.stopped = false := by
        unfold gen
        rw [hns]
        simp only [Bool.false_eq_true, if_false, hstop]
        set cs := chains c (fun x => sgn (!m) (userFit x)) (dr n) s.step0 s.starts with hcs
        cases ham : argmax (cs.map (fun s : Chain K => s.Eb)) with
        | error e =>
          cases hl' : cs with
          | nil => rw [hl'] at hlen; simp at hlen; omega
          | cons a l => rw [hl'] at ham; cases ham
        | ok am =>
          simp only
          have h1 := (argmax_spec ham).1
          cases hb : cs[am.1]? with
          | none => rw [List.getElem?_map, hb] at h1; cases h1
          | some b =>
            simp only
            cases hr' : c.reinforce with
            | no => exact ⟨_, rfl, rfl⟩
            | hard => exact ⟨_, rfl, rfl⟩
            | soft =>
              have : ∃ nx, softNext c (dr n) cs = .ok nx := by
                unfold softNext
                cases ham2 : argmax (cs.map (fun s : Chain K => s.E)) with
                | error e =>
                  cases hl' : cs with
                  | nil => rw [hl'] at hlen; simp at hlen; omega
                  | cons a l => rw [hl'] at ham2; cases ham2
                | ok am2 =>
                  simp only
                  have h2 := (List.getElem?_eq_some_iff.1 (argmax_spec ham2).1).1
                  rw [List.length_map, hlen] at h2
                  have hidx : ∀ count, (c.ncores = 1 → count = 0) → ∃ i, softIndex c.ncores (sampling (cs.map (fun s : Chain K => (dr n).wt s.E)))
                      (fun i => if c.ncores = 1 then 1 else (dr n).rho i) ((dr n).nan count) am2.1 count = .ok i ∧ i < c.ncores := by
                    intro count hcount
                    have hwl : (cs.map (fun s : Chain K => (dr n).wt s.E)).length = c.ncores := by rw [List.length_map, hlen]
                    have := C25_soft_index (w := cs.map (fun s : Chain K => (dr n).wt s.E)) (rho := fun i => if c.ncores = 1 then 1 else (dr n).rho i)
                      (am := am2.1) (count := count) (by
                        intro v hv
                        obtain ⟨s, _, rfl⟩ := List.mem_map.1 hv
                        exact hw n _) (by
                        intro e
                        rw [e] at hwl
                        simp at hwl; omega) (by
                        intro i
                        show (if c.ncores = 1 then (1 : K) else (dr n).rho i) ≤ 1
                        split_ifs
                        · exact le_rfl
                        · exact (hr n i).le) (by
                        intro i _ h1
                        rw [hwl] at h1
                        show (if c.ncores = 1 then (1 : K) else (dr n).rho i) < 1
                        rw [if_neg h1]
                        exact hr n i) (by rw [hwl]; exact h2) ((dr n).nan count) (by
                        intro h1
                        rw [hwl] at h1
                        exact ⟨hcount h1, by show (if c.ncores = 1 then (1 : K) else (dr n).rho 0) = 1; rw [if_pos h1]⟩)
                    rwa [hwl] at this
                  -- run the rows one by one, remembering how many are left
                  have : ∀ (l : List (Chain K)) (i : ℕ), (c.ncores = 1 → i + l.length ≤ 1) → ∃ nx, mapRows (fun count (_ : Chain K) =>
                      match softIndex c.ncores (sampling (cs.map (fun s : Chain K => (dr n).wt s.E)))
                          (fun i => if c.ncores = 1 then 1 else (dr n).rho i) ((dr n).nan count) am2.1 count with
                      | .error e => .error e
                      | .ok i => match cs[i]? with
                        | some s => .ok (s.xb, s.Eb)
                        | none => .error .indexError) i l = .ok nx := by
                    intro l
                    induction l with
                    | nil => intro i _; exact ⟨[], rfl⟩
                    | cons a l ihl =>
                      intro i hi'
                      obtain ⟨k, hk, hkl⟩ := hidx i (fun h => by have := hi' h; simp at this; omega)
                      obtain ⟨nx, hnx⟩ := ihl (i + 1) (fun h => by have := hi' h; simp at this; omega)
                      rw [← hlen] at hkl
                      refine ⟨(cs[k].xb, cs[k].Eb) :: nx, ?_⟩
                      simp only [mapRows, hk, List.getElem?_eq_getElem hkl, hnx]
                  exact this cs 0 (fun h => by omega)
              obtain ⟨nx, hnx⟩ := this
              rw [hnx]
              exact ⟨_, rfl, rfl⟩
      obtain ⟨s', h1, h2⟩ := hlogic
      exact ⟨s', by simp only [run, hs, h1], h2⟩
  obtain ⟨s, hs, hns⟩ := hrun (c.ngen / c.ncores)
  obtain ⟨G, -, hGe, hinv⟩ := run_inv (Good := InBox c.S.bounds) (fun i j => moveOK_box hS (hd i j)) hl (fun _ h => h) hg hs
  have hGe := hGe hns
  have hG0 : G ≠ 0 := by
    rw [hGe]
    have := Nat.div_pos hgen hn
    omega
  obtain ⟨o, ho, -⟩ := hinv.opt hG0
  have hx := hinv.xc hns
  rw [ho] at hx
  unfold evolute
  rw [if_neg (not_not.2 hl), if_neg (by omega), hs]
  simp only [hx, ho, Option.map]
  exact ⟨_, rfl⟩

end

/-! ### Concrete runs -/

section Example

/-- A two-dimensional space with one int and one float variable. -/
def exS : Space ℚ := { bounds := [(0, 4), (-1, 1)], types := [.int, .float], method := .nearestInt, expf := fun x => x }
def exFit (x : List ℚ) : ℚ := (x.getD 0 0 - 3) ^ 2 + (x.getD 1 0) ^ 2
/-- The move of step `k` shifts the first coordinate up and halves the second. -/
def exDraw (g : ℕ) : GDraw ℚ :=
  { core := fun j => { mv := fun k x => [x.getD 0 0 + (if k % 3 = 2 then -1 else 1), x.getD 1 0 / 2], u := fun _ => 1 / 2 },
    temp := fun _ k => 10 / ((k : ℚ) + 1), rho := fun j => if j = 0 then 1 / 10 else 9 / 10, wt := fun v => 1 / (1 + |v|), nan := fun _ => false }
def exC : Conf ℚ := { S := exS, ncores := 2, npop := 3, ngen := 4, reinforce := .soft, accP := fun dE T => 1 / (1 - dE / T), stop := fun _ => false }
def exX0 : List (List ℚ) := [[0, 1], [4, -1]]

example : exS.OK := Space.ok_of_okB (by decide +kernel)
example : ∀ x ∈ exX0, InBox exS.bounds x := fun x hx => (Space.feasible_all (S := exS) (by decide +kernel) x hx).1
example : ∀ i j, LenOK exS ((exDraw i).core j) := fun _ _ _ _ _ => rfl

/-- The run has 2 generations of two chains with three steps each: 14 evaluations, steps 1 to 12. -/
theorem exRun : (match evolute exC true exFit exDraw exX0 with
    | .ok r => decide (r.log.length = 14 ∧ r.steps = [1, 2, 3, 4, 5, 6, 7, 8, 9, 10, 11, 12] ∧ r.fits.length = 2 ∧ r.y = exFit r.x ∧
        r.stats.all (fun p => p.1 + p.2.1 == 3) ∧ r.y < exFit [0, 1])
    | .error _ => false) = true := by decide +kernel

/-- The default move really moves: first coordinate 2 is resampled (raw draw 2 gives 2 again and is rejected, raw draw 3 gives 3), the
second is left alone. -/
example : defMove (1 / 2 : ℚ) (fun i => if i = 0 then 1 / 4 else 3 / 4) (fun _ => [(0, 2), (0, 3)]) 0 exS.types exS.bounds [2, 1 / 3] =
    some [3, 1 / 3] := by decide +kernel

/-- C25 (equilibrium cooling, defect): when the equilibrium schedule stops right after a generation that found a better point, the
returned individual is the one of the previous generation while the returned fitness is the new one: the pair does not belong together. -/
theorem C25_equilibrium_stale_x : ∃ (c : Conf ℚ) (dr : ℕ → GDraw ℚ) (x0 : List (List ℚ)) (r : Result ℚ), c.S.OK ∧
    (∀ x ∈ x0, c.S.Feasible x) ∧ evolute c true exFit dr x0 = .ok r ∧ r.y ≠ exFit r.x ∧ r.y < exFit r.x := by
  have key : (match evolute { exC with ngen := 4, npop := 1, reinforce := .no, stop := fun l => l == [1, 0] } true exFit
      (fun g => { exDraw g with core := fun j => { mv := fun k x => if k = 1 then [1, 1] else if k = 2 then [3, 1] else if k = 3 then [3, 0] else [4, 1],
                                                   u := fun _ => 2 }, temp := fun _ _ => 1 }) exX0 with
    | .ok r => decide (r.y ≠ exFit r.x ∧ r.y < exFit r.x)
    | .error _ => false) = true := by decide +kernel
  split at key
  · rename_i r hr
    simp only [decide_eq_true_eq] at key
    exact ⟨_, _, _, r, Space.ok_of_okB (S := exS) (by decide +kernel), Space.feasible_all (S := exS) (by decide +kernel), hr, key.1, key.2⟩
  · cases key

end Example
end Neorl.SA

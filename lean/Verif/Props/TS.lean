import Verif.TS
import Verif.Props.SA
import Mathlib.Logic.Equiv.Basic
import Mathlib.Data.Nat.Choose.Sum
import Mathlib.Algebra.BigOperators.Intervals

/-!
# C26: tabu search
-/

set_option linter.unusedSectionVars false
set_option linter.unusedVariables false

namespace Neorl.TS

section
variable {K : Type} [Field K] [LinearOrder K] [IsStrictOrderedRing K] [FloorRing K]

/-! ### Swap moves -/

theorem swapVals_eq {pos : List K} (hn : pos.Nodup) {i j : K} (hi : i ∈ pos) (hj : j ∈ pos) :
    swapVals pos i j = .ok (pos.map (Equiv.swap i j)) := by
  obtain ⟨a, ha⟩ : ∃ a, pos.idxOf? i = some a := by
    cases h : pos.idxOf? i with
    | none => exact absurd hi (List.idxOf?_eq_none_iff.1 h)
    | some a => exact ⟨a, rfl⟩
  obtain ⟨b, hb⟩ : ∃ a, pos.idxOf? j = some a := by
    cases h : pos.idxOf? j with
    | none => exact absurd hj (List.idxOf?_eq_none_iff.1 h)
    | some a => exact ⟨a, rfl⟩
  obtain ⟨hal, hai, -⟩ := List.idxOf?_eq_some_iff.1 ha
  obtain ⟨hbl, hbj, -⟩ := List.idxOf?_eq_some_iff.1 hb
  have e : swapVals pos i j = .ok ((pos.set a j).set b i) := by
    simp only [swapVals, ha, hb, List.getElem?_eq_getElem hal, List.getElem?_eq_getElem hbl, hai, hbj]
  rw [e]
  congr 1
  apply List.ext_getElem (by simp)
  intro k h1 h2
  have hk : k < pos.length := by simpa using h1
  rw [List.getElem_map, List.getElem_set, List.getElem_set]
  by_cases hkb : b = k
  · subst hkb; rw [if_pos rfl, hbj, Equiv.swap_apply_right]
  · rw [if_neg hkb]
    by_cases hka : a = k
    · subst hka; rw [if_pos rfl, hai, Equiv.swap_apply_left]
    · rw [if_neg hka, Equiv.swap_apply_of_ne_of_ne]
      · intro h; exact hka ((hn.getElem_inj_iff).1 (hai.trans h.symm))
      · intro h; exact hkb ((hn.getElem_inj_iff).1 (hbj.trans h.symm))

/-- C26: a swap move exchanges the two chosen values and nothing else; the result is a permutation of the tour, and the same move applied
again restores it.  A value that is missing makes `list.index` raise. -/
theorem C26_swap {pos : List K} (hn : pos.Nodup) {i j : K} (hi : i ∈ pos) (hj : j ∈ pos) :
    ∃ pos', swapVals pos i j = .ok pos' ∧ pos' = pos.map (fun v => if v = i then j else if v = j then i else v) ∧ pos'.Perm pos ∧
      swapVals pos' i j = .ok pos := by
  have hp : (pos.map (Equiv.swap i j)).Perm pos := by
    have hn' : (pos.map (Equiv.swap i j)).Nodup := hn.map (Equiv.injective _)
    refine (List.perm_ext_iff_of_nodup hn' hn).2 fun v => ?_
    rw [List.mem_map]
    constructor
    · rintro ⟨w, hw, rfl⟩
      rw [Equiv.swap_apply_def]
      split
      · exact hj
      · split
        · exact hi
        · exact hw
    · intro hv
      refine ⟨Equiv.swap i j v, ?_, Equiv.swap_apply_self _ _ _⟩
      rw [Equiv.swap_apply_def]
      split
      · exact hj
      · split
        · exact hi
        · exact hv
  refine ⟨_, swapVals_eq hn hi hj, ?_, hp, ?_⟩
  · apply List.map_congr_left
    intro v _
    rw [Equiv.swap_apply_def]
  · rw [swapVals_eq (hp.nodup_iff.2 hn) (hp.mem_iff.2 hi) (hp.mem_iff.2 hj), List.map_map]
    congr 1
    conv_rhs => rw [← List.map_id pos]
    apply List.map_congr_left
    intro v _
    simp

theorem C26_swap_missing {pos : List K} {i j : K} (h : i ∉ pos ∨ j ∉ pos) : swapVals pos i j = .error .valueError := by
  unfold swapVals
  rcases h with h | h
  · rw [List.idxOf?_eq_none_iff.2 h]
  · rw [List.idxOf?_eq_none_iff.2 h]
    cases pos.idxOf? i <;> rfl

theorem mem_swapMoves {n i j : ℕ} : (i, j) ∈ swapMoves n ↔ 1 ≤ i ∧ i < j ∧ j ≤ n := by
  simp only [swapMoves, List.mem_flatMap, List.mem_map, List.mem_range, Prod.mk.injEq]
  constructor
  · rintro ⟨a, ha, k, hk, rfl, rfl⟩
    omega
  · rintro ⟨h1, h2, h3⟩
    exact ⟨i - 1, by omega, j - i - 1, by omega, by omega, by omega⟩

theorem length_swapMoves (n : ℕ) : (swapMoves n).length = n.choose 2 := by
  have e : (swapMoves n).length = ∑ i ∈ Finset.range n, (n - 1 - i) := by
    unfold swapMoves
    rw [List.length_flatMap]
    simp only [List.length_map, List.length_range]
    rw [← List.sum_toFinset _ List.nodup_range]
    congr 1
    ext; simp
  rw [e, Finset.sum_range_reflect (fun i => i), Finset.sum_range_id, Nat.choose_two_right]

/-- C26: the candidate moves are exactly the pairs `1 ≤ i < j ≤ n`, each listed once; there are `n (n - 1) / 2` of them. -/
theorem C26_moves (n : ℕ) : (∀ i j, (i, j) ∈ swapMoves n ↔ 1 ≤ i ∧ i < j ∧ j ≤ n) ∧ (swapMoves n).Nodup ∧
    (swapMoves n).length = n * (n - 1) / 2 := by
  refine ⟨fun i j => mem_swapMoves, ?_, by rw [length_swapMoves, Nat.choose_two_right]⟩
  unfold swapMoves
  rw [List.nodup_flatMap]
  constructor
  · intro i _
    exact List.nodup_range.map (fun a b h => by simpa using h)
  · refine List.nodup_range.imp ?_
    intro a b hab
    simp only [Function.onFun, List.disjoint_left, List.mem_map, List.mem_range]
    rintro _ ⟨k, _, rfl⟩ ⟨k', _, e⟩
    simp only [Prod.mk.injEq] at e
    omega

/-! ### The candidate loop -/

/-- C26: the candidate loop ends after at most one round per candidate plus one; it makes the admissible move (not tabu, or better than
the best fitness) of least penalised value, the first one among equals, and gives up exactly when every admissible move exceeds the
cut-off. -/
theorem C26_terminates {vals : List K} {tabu : List ℕ} {iter : ℕ} {best big : K} {pens : List (WithTop K)} (hne : pens ≠ [])
    (hv : vals.length = pens.length) (ht : tabu.length = pens.length) :
    (inner vals tabu iter best big (pens.length + 1) pens = .ok none ∧
      ∀ j p, pens[j]? = some p → Admissible vals tabu iter best j → (big : WithTop K) < p) ∨
    ∃ b asp p t v, inner vals tabu iter best big (pens.length + 1) pens = .ok (some (b, asp)) ∧ pens[b]? = some p ∧ p ≤ (big : WithTop K) ∧
      vals[b]? = some v ∧ tabu[b]? = some t ∧ Admissible vals tabu iter best b ∧ (asp = true ↔ ¬ t < iter) ∧
      ∀ j q, pens[j]? = some q → Admissible vals tabu iter best j → p < q ∨ (p = q ∧ b ≤ j) :=
  inner_spec _ hne hv ht (Nat.lt_succ_of_le List.countP_le_length)

/-- Without candidates `min` raises. -/
theorem C26_no_moves (tabu : List ℕ) (iter : ℕ) (best big : K) (n : ℕ) : inner [] tabu iter best big (n + 1) [] = .error .valueError := rfl

/-! ### The two move modes -/

/-- Uniform draws lie in `[0, 1]`. -/
def DrawOK (d : ℕ → K × ℕ) : Prop := ∀ i, 0 ≤ (d i).1 ∧ (d i).1 ≤ 1

theorem candOK_perturb {c : Conf K} (hS : c.S.OK) (hm : c.swap = false) {d : ℕ → K × ℕ} (hd : DrawOK d) : CandOK c c.S.Feasible d := by
  refine ⟨fun x hx => hx.1, ?_⟩
  intro pos cands hp h x hx
  simp only [candidates, hm, Bool.false_eq_true, if_false] at h
  obtain ⟨k, hk⟩ := List.mem_iff_getElem?.1 hx
  obtain ⟨i, hi, e⟩ := (mapRows_ok h).2 k x hk
  unfold perturb at e
  split at e
  · rename_i t b ht hb
    cases e
    have hbo : b.1 ≤ b.2 := hS.ordered b (List.mem_of_getElem? hb)
    have hsm := SA.sampler_mem (t := t) (b := b) hbo (fun h => hS.intBounds i b (by rw [ht, h]) hb) (hd i)
    have hl := hp.1.length_eq
    refine ⟨inBox_of_getElem? (by simp [hl]) ?_, ?_⟩
    · intro q y b' hy hb'
      rw [List.getElem?_set] at hy
      by_cases hiq : i = q
      · subst hiq
        rw [if_pos rfl] at hy
        split at hy
        · cases hy
          rw [hb] at hb'; cases hb'
          exact hsm.1
        · cases hy
      · rw [if_neg hiq] at hy
        exact inBox_getElem? hp.1 hy hb'
    · intro q y ht' hy
      rw [List.getElem?_set] at hy
      by_cases hiq : i = q
      · subst hiq
        rw [if_pos rfl] at hy
        split at hy
        · cases hy
          rw [ht] at ht'; cases ht'
          exact hsm.2 rfl
        · cases hy
      · rw [if_neg hiq] at hy
        exact hp.2 q y ht' hy
  · cases e

/-- A tour: an arrangement of the numbers `1, ..., n`. -/
def Tour (n : ℕ) (x : List K) : Prop := x.Perm ((List.range n).map (fun i => ((i + 1 : ℕ) : K)))

theorem Tour.nodup {n : ℕ} {x : List K} (h : Tour n x) : x.Nodup :=
  h.nodup_iff.2 (List.nodup_range.map (fun a b e => by simpa using e))

theorem Tour.mem {n : ℕ} {x : List K} (h : Tour n x) {i : ℕ} (h1 : 1 ≤ i) (h2 : i ≤ n) : (i : K) ∈ x :=
  h.mem_iff.2 (List.mem_map.2 ⟨i - 1, List.mem_range.2 (by omega), by rw [Nat.sub_add_cancel h1]⟩)

/-- The bounds allow every position of a tour. -/
def TourBounds (c : Conf K) : Prop := ∀ b ∈ c.S.bounds, b.1 ≤ 1 ∧ (c.S.bounds.length : K) ≤ b.2

theorem Tour.inBox {c : Conf K} (hb : TourBounds c) {x : List K} (h : Tour c.S.bounds.length x) : InBox c.S.bounds x := by
  have hl : x.length = c.S.bounds.length := by simpa using h.length_eq
  refine inBox_of_getElem? hl ?_
  intro d y b hy hd
  obtain ⟨i, hi, rfl⟩ := List.mem_map.1 (h.mem_iff.1 (List.mem_of_getElem? hy))
  have hi := List.mem_range.1 hi
  obtain ⟨b1, b2⟩ := hb b (List.mem_of_getElem? hd)
  constructor
  · refine b1.trans ?_
    exact_mod_cast Nat.succ_pos i
  · refine le_trans ?_ b2
    exact_mod_cast hi

theorem candOK_swap {c : Conf K} (hb : TourBounds c) (hm : c.swap = true) (d : ℕ → K × ℕ) : CandOK c (Tour c.S.bounds.length) d := by
  refine ⟨fun x hx => hx.inBox hb, ?_⟩
  intro pos cands hp h x hx
  simp only [candidates, hm, if_true] at h
  obtain ⟨k, hk⟩ := List.mem_iff_getElem?.1 hx
  obtain ⟨⟨i, j⟩, hij, e⟩ := (mapRows_ok h).2 k x hk
  obtain ⟨h1, h2, h3⟩ := mem_swapMoves.1 (List.mem_of_getElem? hij)
  obtain ⟨p', e', -, hperm, -⟩ := C26_swap hp.nodup (hp.mem h1 (by omega)) (hp.mem (i := j) (by omega) h3)
  have : p' = x := by
    have := e'.symm.trans e
    exact Except.ok.inj this
  rw [← this]
  exact hperm.trans hp

theorem candidates_total {c : Conf K} (hS : c.S.types.length = c.S.bounds.length) {pos : List K}
    (hp : c.swap = true → Tour c.S.bounds.length pos) (d : ℕ → K × ℕ) : ∃ cands, candidates c d pos = .ok cands := by
  unfold candidates
  split
  · rename_i hm
    refine mapRows_total (P := fun m : ℕ × ℕ => m ∈ swapMoves c.S.bounds.length) (fun m hm => hm) ?_
    rintro k ⟨i, j⟩ hij
    obtain ⟨h1, h2, h3⟩ := mem_swapMoves.1 hij
    have hp := hp hm
    obtain ⟨p', e', -⟩ := C26_swap hp.nodup (hp.mem h1 (by omega)) (hp.mem (i := j) (by omega) h3)
    exact ⟨p', e'⟩
  · refine mapRows_total (P := fun i => i < c.S.bounds.length) (fun i hi => List.mem_range.1 hi) ?_
    intro k i hi
    simp only [perturb, List.getElem?_eq_getElem hi, List.getElem?_eq_getElem (show i < c.S.types.length by omega)]
    exact ⟨_, rfl⟩

theorem gen_total {c : Conf K} {Good : List K → Prop} {fit : List K → K} {d : ℕ → K × ℕ} {G : ℕ} {s : State K}
    (hi : Inv c Good fit G s) {cands : List (List K)} (hc : candidates c d s.pos = .ok cands) (hn : nmoves c ≠ 0) :
    ∃ s', gen c fit d s = .ok s' := by
  have hlen := length_candidates hc
  unfold gen
  rw [hc]
  simp only
  set vals := cands.map (fun x => fit (c.S.clip x)) with hvals
  set pens := (vals.zip s.freq).map (fun p : K × ℕ => ((p.1 + (p.2 : K) * c.w : K) : WithTop K)) with hpens
  have hvl : vals.length = nmoves c := by simp [hvals, hlen]
  have hpl : pens.length = nmoves c := by simp [hpens, hvl, hi.lens.2]
  rcases C26_terminates (vals := vals) (tabu := s.tabu) (iter := s.iter) (best := s.best.2) (big := c.big) (pens := pens)
    (by intro h; rw [h] at hpl; exact hn hpl.symm) (by omega) (by rw [hpl, hi.lens.1]) with ⟨e, -⟩ | ⟨b, asp, p, t, v, e, e1, e2, e3, -⟩
  · rw [e]
    cases hv : vals.getLast? with
    | none => rw [List.getLast?_eq_none_iff] at hv; rw [hv] at hvl; exact absurd hvl.symm hn
    | some v => exact ⟨_, rfl⟩
  · rw [e]
    have hbl : b < cands.length := by rw [hlen, ← hvl]; exact (List.getElem?_eq_some_iff.1 e3).1
    cases asp with
    | false =>
      simp only [List.getElem?_eq_getElem hbl, e3]
      exact ⟨_, rfl⟩
    | true =>
      simp only [List.getElem?_eq_getElem hbl]
      exact ⟨_, rfl⟩

theorem run_total {c : Conf K} {Good : List K → Prop} {fit : List K → K} {dr : ℕ → ℕ → K × ℕ} (hd : ∀ n, CandOK c Good (dr n))
    (hS : c.S.types.length = c.S.bounds.length) (hT : c.swap = true → ∀ x, Good x → Tour c.S.bounds.length x) (hn : nmoves c ≠ 0) {x0 : List K}
    (hx : Good x0) (n : ℕ) : ∃ s, run c fit dr x0 n = .ok s := by
  induction n with
  | zero => exact ⟨_, rfl⟩
  | succ n ih =>
    obtain ⟨s, hs⟩ := ih
    have hi := run_inv hd hx hs
    obtain ⟨cands, hc⟩ := candidates_total hS (pos := s.pos) (fun h => hT h _ hi.pos) (dr n)
    obtain ⟨s', h'⟩ := gen_total hi hc hn
    exact ⟨s', by simp only [run, hs, h']⟩

/-! ### Whole runs -/

/-- The facts about a finished run that do not depend on the fitness values. -/
structure RunSpec (c : Conf K) (Good : List K → Prop) (r : Result K) : Prop where
  /-- every evaluated point is admissible, as are the positions visited -/
  log : ∀ z ∈ r.log, Good z
  visited : r.visited.length = c.ngen + 1 ∧ ∀ x ∈ r.visited, x ∈ r.log
  /-- one evaluation per move and generation, plus the start and the aspired moves -/
  evals : 1 + c.ngen * nmoves c ≤ r.log.length ∧ r.log.length ≤ 1 + c.ngen * (nmoves c + 1)
  /-- moves are numbered consecutively, at most one per generation -/
  made : r.made.length ≤ c.ngen ∧ r.made.map (fun e => e.1) = (List.range r.made.length).map (fun i => 1 + i) ∧ ∀ e ∈ r.made, e.2.1 < nmoves c
  /-- a move made at `t` without aspiration is made again without aspiration only after `t + tenure` -/
  tenure : r.made.Pairwise (fun a b => a.2.1 = b.2.1 → a.2.2 = false → b.2.2 = false → a.1 + c.tenure < b.1)
  hist : r.global.length = c.ngen ∧ r.locals.length = c.ngen

theorem evolute_spec {c : Conf K} {Good : List K → Prop} {m : Bool} {userFit : List K → K} {dr : ℕ → ℕ → K × ℕ} (hd : ∀ n, CandOK c Good (dr n))
    {x0 : List K} (hx : Good x0) {r : Result K} (h : evolute c m userFit dr x0 = .ok r) :
    RunSpec c Good r ∧
    (NoBig c Good (fun x => sgn m (userFit x)) c.ngen → IsBest m userFit r.visited r.x r.y ∧ HistBest m userFit 1 1 r.visited r.global ∧
      (c.w = 0 → IsBest m userFit r.log r.x r.y)) := by
  unfold evolute at h
  split at h
  · cases h
  split at h
  · cases h
  rename_i s hs
  split at h
  · cases h
  cases h
  have hi := run_inv hd hx hs
  refine ⟨⟨hi.good, ⟨hi.visited.1, hi.logv.1⟩, hi.logv.2, ⟨hi.few, hi.iters, fun e he => (hi.tabu e he).1⟩, hi.tenure, ?_⟩, ?_⟩
  · simp [hi.hist]
  · intro hN
    have hb := run_binv hd hx hN le_rfl hs
    refine ⟨hb.best.ofMin, hb.hist.ofMin, ?_⟩
    intro hw
    refine IsBest.ofMin ⟨hi.logv.1 _ hb.best.1, hb.best.2.1, ?_⟩
    intro z hz
    simpa [NotWorse] using hb.free hw z hz

/-- C26 (swap mode): from a tour every evaluated point is a tour; tenures are respected; unless a penalised fitness exceeds the cut-off the
returned pair is the best visited position with its own fitness, the history is the best so far, and without a frequency penalty it is the
best of everything evaluated. -/
theorem C26_evolute_swap {c : Conf K} (hm : c.swap = true) (hb : TourBounds c) {m : Bool} {userFit : List K → K} {dr : ℕ → ℕ → K × ℕ} {x0 : List K}
    (hx : Tour c.S.bounds.length x0) {r : Result K} (h : evolute c m userFit dr x0 = .ok r) :
    RunSpec c (Tour c.S.bounds.length) r ∧
    (NoBig c (Tour c.S.bounds.length) (fun x => sgn m (userFit x)) c.ngen →
      IsBest m userFit r.visited r.x r.y ∧ HistBest m userFit 1 1 r.visited r.global ∧ (c.w = 0 → IsBest m userFit r.log r.x r.y)) :=
  evolute_spec (fun n => candOK_swap hb hm (dr n)) hx h

/-- C26 (perturb mode): likewise with feasible points. -/
theorem C26_evolute_perturb {c : Conf K} (hS : c.S.OK) (hm : c.swap = false) {m : Bool} {userFit : List K → K} {dr : ℕ → ℕ → K × ℕ}
    (hd : ∀ n, DrawOK (dr n)) {x0 : List K} (hx : c.S.Feasible x0) {r : Result K} (h : evolute c m userFit dr x0 = .ok r) :
    RunSpec c c.S.Feasible r ∧
    (NoBig c c.S.Feasible (fun x => sgn m (userFit x)) c.ngen →
      IsBest m userFit r.visited r.x r.y ∧ HistBest m userFit 1 1 r.visited r.global ∧ (c.w = 0 → IsBest m userFit r.log r.x r.y)) :=
  evolute_spec (fun n => candOK_perturb hS hm (hd n)) hx h

/-- C26: a run never raises when there is a move and a generation. -/
theorem C26_total {c : Conf K} (hS : c.S.types.length = c.S.bounds.length) (hg : 1 ≤ c.ngen) (m : Bool) (userFit : List K → K) {dr : ℕ → ℕ → K × ℕ}
    {x0 : List K}
    (hcase : (c.swap = true ∧ TourBounds c ∧ 2 ≤ c.S.bounds.length ∧ Tour c.S.bounds.length x0) ∨
      (c.swap = false ∧ c.S.OK ∧ 1 ≤ c.S.bounds.length ∧ (∀ n, DrawOK (dr n)) ∧ c.S.Feasible x0)) :
    ∃ r, evolute c m userFit dr x0 = .ok r := by
  have key : x0.length = c.S.bounds.length ∧ ∃ s, run c (fun x => sgn m (userFit x)) dr x0 c.ngen = .ok s := by
    rcases hcase with ⟨hm, hb, hn, hx⟩ | ⟨hm, hO, hn, hd, hx⟩
    · refine ⟨by simpa using hx.length_eq, run_total (fun n => candOK_swap hb hm (dr n)) hS (fun _ x hx => hx) ?_ hx _⟩
      rw [nmoves, if_pos hm, length_swapMoves]
      exact (Nat.choose_pos hn).ne'
    · refine ⟨hx.1.length_eq, run_total (fun n => candOK_perturb hO hm (hd n)) hS (fun h => by rw [hm] at h; cases h) ?_ hx _⟩
      rw [nmoves, hm]
      simp only [Bool.false_eq_true, if_false]
      omega
  obtain ⟨hl, s, hs⟩ := key
  unfold evolute
  rw [if_neg (not_not.2 hl), hs]
  simp only [if_neg (show ¬ c.ngen = 0 by omega)]
  exact ⟨_, rfl⟩

/-- C26 (defect): in swap mode, once a generation makes no move, no later generation ever makes one: the iteration counter only advances with
a move, so no tabu mark can expire.  The remaining generations evaluate the same candidates again. -/
theorem C26_frozen {c : Conf K} (hm : c.swap = true) (hb : TourBounds c) {fit : List K → K} {dr : ℕ → ℕ → K × ℕ} {x0 : List K}
    (hx : Tour c.S.bounds.length x0) {n : ℕ} {s s' : State K} (h : run c fit dr x0 n = .ok s) (h' : run c fit dr x0 (n + 1) = .ok s')
    (hno : s'.made = s.made) {k : ℕ} (hN : NoBig c (Tour c.S.bounds.length) fit (n + k)) {t : State K} (ht : run c fit dr x0 (n + k) = .ok t) :
    t.pos = s.pos ∧ t.best = s.best ∧ t.made = s.made ∧ t.tabu = s.tabu ∧ t.iter = s.iter ∧ t.freq = s.freq := by
  have hd : ∀ n, CandOK c (Tour c.S.bounds.length) (dr n) := fun n => candOK_swap hb hm (dr n)
  have hi := run_inv hd hx h
  -- candidates do not depend on the draws
  have hcand : ∀ d d' pos, candidates c d pos = candidates c d' pos := by intro d d' pos; simp only [candidates, hm, if_true]
  simp only [run, h] at h'
  obtain ⟨cands, hc, hg, hlen, hclip, hcases⟩ := gen_cases (hd n) hi h'
  have hstop : ∀ (j : ℕ) (x : List K) (k : ℕ), cands[j]? = some x → s.freq[j]? = some k → Admissible (cands.map fit) s.tabu s.iter s.best.2 j → c.big < fit x + (k : K) * c.w := by
    rcases hcases with ⟨v, hv, rfl, hno'⟩ | ⟨b, x, k, t, hcb, hfb, htb, hbig, hadm, hmin, hcase⟩
    · exact hno'
    · rcases hcase with ⟨_, rfl⟩ | ⟨_, _, rfl⟩
      · have := congrArg List.length hno
        simp [finish] at this
      · have := congrArg List.length hno
        simp [finish] at this
  induction k generalizing t with
  | zero =>
    rw [Nat.add_zero, h] at ht
    cases ht
    exact ⟨rfl, rfl, rfl, rfl, rfl, rfl⟩
  | succ k ih =>
    rw [← Nat.add_assoc] at ht
    simp only [run] at ht
    split at ht
    · cases ht
    rename_i t0 h0
    have hN' : NoBig c (Tour c.S.bounds.length) fit (n + k) := fun x hx q hq => hN x hx q (by omega)
    obtain ⟨i1, i2, i3, i4, i5, i6⟩ := ih hN' h0
    have hi0 := run_inv hd hx h0
    have hb0 := run_binv hd hx hN' le_rfl h0
    obtain ⟨cands', hc', hg', hlen', hclip', hcases'⟩ := gen_cases (hd (n + k)) hi0 ht
    have hcc : cands' = cands := by
      rw [i1, hcand _ (dr n), hc] at hc'
      exact (Except.ok.inj hc').symm
    subst hcc
    rcases hcases' with ⟨v, hv, rfl, hno'⟩ | ⟨b, x, k', t', hcb, hfb, htb, hbig, hadm, hmin, hcase⟩
    · have hvb : ¬ v < t0.best.2 := by
        obtain ⟨x, hx', rfl⟩ := List.mem_map.1 (List.mem_of_getLast? hv)
        intro hlt
        obtain ⟨j, hj⟩ := List.mem_iff_getElem?.1 hx'
        have hjl : j < nmoves c := by rw [← hlen]; exact (List.getElem?_eq_some_iff.1 hj).1
        have hfj := List.getElem?_eq_getElem (show j < t0.freq.length by rw [hi0.lens.2]; exact hjl)
        have hcount := hi0.freq j _ hfj
        have hle := List.countP_le_length (p := fun e : ℕ × ℕ × Bool => decide (e.2.1 = j)) (l := t0.made)
        have hbig := hno' j x _ hj hfj (Or.inr ⟨fit x, by rw [List.getElem?_map, hj]; rfl, hlt⟩)
        have hfew := hi0.few
        exact absurd hbig (not_lt.2 (hN x (hg' x hx') _ (by omega)))
      refine ⟨i1, ?_, i3, i4, i5, i6⟩
      show (if v < t0.best.2 then (t0.pos, v) else t0.best) = s.best
      rw [if_neg hvb, i2]
    · rw [i6] at hfb
      rw [i4, i5, i2] at hadm
      exact absurd (hstop b x k' hcb hfb hadm) (not_lt.2 hbig)

/-- Without a generation the result attribute does not exist. -/
theorem C26_no_generation {c : Conf K} (h : c.ngen = 0) (m : Bool) (userFit : List K → K) (dr : ℕ → ℕ → K × ℕ) {x0 : List K}
    (hx : x0.length = c.S.bounds.length) : evolute c m userFit dr x0 = .error .unboundLocal := by
  unfold evolute
  rw [if_neg (not_not.2 hx), h]
  simp [run]

end

/-! ### Examples and defect witnesses -/

/-- Three cities, tenure one. -/
def exSwap : Conf ℚ :=
  { S := { bounds := [(1, 3), (1, 3), (1, 3)], types := [.int, .int, .int], method := .nearestInt, expf := fun _ => 1 }, swap := true, tenure := 1,
    w := 0, big := 100000000000, ngen := 3 }

/-- Distance from the arrangement `1, 2, 3`. -/
def exFit (x : List ℚ) : ℚ := ((x.zip [1, 2, 3]).map (fun p => |p.1 - p.2|)).sum

example : TourBounds exSwap := by unfold TourBounds; decide +kernel
example : Tour (K := ℚ) 3 [3, 1, 2] := by unfold Tour; decide +kernel
example : (match evolute exSwap true exFit (fun _ _ => (0, 0)) [3, 1, 2] with | .ok r => decide (r.x = [1, 2, 3] ∧ r.y = 0 ∧ r.made.length = 3) | _ => false)
    = true := by decide +kernel

example : NoBig exSwap (Tour 3) (fun x => x.getD 0 0) 3 := by
  intro x hx k _
  have hb := Tour.inBox (c := exSwap) (by unfold TourBounds; decide +kernel) hx
  cases hb with
  | cons h _ => simpa [exSwap] using h.2.trans (by norm_num)

/-- Two cities: one move, which becomes tabu when made, so the search is frozen from then on although the tenure has long passed. -/
def exTwo : Conf ℚ :=
  { S := { bounds := [(1, 2), (1, 2)], types := [.int, .int], method := .nearestInt, expf := fun _ => 1 }, swap := true, tenure := 1, w := 0,
    big := 100000000000, ngen := 9 }

theorem C26_frozen_witness : ∃ r, evolute exTwo true (fun x => x.getD 0 0) (fun _ _ => (0, 0)) [1, 2] = .ok r ∧ r.made = [(1, 0, false)] ∧
    r.visited.length = 10 := by
  have key : (match evolute exTwo true (fun x => x.getD 0 0) (fun _ _ => (0, 0)) [1, 2] with
      | .ok r => decide (r.made = [(1, 0, false)] ∧ r.visited.length = 10) | _ => false) = true := by decide +kernel
  split at key
  · rename_i r hr
    simp only [decide_eq_true_eq] at key
    exact ⟨r, hr, key⟩
  · cases key

/-- Perturb mode with a frequency penalty. -/
def exPen : Conf ℚ :=
  { S := { bounds := [(0, 4), (0, 4)], types := [.float, .float], method := .nearestInt, expf := fun _ => 1 }, swap := false, tenure := 0, w := 10,
    big := 100000000000, ngen := 2 }

/-- C26 (defect): with a frequency penalty a candidate that was evaluated and beats everything may be passed over; the returned fitness is
then not the best fitness evaluated. -/
theorem C26_penalty_misses : ∃ (fit : List ℚ → ℚ) (dr : ℕ → ℕ → ℚ × ℕ) (r : Result ℚ), (∀ n, DrawOK (dr n)) ∧ evolute exPen true fit dr [4, 4] = .ok r ∧
    ∃ z ∈ r.log, fit z < r.y := by
  let fit : List ℚ → ℚ := fun x => x.getD 0 0 + x.getD 1 0
  let dr : ℕ → ℕ → ℚ × ℕ := fun n i => if n = 0 then (if i = 0 then 1 / 2 else 1, 0) else (if i = 0 then 0 else 1, 0)
  have key : (match evolute exPen true fit dr [4, 4] with | .ok r => decide (∃ z ∈ r.log, fit z < r.y) | _ => false) = true := by decide +kernel
  split at key
  · rename_i r hr
    simp only [decide_eq_true_eq] at key
    refine ⟨fit, dr, r, ?_, hr, key⟩
    intro n i
    simp only [dr]
    split <;> split <;> norm_num
  · cases key

/-- C26 (defect): a fitness above the cut-off `1e11` stops the move, but the logger then stores the position together with the fitness of
the last candidate: the returned pair does not match. -/
theorem C26_cutoff_mismatch : ∃ (fit : List ℚ → ℚ) (dr : ℕ → ℕ → ℚ × ℕ) (r : Result ℚ), (∀ n, DrawOK (dr n)) ∧ evolute exPen true fit dr [4, 4] = .ok r ∧
    r.y ≠ fit r.x := by
  let fit : List ℚ → ℚ := fun x => 200000000000 + x.getD 0 0 + x.getD 1 0
  let dr : ℕ → ℕ → ℚ × ℕ := fun n i => (1 / 2, 0)
  have key : (match evolute exPen true fit dr [4, 4] with | .ok r => decide (r.y ≠ fit r.x) | _ => false) = true := by decide +kernel
  split at key
  · rename_i r hr
    simp only [decide_eq_true_eq] at key
    refine ⟨fit, dr, r, ?_, hr, key⟩
    intro n i
    simp only [dr]
    norm_num
  · cases key

example : exPen.S.OK ∧ exPen.S.Feasible [4, 4] := ⟨Space.ok_of_okB (by decide +kernel), (Space.feasible_all (ps := [[4, 4]]) (by decide +kernel)) _ (by simp)⟩

end Neorl.TS

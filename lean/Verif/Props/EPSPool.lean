import Verif.EPSPool
import Mathlib.Tactic.FieldSimp
import Mathlib.Tactic.Linarith

/-!
# C131: the parameter pool of EPSDE
-/

set_option linter.unusedSectionVars false
set_option linter.unusedVariables false

namespace Neorl.EPSPool

variable {K : Type} [Field K] [LinearOrder K] [IsStrictOrderedRing K]

/-! ### Specification -/

/-- The combinations of the paper: three strategies, crossover rates 0.1 to 0.9, scales 0.4 to 0.9. -/
def Allowed (p : Par K) : Prop := p.strat ≤ 2 ∧ (∃ i : ℕ, 1 ≤ i ∧ i ≤ 9 ∧ p.cr = i / 10) ∧ ∃ j : ℕ, 4 ≤ j ∧ j ≤ 9 ∧ p.scale = j / 10

/-- Random integers below their bound. -/
def Draw.Good (d : Draw K) : Prop := ∀ t n, 0 < n → d.ri t n < n

/-- A generation of a population of `npop`. -/
structure Gen.Good (npop : ℕ) (x : Gen K) : Prop where
  pos : 0 < x.NP
  le : x.NP ≤ npop
  draws : ∀ i, (x.d i).Good
  wins : ∀ ps, ps.length = x.NP → (x.win ps).length = x.NP

/-- The part of the members that were not successful. -/
def failed (r : List (Par K) × List Bool) : K := (r.2.count false : K) / r.1.length

/-! ### One member -/

theorem mapRows_idx {Y : Type} {f : ℕ → Py Y} {i : ℕ} {xs : List ℕ} {ys : List Y} (h : mapRows (fun i _ => f i) i xs = .ok ys) :
    ys.length = xs.length ∧ ∀ (k : ℕ) (y : Y), ys[k]? = some y → f (i + k) = .ok y := by
  obtain ⟨h1, h2⟩ := mapRows_ok h
  refine ⟨h1, fun k y hk => ?_⟩
  obtain ⟨x, _, hf⟩ := h2 k y hk
  exact hf

theorem at_ok {α : Type} {l : List α} {i : ℕ} (h : i < l.length) : at' l i = .ok l[i] := by
  simp [at', List.getElem?_eq_getElem h]

theorem fresh_ok {sp : List ℕ} (hs : sp.Perm [0, 1, 2]) {d : Draw K} (hd : d.Good) : ∃ p, fresh sp d = .ok p ∧ Allowed p := by
  have hl : sp.length = 3 := by simpa using hs.length_eq
  have h0 := hd 0 sp.length (by omega)
  have h1 := hd 1 9 (by omega)
  have h2 := hd 2 6 (by omega)
  have e1 : (rates (K := K)).length = 9 := rfl
  have e2 : (scales (K := K)).length = 6 := rfl
  refine ⟨⟨sp[d.ri 0 sp.length], (rates (K := K))[d.ri 1 9]'(by rw [e1]; exact h1), (scales (K := K))[d.ri 2 6]'(by rw [e2]; exact h2)⟩, ?_, ?_, ?_, ?_⟩
  · unfold fresh
    simp only [randint, e1, e2]
    rw [if_neg (by omega), if_neg (by omega), if_neg (by omega)]
    simp only [bind, Except.bind]
    rw [at_ok h0]
    simp only []
    rw [at_ok (l := rates (K := K)) (by rw [e1]; exact h1)]
    simp only []
    rw [at_ok (l := scales (K := K)) (by rw [e2]; exact h2)]
  · have : sp[d.ri 0 sp.length] ∈ ([0, 1, 2] : List ℕ) := hs.subset (List.getElem_mem h0)
    simp at this
    show sp[d.ri 0 sp.length] ≤ 2
    omega
  · refine ⟨d.ri 1 9 + 1, by omega, by omega, ?_⟩
    show (rates (K := K))[d.ri 1 9]'_ = _
    generalize d.ri 1 9 = n at *
    unfold rates
    rcases n with _ | _ | _ | _ | _ | _ | _ | _ | _ | n <;> first | (exfalso; omega) | simp
  · refine ⟨d.ri 2 6 + 4, by omega, by omega, ?_⟩
    show (scales (K := K))[d.ri 2 6]'_ = _
    generalize d.ri 2 6 = n at *
    unfold scales
    rcases n with _ | _ | _ | _ | _ | _ | n <;> first | (exfalso; omega) | simp

theorem reuse_ok {pool : List (Par K)} (hp : 0 < pool.length) {d : Draw K} (hd : d.Good) :
    reuse pool d = .ok (d.ri 0 pool.length, pool[d.ri 1 pool.length]'(hd 1 _ hp)) := by
  unfold reuse
  simp only [randint]
  rw [if_neg (by omega), if_neg (by omega)]
  simp only [bind, Except.bind]
  rw [at_ok (hd 1 _ hp)]

/-- **C131**: deleting places succeeds exactly if all of them exist. -/
theorem C131_delete {α : Type} (l : List α) (idx : List ℕ) : (∃ r, delete l idx = .ok r) ↔ ∀ i ∈ idx, i < l.length := by
  unfold delete
  split
  · rename_i h
    exact ⟨fun _ => by simpa using h, fun _ => ⟨_, rfl⟩⟩
  · rename_i h
    constructor
    · rintro ⟨r, hr⟩; cases hr
    · intro h'; exact absurd (by simpa using h') h

/-- **C131**: a member takes its parameters from the pool exactly if its draw is at most the rate of failures and the pool is not empty. -/
theorem C131_reuse {sp : List ℕ} (hs : sp.Perm [0, 1, 2]) {NP : ℕ} {m : Mem K} (hr : NP ≤ m.rr.length) {d : Draw K} (hd : d.Good) :
    (d.u ≤ m.rate ∧ m.pool ≠ [] → ∃ p ∈ m.pool, ∃ r < m.pool.length, pick sp NP m d = .ok (r, p)) ∧
    (m.rate < d.u ∨ m.pool = [] → ∃ p, Allowed p ∧ fresh sp d = .ok p ∧ pick sp NP m d = .ok (0, p)) := by
  constructor
  · rintro ⟨h1, h2⟩
    have hl := List.length_pos_of_ne_nil h2
    refine ⟨_, List.getElem_mem (hd 1 _ hl), d.ri 0 m.pool.length, hd 0 _ hl, ?_⟩
    rw [pick, if_pos (Or.inl ⟨h1, hl⟩), reuse_ok hl hd]
  · intro h
    obtain ⟨p, hp, ha⟩ := fresh_ok hs hd
    refine ⟨p, ha, hp, ?_⟩
    rw [pick, if_neg, hp]; rfl
    rintro (⟨h1, h2⟩ | h1)
    · rcases h with h | h
      · exact absurd h1 (not_le.mpr h)
      · simp [h] at h2
    · omega

/-! ### The deletion -/

/-- The entries at positions that are not given. -/
def keep {α : Type} (l : List α) (idx : List ℕ) : List α := (l.zipIdx.filter fun p => p.2 ∉ idx).map (·.1)

theorem keep_sublist {α : Type} (l : List α) (idx : List ℕ) : (keep l idx).Sublist l := by
  have h : ((l.zipIdx.filter fun p => p.2 ∉ idx).map (·.1)).Sublist (l.zipIdx.map (·.1)) := List.Sublist.map _ List.filter_sublist
  have e : l.zipIdx.map (·.1) = l := by simp
  rw [e] at h; exact h

theorem length_keep {α : Type} (l : List α) (idx : List ℕ) : l.length ≤ (keep l idx).length + idx.length := by
  have h1 : (l.zipIdx.filter fun p => p.2 ∈ idx).length ≤ idx.length := by
    have hn : ((l.zipIdx.filter fun p => p.2 ∈ idx).map (·.2)).Nodup := by
      refine List.Nodup.sublist (List.Sublist.map _ List.filter_sublist) ?_
      have : l.zipIdx.map (·.2) = List.range l.length := by simp [List.range_eq_range']
      rw [this]; exact List.nodup_range
    have hs : (l.zipIdx.filter fun p => p.2 ∈ idx).map (·.2) ⊆ idx := by
      intro x hx
      simp only [List.mem_map, List.mem_filter, decide_eq_true_eq] at hx
      obtain ⟨p, ⟨_, hp⟩, rfl⟩ := hx
      exact hp
    simpa using (List.subperm_of_subset hn hs).length_le
  have h2 := List.length_eq_length_filter_add (l := l.zipIdx) (fun p => decide (p.2 ∈ idx))
  have h3 : (l.zipIdx.filter fun p => !decide (p.2 ∈ idx)) = l.zipIdx.filter fun p => p.2 ∉ idx := by
    apply List.filter_congr; intro x _; simp
  rw [h3] at h2
  simp only [keep, List.length_map]
  simp only [List.length_zipIdx] at h2
  omega

theorem keep_head {α : Type} (a : α) (l : List α) {idx : List ℕ} (h : 0 ∉ idx) : (keep (a :: l) idx).head? = some a := by
  simp [keep, List.zipIdx_cons, h]

theorem delete_append {α : Type} (a b : List α) {idx : List ℕ} (h : ∀ i ∈ idx, i < a.length) : delete (a ++ b) idx = .ok (keep a idx ++ b) := by
  unfold delete
  rw [if_pos]
  · rw [List.zipIdx_append, List.filter_append, List.map_append]
    congr 2
    have : (b.zipIdx (0 + a.length)).filter (fun p => decide (p.2 ∉ idx)) = b.zipIdx (0 + a.length) := by
      rw [List.filter_eq_self]
      intro p hp
      have h2 : a.length ≤ p.2 := by
        obtain ⟨x, i⟩ := p
        have := List.le_snd_of_mem_zipIdx hp
        simpa using this
      simp only [decide_eq_true_eq]
      intro hm
      exact absurd (h _ hm) (by omega)
    rw [this]; simp
  · simp only [List.all_eq_true, decide_eq_true_eq, List.length_append]
    intro i hi; have := h i hi; omega

/-! ### One generation -/

/-- What holds between the generations: `g` of them are done. -/
structure Inv (npop g : ℕ) (m : Mem K) : Prop where
  pool : ∀ p ∈ m.pool, Allowed p
  rr : m.rr.length = npop
  zero : g = 0 → ∀ i ∈ m.rr, i = 0
  hist : m.hist.length = g
  part : ∀ h ∈ m.hist, 0 ≤ h ∧ h ≤ 1
  rate : 0 ≤ m.rate ∧ m.rate ≤ 1

theorem choose_ok {sp : List ℕ} (hs : sp.Perm [0, 1, 2]) {npop g : ℕ} {m : Mem K} (hm : Inv npop g m) {x : Gen K} (hx : x.Good npop) :
    ∃ rr ps, choose sp g x.NP m x.d = .ok (rr, ps) ∧ rr.length = npop ∧ ps.length = x.NP ∧ (∀ p ∈ ps, Allowed p) ∧
      ∀ i ∈ (rr.take x.NP), i = 0 ∨ i < m.pool.length := by
  by_cases hg : g = 0
  · obtain ⟨ps, hps⟩ := mapRows_total (f := fun i _ => fresh sp (x.d i)) (i := 0) (xs := List.range x.NP) (P := fun _ => True) (fun _ _ => trivial)
      (fun k _ _ => (fresh_ok hs (hx.draws k)).imp fun p h => h.1)
    obtain ⟨h1, h2⟩ := mapRows_idx (f := fun i => fresh sp (x.d i)) hps
    refine ⟨m.rr, ps, ?_, hm.rr, by simpa using h1, ?_, ?_⟩
    · rw [choose, if_pos hg, hps]; rfl
    · intro p hp
      obtain ⟨k, hk⟩ := List.mem_iff_getElem?.mp hp
      have h := h2 k p hk
      obtain ⟨q, hq, ha⟩ := fresh_ok hs (hx.draws (0 + k))
      rw [hq] at h; cases h; exact ha
    · intro i hi; exact Or.inl (hm.zero hg i (List.mem_of_mem_take hi))
  · have hr : x.NP ≤ m.rr.length := by rw [hm.rr]; exact hx.le
    have hP : ∀ k, ∃ q, pick sp x.NP m (x.d k) = .ok q ∧ Allowed q.2 ∧ (q.1 = 0 ∨ q.1 < m.pool.length) := by
      intro k
      obtain ⟨a, b⟩ := C131_reuse hs hr (hx.draws k)
      by_cases h : (x.d k).u ≤ m.rate ∧ m.pool ≠ []
      · obtain ⟨p, hp, r, hr, e⟩ := a h
        exact ⟨(r, p), e, hm.pool p hp, Or.inr hr⟩
      · have h' : m.rate < (x.d k).u ∨ m.pool = [] := by
          by_cases h1 : m.pool = []
          · exact Or.inr h1
          · exact Or.inl (not_le.mp fun h2 => h ⟨h2, h1⟩)
        obtain ⟨p, hp, _, e⟩ := b h'
        exact ⟨(0, p), e, hp, Or.inl rfl⟩
    obtain ⟨l, hl⟩ := mapRows_total (f := fun i _ => pick sp x.NP m (x.d i)) (i := 0) (xs := List.range x.NP) (P := fun _ => True) (fun _ _ => trivial)
      (fun k _ _ => (hP k).imp fun p h => h.1)
    obtain ⟨h1, h2⟩ := mapRows_idx (f := fun i => pick sp x.NP m (x.d i)) hl
    simp only [List.length_range] at h1
    have hq : ∀ q ∈ l, Allowed q.2 ∧ (q.1 = 0 ∨ q.1 < m.pool.length) := by
      intro q hq
      obtain ⟨k, hk⟩ := List.mem_iff_getElem?.mp hq
      have h := h2 k q hk
      obtain ⟨q', hq', ha⟩ := hP (0 + k)
      rw [hq'] at h; cases h; exact ha
    refine ⟨l.map (·.1) ++ m.rr.drop x.NP, l.map (·.2), ?_, ?_, by simpa using h1, ?_, ?_⟩
    · rw [choose, if_neg hg, hl]
      simp only []
      rw [if_neg (by omega)]
    · simp only [List.length_append, List.length_map, List.length_drop, h1, hm.rr]; have := hx.le; omega
    · intro p hp
      obtain ⟨q, hq', rfl⟩ := List.mem_map.mp hp
      exact (hq q hq').1
    · intro i hi
      rw [List.take_append_of_le_length (by simp [h1]), List.take_of_length_le (by simp [h1])] at hi
      obtain ⟨q, hq', rfl⟩ := List.mem_map.mp hi
      exact (hq q hq').2

theorem marked_spec {rr : List ℕ} {won : List Bool} {i : ℕ} (h : i ∈ marked rr won) : i ≠ 0 ∧ i ∈ rr.take won.length := by
  simp only [marked, List.mem_filterMap] at h
  obtain ⟨⟨a, b⟩, hp, he⟩ := h
  split at he
  · rename_i hc
    cases he
    refine ⟨hc.2, ?_⟩
    obtain ⟨k, hk⟩ := List.mem_iff_getElem?.mp hp
    rw [List.getElem?_zip_eq_some] at hk
    refine List.mem_iff_getElem?.mpr ⟨k, ?_⟩
    have : k < won.length := (List.getElem?_eq_some_iff.mp hk.2).1
    rw [List.getElem?_take, if_pos this]; exact hk.1
  · exact absurd he (by simp)

theorem marked_le : ∀ (rr : List ℕ) (ps : List (Par K)) (won : List Bool), won.length ≤ ps.length → (marked rr won).length ≤ (winners ps won).length
  | [], _, _, _ => by simp [marked]
  | _ :: _, _, [], _ => by simp [marked]
  | _ :: _, [], _ :: _, h => by simp at h
  | r :: rr, p :: ps, w :: won, h => by
    have ih := marked_le rr ps won (by simpa using h)
    unfold marked winners at ih ⊢
    simp only [List.zip_cons_cons, List.filterMap_cons]
    cases w with
    | false => simpa using ih
    | true =>
      by_cases hr : r = 0
      · simp only [hr, true_and, ne_eq, not_true_eq_false, if_false, if_true, List.length_cons] at ih ⊢; omega
      · simp only [hr, true_and, ne_eq, not_false_eq_true, if_true, List.length_cons] at ih ⊢; omega

theorem winners_eq (ps : List (Par K)) (won : List Bool) : winners ps won = ((ps.zip won).filter (·.2)).map (·.1) := by
  unfold winners
  induction ps.zip won with
  | nil => rfl
  | cons p t ih =>
    rw [List.filterMap_cons, List.filter_cons, ih]
    cases h : p.2 <;> simp

/-- **C131**: one generation. It does not fail; every member gets a combination of the paper; the pool is what is left of the old pool, with its first row always,
followed by the rows of all successful members in order; it never shrinks. -/
theorem C131_generation {sp : List ℕ} (hs : sp.Perm [0, 1, 2]) {npop g : ℕ} {m : Mem K} (hm : Inv npop g m) {x : Gen K} (hx : x.Good npop) :
    ∃ m' ps won kept, step sp g x m = .ok (m', ps, won) ∧ Inv npop (g + 1) m' ∧ ps.length = x.NP ∧ won.length = x.NP ∧ won = x.win ps ∧ (∀ p ∈ ps, Allowed p) ∧
      m'.pool = kept ++ ((ps.zip won).filter (·.2)).map (·.1) ∧ kept.Sublist m.pool ∧ kept.head? = m.pool.head? ∧ m.pool.length ≤ m'.pool.length ∧
      m'.hist = m.hist ++ [failed (ps, won)] ∧ m'.rate = newRate g m'.hist := by
  obtain ⟨rr, ps, hc, hrr, hps, ha, hi⟩ := choose_ok hs hm hx
  have hw := hx.wins ps hps
  have hidx : ∀ i ∈ marked rr (x.win ps), i ≠ 0 ∧ i < m.pool.length := by
    intro i h
    obtain ⟨h0, h1⟩ := marked_spec h
    rw [hw] at h1
    exact ⟨h0, (hi i h1).resolve_left h0⟩
  have hd := delete_append m.pool (winners ps (x.win ps)) (fun i h => (hidx i h).2)
  have hNP : (0 : K) < x.NP := by exact_mod_cast hx.pos
  have hf : failed (ps, x.win ps) = ((x.win ps).count false : K) / x.NP := by simp [failed, hps]
  have hf0 : 0 ≤ failed (ps, x.win ps) ∧ failed (ps, x.win ps) ≤ 1 := by
    rw [hf]
    refine ⟨by positivity, ?_⟩
    rw [div_le_one hNP]
    have : (x.win ps).count false ≤ x.NP := hw ▸ List.count_le_length
    exact_mod_cast this
  set hist := m.hist ++ [failed (ps, x.win ps)] with hhist
  have hpart : ∀ h ∈ hist, 0 ≤ h ∧ h ≤ 1 := by
    intro h hh
    rcases List.mem_append.mp hh with hh | hh
    · exact hm.part h hh
    · rw [List.mem_singleton.mp hh]; exact hf0
  have hmean : ∀ l : List K, (∀ h ∈ l, 0 ≤ h ∧ h ≤ 1) → 0 ≤ mean l ∧ mean l ≤ 1 := by
    intro l hl
    have h0 : 0 ≤ l.sum := List.sum_nonneg fun h hh => (hl h hh).1
    have h1 : l.sum ≤ l.length := by
      have := List.sum_le_card_nsmul l 1 fun h hh => (hl h hh).2
      simpa using this
    unfold mean
    refine ⟨by positivity, ?_⟩
    rcases Nat.eq_zero_or_pos l.length with hz | hz
    · simp [hz]
    · rw [div_le_one (by exact_mod_cast hz)]; exact h1
  have hrate : 0 ≤ newRate g hist ∧ newRate g hist ≤ 1 := by
    unfold newRate
    split
    · exact hmean _ fun h hh => hpart h (List.mem_of_mem_take (List.mem_of_mem_drop hh))
    · exact hmean _ hpart
  refine ⟨⟨keep m.pool (marked rr (x.win ps)) ++ winners ps (x.win ps), rr, hist, newRate g hist⟩, ps, x.win ps, keep m.pool (marked rr (x.win ps)), ?_, ?_, hps, hw, rfl, ha, ?_,
    keep_sublist _ _, ?_, ?_, rfl, rfl⟩
  · rw [step, hc]
    simp only [update]
    rw [hd]
    simp only []
    rw [if_neg (by have := hx.pos; omega), hhist, hf]; rfl
  · refine ⟨?_, hrr, by omega, by simp [hhist, hm.hist], hpart, hrate⟩
    intro p hp
    rcases List.mem_append.mp hp with hp | hp
    · exact hm.pool p ((keep_sublist _ _).subset hp)
    · rw [winners_eq] at hp
      obtain ⟨q, hq, rfl⟩ := List.mem_map.mp hp
      obtain ⟨a, b⟩ := q
      exact ha _ (List.of_mem_zip (List.mem_of_mem_filter hq)).1
  · simp only [winners_eq]
  · cases hp : m.pool with
    | nil => simp [keep]
    | cons a t => rw [keep_head a t fun h => (hidx 0 h).1 rfl]; rfl
  · have h1 := length_keep m.pool (marked rr (x.win ps))
    have h2 := marked_le rr ps (x.win ps) (by omega)
    simp only [List.length_append]; omega

/-! ### A run -/

theorem inv_init (npop : ℕ) : Inv npop 0 (Mem.init npop : Mem K) where
  pool := by simp [Mem.init]
  rr := by simp [Mem.init]
  zero := by simp [Mem.init]
  hist := rfl
  part := by simp [Mem.init]
  rate := by simp [Mem.init]

theorem run_from {sp : List ℕ} (hs : sp.Perm [0, 1, 2]) {npop : ℕ} : ∀ (gs : List (Gen K)) (g : ℕ) (m : Mem K), Inv npop g m → (∀ x ∈ gs, x.Good npop) →
    ∃ m' rs, run sp g gs m = .ok (m', rs) ∧ rs.length = gs.length ∧ Inv npop (g + gs.length) m' ∧
      (∀ (k : ℕ) x r, gs[k]? = some x → rs[k]? = some r → r.1.length = x.NP ∧ r.2.length = x.NP ∧ r.2 = x.win r.1) ∧
      (∀ r ∈ rs, ∀ p ∈ r.1, Allowed p) ∧
      (∀ p ∈ m'.pool, p ∈ m.pool ∨ ∃ r ∈ rs, ∃ k : ℕ, r.1[k]? = some p ∧ r.2[k]? = some true) ∧
      m.pool.length ≤ m'.pool.length ∧ (∀ p, m.pool.head? = some p → m'.pool.head? = some p) ∧
      m'.hist = m.hist ++ rs.map failed ∧ (gs ≠ [] → m'.rate = newRate (g + gs.length - 1) m'.hist) := by
  intro gs
  induction gs with
  | nil => intro g m hm _; exact ⟨m, [], rfl, rfl, by simpa using hm, by simp, by simp, fun p hp => Or.inl hp, le_rfl, fun p hp => hp, by simp, by simp⟩
  | cons x t ih =>
    intro g m hm hx
    obtain ⟨m1, ps, won, kept, e1, i1, hps, hwon, hw, ha, hpool, hk, hh, hle, hhist, hrate⟩ := C131_generation hs hm (hx x (by simp))
    obtain ⟨m2, rs, e2, hl, i2, hlen, ha2, hpool2, hle2, hh2, hhist2, hrate2⟩ := ih (g + 1) m1 i1 fun y hy => hx y (by simp [hy])
    refine ⟨m2, (ps, won) :: rs, ?_, by simp [hl], ?_, ?_, ?_, ?_, hle.trans hle2, ?_, ?_, ?_⟩
    · rw [run, e1]; simp only []; rw [e2]
    · have : g + (x :: t).length = g + 1 + t.length := by simp; omega
      rw [this]; exact i2
    · intro k y r hy hr
      cases k with
      | zero => simp at hy hr; subst hy; subst hr; exact ⟨hps, hwon, hw⟩
      | succ k => exact hlen k y r (by simpa using hy) (by simpa using hr)
    · intro r hr
      rcases List.mem_cons.mp hr with rfl | hr
      · exact ha
      · exact ha2 r hr
    · intro p hp
      rcases hpool2 p hp with h | ⟨r, hr, k, h⟩
      · rw [hpool] at h
        rcases List.mem_append.mp h with h | h
        · exact Or.inl (hk.subset h)
        · obtain ⟨⟨a, b⟩, hq, rfl⟩ := List.mem_map.mp h
          simp only [List.mem_filter] at hq
          obtain ⟨k, hk⟩ := List.mem_iff_getElem?.mp hq.1
          rw [List.getElem?_zip_eq_some] at hk
          have hb : b = true := hq.2
          exact Or.inr ⟨(ps, won), by simp, k, hk.1, by rw [← hb]; exact hk.2⟩
      · exact Or.inr ⟨r, by simp [hr], k, h⟩
    · intro p hp
      refine hh2 p ?_
      rw [← hh] at hp
      rw [hpool, List.head?_append, hp]; rfl
    · rw [hhist2, hhist]; simp
    · intro _
      by_cases ht : t = []
      · subst ht; simp only [run] at e2; cases e2; simpa using hrate
      · rw [hrate2 ht]
        congr 1
        simp

/-- **C131**: every run goes through; all members have combinations of the paper; every row of the pool belonged to a member that was successful with it; what is in the
pool first stays, so a pool that has been filled is never empty again; the rate is a number from 0 to 1. -/
theorem C131_run {sp : List ℕ} (hs : sp.Perm [0, 1, 2]) {npop : ℕ} {gs : List (Gen K)} (hg : ∀ x ∈ gs, x.Good npop) :
    ∃ m rs, run sp 0 gs (Mem.init npop) = .ok (m, rs) ∧ rs.length = gs.length ∧
      (∀ (k : ℕ) x r, gs[k]? = some x → rs[k]? = some r → r.1.length = x.NP ∧ r.2.length = x.NP ∧ r.2 = x.win r.1) ∧
      (∀ r ∈ rs, ∀ p ∈ r.1, Allowed p) ∧
      (∀ p ∈ m.pool, ∃ r ∈ rs, ∃ k : ℕ, r.1[k]? = some p ∧ r.2[k]? = some true) ∧ 0 ≤ m.rate ∧ m.rate ≤ 1 := by
  obtain ⟨m, rs, e, hl, i, hlen, ha, hp, _, _, _, _⟩ := run_from hs gs 0 _ (inv_init npop) hg
  exact ⟨m, rs, e, hl, hlen, ha, fun p h => (hp p h).resolve_left (by simp [Mem.init]), i.rate⟩

/-- **C131**: continuing a run never shrinks the pool nor changes its first row. -/
theorem C131_kept {sp : List ℕ} (hs : sp.Perm [0, 1, 2]) {npop g : ℕ} {gs : List (Gen K)} (hg : ∀ x ∈ gs, x.Good npop) {m : Mem K} (hm : Inv npop g m) :
    ∃ m' rs, run sp g gs m = .ok (m', rs) ∧ m.pool.length ≤ m'.pool.length ∧ ∀ p, m.pool.head? = some p → m'.pool.head? = some p := by
  obtain ⟨m', rs, e, _, _, _, _, _, h1, h2, _, _⟩ := run_from hs gs g m hm hg
  exact ⟨m', rs, e, h1, h2⟩

/-- **C131**: the rate. Up to eleven generations it is the mean part of failures of all of them. From the twelfth on it is the mean of the ten generations *before* the last one. -/
theorem C131_rate {sp : List ℕ} (hs : sp.Perm [0, 1, 2]) {npop : ℕ} {gs : List (Gen K)} (hg : ∀ x ∈ gs, x.Good npop) (h0 : gs ≠ []) {m : Mem K} {rs : List (List (Par K) × List Bool)}
    (h : run sp 0 gs (Mem.init npop) = .ok (m, rs)) :
    (gs.length ≤ 11 → m.rate = (rs.map failed).sum / gs.length) ∧
    (12 ≤ gs.length → m.rate = (((rs.dropLast).drop (gs.length - 11)).map failed).sum / 10 ∧ ((rs.dropLast).drop (gs.length - 11)).length = 10) := by
  obtain ⟨m', rs', e, hl, i, hlen, ha, hp, _, _, hh, hr⟩ := run_from hs gs 0 _ (inv_init npop) hg
  rw [e] at h; cases h
  have hr := hr h0
  have hh : m.hist = rs.map failed := by simpa [Mem.init] using hh
  rw [hh] at hr
  simp only [newRate, mean] at hr
  have hpos := List.length_pos_of_ne_nil h0
  refine ⟨fun hle => ?_, fun hle => ?_⟩
  · rw [if_neg (by omega)] at hr
    rw [hr]; simp [hl]
  · rw [if_pos (by omega)] at hr
    have hd : rs.dropLast = rs.take (gs.length - 1) := by rw [List.dropLast_eq_take, hl]
    have hlen : ((rs.dropLast).drop (gs.length - 11)).length = 10 := by simp [hl]; omega
    refine ⟨?_, hlen⟩
    have e1 : 0 + gs.length - 1 = gs.length - 1 := by omega
    have e2 : 0 + gs.length - 1 - 10 = gs.length - 11 := by omega
    rw [e2, e1, ← List.map_take, ← List.map_drop, ← hd] at hr
    rw [hr, List.length_map, hlen]; norm_num

/-- **C131** (defect): from the twelfth generation on, how many members were successful in a generation has no effect on the rate used in the next one. -/
theorem C131_stale {g NP : ℕ} (hg : 10 < g) {m : Mem K} (hm : m.hist.length = g) {rr rr' : List ℕ} {ps ps' : List (Par K)} {won won' : List Bool} {a b : Mem K}
    (ha : update g NP m rr ps won = .ok a) (hb : update g NP m rr' ps' won' = .ok b) : a.rate = b.rate := by
  have key : ∀ {rr : List ℕ} {ps : List (Par K)} {won : List Bool} {a : Mem K}, update g NP m rr ps won = .ok a → a.rate = mean (m.hist.drop (g - 10)) := by
    intro rr ps won a h
    unfold update at h
    split at h
    · cases h
    · split at h
      · cases h
      · cases h
        simp only [newRate]
        rw [if_pos hg, List.take_append_of_le_length (by omega), List.take_of_length_le (by omega)]
  rw [key ha, key hb]

/-! ### What is removed -/

theorem keep_single {α : Type} (l : List α) {i : ℕ} (h : i < l.length) : keep l [i] = l.eraseIdx i := by
  have key : ∀ (l : List α) (i s : ℕ), ((l.zipIdx s).filter fun p => p.2 ∉ [s + i]).map (·.1) = l.eraseIdx i := by
    intro l
    induction l with
    | nil => intro i s; simp
    | cons a t ih =>
      intro i s
      cases i with
      | zero =>
        simp only [List.zipIdx_cons, List.filter_cons, List.mem_singleton, Nat.add_zero, not_true_eq_false, decide_false, Bool.false_eq_true, if_false, List.eraseIdx_cons_zero]
        have : (t.zipIdx (s + 1)).filter (fun p => decide (¬ p.2 = s)) = t.zipIdx (s + 1) := by
          rw [List.filter_eq_self]
          intro p hp
          obtain ⟨x, i⟩ := p
          have := List.le_snd_of_mem_zipIdx hp
          simp only [decide_eq_true_eq]
          simp only at this
          omega
        rw [this]; simp
      | succ i =>
        have h := ih i (s + 1)
        have e : s + 1 + i = s + (i + 1) := by omega
        rw [e] at h
        rw [List.eraseIdx_cons_succ, ← h, List.zipIdx_cons, List.filter_cons]
        rw [if_pos (by simp)]
        simp
  have := key l i 0
  simpa [keep] using this

/-- **C131** (defect): the row that is removed has nothing to do with the row that was used. For all positions `i` (not the first) and `j` of the pool there are draws with which a
single successful member uses row `j`, while row `i` is removed and a second copy of row `j` is added. -/
theorem C131_removed {sp : List ℕ} {g : ℕ} (hg : g ≠ 0) {m : Mem K} (hr : m.rr ≠ []) {i j : ℕ} (hi : i < m.pool.length) (hi0 : i ≠ 0) (hj : j < m.pool.length)
    (hrate : 0 ≤ m.rate) :
    ∃ d : ℕ → Draw K, ∀ x : Gen K, x.NP = 1 → x.d = d → x.win [m.pool[j]] = [true] →
      ∃ m', step sp g x m = .ok (m', [m.pool[j]], [true]) ∧ m'.pool = m.pool.eraseIdx i ++ [m.pool[j]] := by
  refine ⟨fun _ => ⟨0, fun t _ => if t = 0 then i else j⟩, ?_⟩
  rintro ⟨NP, d, win⟩ h1 h2 hw
  simp only at h1 h2 hw
  subst h1; subst h2
  have hrl := List.length_pos_of_ne_nil hr
  have hp : pick sp 1 m (⟨0, fun t _ => if t = 0 then i else j⟩ : Draw K) = .ok (i, m.pool[j]) := by
    rw [pick, if_pos (Or.inl ⟨hrate, Nat.zero_lt_of_lt hi⟩)]
    unfold reuse
    simp only [randint]
    have hne : m.pool.length ≠ 0 := by omega
    simp only [bind, Except.bind, hne, if_true, one_ne_zero, if_false, at_ok hj]
  have hc : choose sp g 1 m (fun _ => (⟨0, fun t _ => if t = 0 then i else j⟩ : Draw K)) = .ok (i :: m.rr.drop 1, [m.pool[j]]) := by
    rw [choose, if_neg hg]
    have : mapRows (fun k (_ : ℕ) => pick sp 1 m (⟨0, fun t _ => if t = 0 then i else j⟩ : Draw K)) 0 (List.range 1) = .ok [(i, m.pool[j])] := by
      have e : List.range 1 = [0] := rfl
      rw [e, mapRows, hp, mapRows]
    rw [this]
    simp only []
    rw [if_neg (by omega)]; rfl
  have hm1 : marked (i :: m.rr.drop 1) [true] = [i] := by simp [marked, hi0]
  have hw1 : winners [m.pool[j]] [true] = [m.pool[j]] := by simp [winners]
  rw [step, hc]
  simp only [hw, update, hm1, hw1]
  rw [delete_append _ _ (by simpa using hi), keep_single _ hi]
  exact ⟨_, rfl, rfl⟩

/-! ### The strategies -/

/-- **C131**: with every combination of the pool one of the three rules of EPSDE makes the trial: a population that has met in one point stays there. (For any other number the
row would be zero.) -/
theorem C131_converged [FloorRing K] (S : Space K) (D : EDEV.Draws K) {p : Par K} (hp : Allowed p) {i : ℕ} (hD : D.estrat i = p.strat) {x : List K} (hx : x.length = S.bounds.length)
    {pop : List (EDEV.Indv K)} (hpop : ∀ q ∈ pop, q.1 = x) (hi : i < pop.length) (hind : ∀ k, D.eind i k < pop.length) : EDEV.epsRaw S D x pop i = x := by
  have hcell : ∀ k j, k < pop.length → EDEV.cell pop k j = x.getD j 0 := by
    intro k j hk
    unfold EDEV.cell
    have e : pop.getD k ([], 0) = pop[k] := by rw [List.getD_eq_getElem?_getD, List.getElem?_eq_getElem hk, Option.getD_some]
    rw [e, hpop _ (List.getElem_mem hk)]
  apply List.ext_getElem
  · simp [EDEV.epsRaw, hx]
  · intro j h1 h2
    have hg : x[j] = x.getD j 0 := by rw [List.getD_eq_getElem?_getD, List.getElem?_eq_getElem h2, Option.getD_some]
    simp only [EDEV.epsRaw, List.getElem_map, List.getElem_range, hcell _ _ (hind _), hcell _ _ hi, hg, hD]
    have h2 := hp.1
    by_cases e0 : p.strat = 0
    · simp [e0]
    · by_cases e1 : p.strat = 1
      · simp [e1]
      · have e2 : p.strat = 2 := by omega
        simp [e2]

/-! ### Examples -/

/-- Three members; member `i` of generation one uses row `1` and marks row `2`. -/
def exGen (NP : ℕ) (w : List Bool) : Gen ℚ := ⟨NP, fun i => ⟨0, fun t n => (t + i + 2) % n⟩, fun _ => w⟩

theorem exGen_good : (exGen 3 [true, true, true]).Good 10 where
  pos := by decide
  le := by decide
  draws := fun i t n h => Nat.mod_lt _ h
  wins := fun _ _ => rfl

example : (run [2, 0, 1] 0 [exGen 3 [true, false, true], exGen 2 [true, false]] (Mem.init 10)).map (fun r => (r.1.pool.map (fun p => (p.strat, p.cr, p.scale)), r.1.rr.take 3, r.1.rate)) =
    .ok ([(1, 4 / 10, 8 / 10), (0, 6 / 10, 4 / 10), (0, 6 / 10, 4 / 10)], [0, 1, 0], 5 / 12) := by decide +kernel

example : Allowed (⟨1, 4 / 10, 8 / 10⟩ : Par ℚ) := ⟨by norm_num, ⟨4, by norm_num⟩, ⟨8, by norm_num⟩⟩

end Neorl.EPSPool

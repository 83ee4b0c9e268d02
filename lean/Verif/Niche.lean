import Verif.Crowd
import Mathlib.Data.List.Dedup

/-!
# Niching and the survivor selection of NSGA-III

Model of `niching`, `neorl/multi/tools.py` lines 465-511, and of `NSGAIII.select`, `neorl/multi/nsgaIII.py` lines 107-169.  The association of
individuals to reference points (extreme points, intercepts, distances: floating-point linear algebra) enters as an arbitrary function.
`np.random.shuffle` is an arbitrary permutation; individuals are positions in the last front.
-/

set_option linter.unusedSectionVars false
set_option linter.unusedVariables false

namespace Neorl.ND

section
variable {K : Type} [Field K] [LinearOrder K] [IsStrictOrderedRing K]

/-- The arrays of `niching`. -/
structure NState where
  avail : ℕ → Bool
  cnt : ℕ → ℕ
  sel : List ℕ

/-- Inputs of `niching`: front size, number of reference points, associated niches and distances, and the shuffles (of niches, by round; of
individuals, by pick). -/
structure NConf (K : Type) where
  n : ℕ
  R : ℕ
  niche : ℕ → ℕ
  dist : ℕ → K
  shN : ℕ → List ℕ → List ℕ
  shI : ℕ → List ℕ → List ℕ

/-- `np.argmin` into a list: the first entry of least distance. -/
def argminFirst (d : ℕ → K) : List ℕ → Option ℕ
  | [] => none
  | a :: l =>
    match argminFirst d l with
    | none => some a
    | some b => if d b < d a then some b else some a

/-- Lines 485-486: `available_niches`. -/
def availNiches (c : NConf K) (s : NState) : List ℕ :=
  (List.range c.R).filter fun q => (List.range c.n).any fun i => s.avail i && c.niche i == q

/-- Lines 494-509: one pick. -/
def pick (c : NConf K) (q : ℕ) (s : NState) : Py NState :=
  let ins := c.shI s.sel.length ((List.range c.n).filter fun i => c.niche i == q && s.avail i)
  if s.cnt q = 0 then
    match argminFirst c.dist ins with
    | none => .error .valueError
    | some x => .ok { avail := Function.update s.avail x false, cnt := Function.update s.cnt q (s.cnt q + 1), sel := s.sel ++ [x] }
  else
    match ins.head? with
    | none => .error .indexError
    | some x => .ok { avail := Function.update s.avail x false, cnt := Function.update s.cnt q (s.cnt q + 1), sel := s.sel ++ [x] }

/-- The loop over the selected niches, line 493. -/
def picks (c : NConf K) : List ℕ → NState → Py NState
  | [], s => .ok s
  | q :: qs, s =>
    match pick c q s with
    | .error e => .error e
    | .ok s' => picks c qs s'

/-- One pass of the `while` loop, lines 480-509; `np.min` of nothing raises. -/
def round (c : NConf K) (k : ℕ) (s : NState) : Py NState :=
  let an := availNiches c s
  match (an.map s.cnt).min? with
  | none => .error .valueError
  | some mc => picks c ((c.shN s.sel.length (an.filter fun q => s.cnt q == mc)).take (k - s.sel.length)) s

/-- The `while` loop. -/
def rounds (c : NConf K) (k : ℕ) : ℕ → NState → Py NState
  | fuel, s =>
    if s.sel.length < k then
      match fuel with
      | 0 => .error .recursion
      | fuel + 1 =>
        match round c k s with
        | .error e => .error e
        | .ok s' => rounds c k fuel s'
    else .ok s

/-- `niching(pop, k, niches, distances, niche_counts)`, lines 465-511: positions of the selected individuals. -/
def niching (c : NConf K) (k : ℕ) (base : ℕ → ℕ) : Py (List ℕ) :=
  match rounds c k (k + 1) { avail := fun _ => true, cnt := base, sel := [] } with
  | .error e => .error e
  | .ok s => .ok s.sel

/-- `NSGAIII.select`, `nsgaIII.py` lines 107-169.  `assoc` gives niche and distance of every individual of the sorted fronts, computed from their
fitness vectors (lines 136-151). -/
def selectIII (log : Bool) (R : ℕ) (assoc : List (List K) → ℕ → ℕ × K) (shN shI : ℕ → List ℕ → List ℕ) (vals : List (List K)) (k : ℕ) : Py (List ℕ) :=
  match ndSort log vals k with
  | .error e => .error e
  | .ok fronts =>
    match fronts.getLast? with
    | none => .error .valueError
    | some last =>
      let a := assoc (fronts.flatten.map (val vals))
      let chosen := fronts.dropLast.flatten
      let cnt := fun q => ((List.range chosen.length).map fun p => (a p).1).count q
      match niching { n := last.length, R := R, niche := fun p => (a (chosen.length + p)).1, dist := fun p => (a (chosen.length + p)).2, shN := shN, shI := shI }
          (k - chosen.length) cnt with
      | .error e => .error e
      | .ok sel => .ok (chosen ++ sel.map fun p => last.getD p 0)

/-! ### Specification -/

/-- Occupation of niche `q` after the individuals in `before` have been added. -/
def occ (niche base : ℕ → ℕ) (before : List ℕ) (q : ℕ) : ℕ := base q + (before.map niche).count q

/-- Specification of niching: `sel` lists different individuals; each pick is from a least occupied niche among those of the individuals not
yet picked, and from an empty niche it is the individual closest to the reference direction. -/
structure Greedy (n : ℕ) (niche : ℕ → ℕ) (dist : ℕ → K) (base : ℕ → ℕ) (sel : List ℕ) : Prop where
  nodup : sel.Nodup
  lt : ∀ x ∈ sel, x < n
  least : ∀ (p x : ℕ), sel[p]? = some x → ∀ y < n, y ∉ sel.take p → occ niche base (sel.take p) (niche x) ≤ occ niche base (sel.take p) (niche y)
  closest : ∀ (p x : ℕ), sel[p]? = some x → occ niche base (sel.take p) (niche x) = 0 → ∀ y < n, y ∉ sel.take p → niche y = niche x → dist x ≤ dist y

/-! ### Lemmas -/

theorem argminFirst_spec {d : ℕ → K} {l : List ℕ} {x : ℕ} (h : argminFirst d l = some x) : x ∈ l ∧ ∀ y ∈ l, d x ≤ d y := by
  induction l generalizing x with
  | nil => cases h
  | cons a l ih =>
    rw [argminFirst] at h
    split at h
    · rename_i hn
      cases h
      cases l with
      | nil => simp
      | cons b l =>
        rw [argminFirst] at hn
        split at hn
        · cases hn
        · split_ifs at hn
    · rename_i b hb
      obtain ⟨h1, h2⟩ := ih hb
      split_ifs at h with hlt
      · cases h
        refine ⟨List.mem_cons_of_mem _ h1, ?_⟩
        intro y hy
        rcases List.mem_cons.1 hy with rfl | hy
        · exact hlt.le
        · exact h2 y hy
      · cases h
        refine ⟨List.mem_cons_self, ?_⟩
        intro y hy
        rcases List.mem_cons.1 hy with rfl | hy
        · exact le_rfl
        · exact (not_lt.1 hlt).trans (h2 y hy)

theorem argminFirst_isSome {d : ℕ → K} {l : List ℕ} (h : l ≠ []) : ∃ x, argminFirst d l = some x := by
  cases l with
  | nil => exact absurd rfl h
  | cons a l =>
    rw [argminFirst]
    split
    · exact ⟨_, rfl⟩
    · split_ifs <;> exact ⟨_, rfl⟩

/-- Invariant of the loops. -/
structure NInv (c : NConf K) (base : ℕ → ℕ) (s : NState) : Prop where
  greedy : Greedy c.n c.niche c.dist base s.sel
  avail : ∀ i < c.n, (s.avail i = true ↔ i ∉ s.sel)
  cnt : ∀ q, s.cnt q = occ c.niche base s.sel q

theorem Greedy.snoc {n : ℕ} {niche : ℕ → ℕ} {dist : ℕ → K} {base : ℕ → ℕ} {sel : List ℕ} (h : Greedy n niche dist base sel) {x : ℕ} (hx : x < n)
    (hn : x ∉ sel) (h1 : ∀ y < n, y ∉ sel → occ niche base sel (niche x) ≤ occ niche base sel (niche y))
    (h2 : occ niche base sel (niche x) = 0 → ∀ y < n, y ∉ sel → niche y = niche x → dist x ≤ dist y) : Greedy n niche dist base (sel ++ [x]) := by
  have key : ∀ (p z : ℕ), (sel ++ [x])[p]? = some z → (sel[p]? = some z ∧ (sel ++ [x]).take p = sel.take p) ∨ (z = x ∧ (sel ++ [x]).take p = sel) := by
    intro p z hz
    rcases Nat.lt_or_ge p sel.length with hp | hp
    · left
      rw [List.getElem?_append_left hp] at hz
      exact ⟨hz, by rw [List.take_append_of_le_length (by omega)]⟩
    · right
      rw [List.getElem?_append_right hp] at hz
      have h0 : p - sel.length = 0 := by
        by_contra hc
        rw [List.getElem?_eq_none (by simp; omega)] at hz
        cases hz
      rw [h0] at hz
      have : p = sel.length := by omega
      subst this
      exact ⟨(Option.some.inj hz).symm, by simp⟩
  refine ⟨?_, ?_, ?_, ?_⟩
  · rw [List.nodup_append]
    refine ⟨h.nodup, by simp, ?_⟩
    intro a ha b hb hab
    rw [List.mem_singleton] at hb
    subst hab hb
    exact hn ha
  · intro a ha
    rcases List.mem_append.1 ha with ha | ha
    · exact h.lt a ha
    · rw [List.mem_singleton] at ha
      rw [ha]; exact hx
  · intro p z hz
    rcases key p z hz with ⟨e1, e2⟩ | ⟨rfl, e2⟩
    · rw [e2]; exact h.least p z e1
    · rw [e2]; exact h1
  · intro p z hz
    rcases key p z hz with ⟨e1, e2⟩ | ⟨rfl, e2⟩
    · rw [e2]; exact h.closest p z e1
    · rw [e2]; exact h2

/-- A pick from a niche which is least occupied among the available ones. -/
theorem pick_spec {c : NConf K} (hI : ∀ a l, (c.shI a l).Perm l) {base : ℕ → ℕ} {s : NState} (inv : NInv c base s) {q : ℕ}
    (hq : ∃ i < c.n, s.avail i = true ∧ c.niche i = q) (hmin : ∀ i < c.n, s.avail i = true → s.cnt q ≤ s.cnt (c.niche i)) :
    ∃ s' x, pick c q s = .ok s' ∧ NInv c base s' ∧ s'.sel = s.sel ++ [x] ∧ c.niche x = q ∧ s'.cnt = Function.update s.cnt q (s.cnt q + 1) ∧
      s'.avail = Function.update s.avail x false := by
  have hmem : ∀ y, y ∈ c.shI s.sel.length ((List.range c.n).filter fun i => c.niche i == q && s.avail i) ↔ y < c.n ∧ c.niche y = q ∧ s.avail y = true := by
    intro y
    rw [(hI _ _).mem_iff, List.mem_filter, List.mem_range]
    simp
  have hne : c.shI s.sel.length ((List.range c.n).filter fun i => c.niche i == q && s.avail i) ≠ [] := by
    obtain ⟨i, h1, h2, h3⟩ := hq
    intro e
    have := (hmem i).2 ⟨h1, h3, h2⟩
    rw [e] at this
    simp at this
  have fin : ∀ x, x < c.n → c.niche x = q → s.avail x = true →
      (s.cnt q = 0 → ∀ y < c.n, c.niche y = q → s.avail y = true → c.dist x ≤ c.dist y) →
      NInv c base { avail := Function.update s.avail x false, cnt := Function.update s.cnt q (s.cnt q + 1), sel := s.sel ++ [x] } := by
    intro x hx hxq hxa hcl
    have hxs := (inv.avail x hx).1 hxa
    refine ⟨inv.greedy.snoc hx hxs ?_ ?_, ?_, ?_⟩
    · intro y hy hys
      rw [← inv.cnt, ← inv.cnt, hxq]
      exact hmin y hy ((inv.avail y hy).2 hys)
    · intro h0 y hy hys hyx
      rw [← inv.cnt, hxq] at h0
      exact hcl h0 y hy (hyx.trans hxq) ((inv.avail y hy).2 hys)
    · intro i hi
      simp only [Function.update_apply, List.mem_append, List.mem_singleton, not_or]
      split_ifs with h
      · simp [h]
      · rw [inv.avail i hi]
        simp [h]
    · intro q'
      simp only [occ, Function.update_apply, List.map_append, List.map_singleton, List.count_append]
      have := inv.cnt q'
      unfold occ at this
      split_ifs with h
      · subst h
        rw [this, hxq]
        simp; omega
      · have h0 : List.count q' [q] = 0 := List.count_eq_zero_of_not_mem (by simpa using h)
        rw [this, hxq, h0]
        rfl
  unfold pick
  simp only
  split_ifs with h0
  · obtain ⟨x, hx⟩ := argminFirst_isSome (d := c.dist) hne
    rw [hx]
    obtain ⟨h1, h2⟩ := argminFirst_spec hx
    obtain ⟨e1, e2, e3⟩ := (hmem x).1 h1
    exact ⟨_, x, rfl, fin x e1 e2 e3 (fun _ y hy hyq hya => h2 y ((hmem y).2 ⟨hy, hyq, hya⟩)), rfl, e2, rfl, rfl⟩
  · cases e : c.shI s.sel.length ((List.range c.n).filter fun i => c.niche i == q && s.avail i) with
    | nil => exact absurd e hne
    | cons x t =>
      obtain ⟨e1, e2, e3⟩ := (hmem x).1 (by rw [e]; simp)
      exact ⟨_, x, rfl, fin x e1 e2 e3 (fun h => absurd h h0), rfl, e2, rfl, rfl⟩

/-- The picks of one round. -/
theorem picks_spec {c : NConf K} (hI : ∀ a l, (c.shI a l).Perm l) {base : ℕ → ℕ} {mc : ℕ} : ∀ (qs : List ℕ) {s : NState}, NInv c base s → qs.Nodup →
    (∀ q ∈ qs, s.cnt q = mc ∧ ∃ i < c.n, s.avail i = true ∧ c.niche i = q) → (∀ i < c.n, s.avail i = true → mc ≤ s.cnt (c.niche i)) →
    ∃ s', picks c qs s = .ok s' ∧ NInv c base s' ∧ s'.sel.length = s.sel.length + qs.length := by
  intro qs
  induction qs with
  | nil => intro s inv _ _ _; exact ⟨s, rfl, inv, rfl⟩
  | cons q qs ih =>
    intro s inv hn hq hmin
    obtain ⟨hc, hex⟩ := hq q List.mem_cons_self
    rw [List.nodup_cons] at hn
    obtain ⟨s', x, h1, h2, h3, h4, h5, h6⟩ := pick_spec hI inv hex (by rw [hc]; exact hmin)
    obtain ⟨s'', g1, g2, g3⟩ := ih h2 hn.2 (by
      intro q' hq'
      have hne : q' ≠ q := by rintro rfl; exact hn.1 hq'
      obtain ⟨a1, i, a2, a3, a4⟩ := hq q' (List.mem_cons_of_mem _ hq')
      refine ⟨by rw [h5, Function.update_of_ne hne]; exact a1, i, a2, ?_, a4⟩
      rw [h6, Function.update_of_ne]
      · exact a3
      · rintro rfl
        exact hne (a4.symm.trans h4)) (by
      intro i hi ha
      rw [h6, Function.update_apply] at ha
      split_ifs at ha
      rw [h5, Function.update_apply]
      have := hmin i hi ha
      split_ifs
      · omega
      · exact this)
    refine ⟨s'', by rw [picks, h1]; exact g1, g2, ?_⟩
    rw [g3, h3, List.length_append, List.length_singleton, List.length_cons]
    omega

theorem mem_availNiches {c : NConf K} {s : NState} {q : ℕ} : q ∈ availNiches c s ↔ q < c.R ∧ ∃ i < c.n, s.avail i = true ∧ c.niche i = q := by
  unfold availNiches
  simp [List.mem_filter, List.any_eq_true]

theorem NInv.length_le {c : NConf K} {base : ℕ → ℕ} {s : NState} (inv : NInv c base s) : s.sel.length ≤ c.n := by
  have : s.sel ⊆ List.range c.n := fun x hx => List.mem_range.2 (inv.greedy.lt x hx)
  simpa using (List.subperm_of_subset inv.greedy.nodup this).length_le

theorem NInv.left {c : NConf K} {base : ℕ → ℕ} {s : NState} (inv : NInv c base s) (h : s.sel.length < c.n) : ∃ i < c.n, s.avail i = true := by
  by_contra hcon
  push Not at hcon
  have : List.range c.n ⊆ s.sel := by
    intro i hi
    by_contra hc
    exact hcon i (List.mem_range.1 hi) ((inv.avail i (List.mem_range.1 hi)).2 hc)
  have := (List.subperm_of_subset List.nodup_range this).length_le
  rw [List.length_range] at this
  omega

theorem round_spec {c : NConf K} (hR : ∀ i < c.n, c.niche i < c.R) (hN : ∀ a l, (c.shN a l).Perm l) (hI : ∀ a l, (c.shI a l).Perm l) {base : ℕ → ℕ}
    {k : ℕ} {s : NState} (inv : NInv c base s) (hk : s.sel.length < k) (hn : s.sel.length < c.n) :
    ∃ s', round c k s = .ok s' ∧ NInv c base s' ∧ s.sel.length < s'.sel.length ∧ s'.sel.length ≤ k := by
  obtain ⟨i, hi, ha⟩ := inv.left hn
  have hmi : c.niche i ∈ availNiches c s := mem_availNiches.2 ⟨hR i hi, i, hi, ha, rfl⟩
  have hmne : (availNiches c s).map s.cnt ≠ [] := by
    intro e
    rw [List.map_eq_nil_iff] at e
    rw [e] at hmi
    simp at hmi
  obtain ⟨mc, hmc⟩ : ∃ mc, ((availNiches c s).map s.cnt).min? = some mc := by
    cases e : ((availNiches c s).map s.cnt).min? with
    | none => exact absurd (List.min?_eq_none_iff.1 e) hmne
    | some v => exact ⟨v, rfl⟩
  have hspec := List.min?_eq_some_iff.1 hmc
  have hfilt : ∀ q, q ∈ c.shN s.sel.length ((availNiches c s).filter fun q => s.cnt q == mc) ↔ q ∈ availNiches c s ∧ s.cnt q = mc := by
    intro q
    rw [(hN _ _).mem_iff, List.mem_filter]
    simp
  have hnd : (c.shN s.sel.length ((availNiches c s).filter fun q => s.cnt q == mc)).Nodup := by
    rw [(hN _ _).nodup_iff]
    exact (List.nodup_range.filter _).filter _
  obtain ⟨s', h1, h2, h3⟩ := picks_spec (mc := mc) hI ((c.shN s.sel.length ((availNiches c s).filter fun q => s.cnt q == mc)).take (k - s.sel.length)) inv
    (hnd.sublist (List.take_sublist _ _)) (by
      intro q hq
      obtain ⟨a1, a2⟩ := (hfilt q).1 (List.mem_of_mem_take hq)
      exact ⟨a2, (mem_availNiches.1 a1).2⟩) (by
      intro i hi ha
      exact hspec.2 _ (List.mem_map.2 ⟨_, mem_availNiches.2 ⟨hR i hi, i, hi, ha, rfl⟩, rfl⟩))
  refine ⟨s', ?_, h2, ?_, ?_⟩
  · unfold round
    simp only
    rw [hmc]
    exact h1
  · obtain ⟨q, hq1, hq2⟩ := List.mem_map.1 hspec.1
    have : 0 < (c.shN s.sel.length ((availNiches c s).filter fun q => s.cnt q == mc)).length :=
      List.length_pos_of_mem ((hfilt q).2 ⟨hq1, hq2⟩)
    rw [h3, List.length_take]
    omega
  · rw [h3, List.length_take]
    omega

theorem round_none {c : NConf K} {base : ℕ → ℕ} {k : ℕ} {s : NState} (inv : NInv c base s) (hn : c.n ≤ s.sel.length) : round c k s = .error .valueError := by
  have h0 : availNiches c s = [] := by
    rw [List.eq_nil_iff_forall_not_mem]
    intro q hq
    obtain ⟨_, i, hi, ha, _⟩ := mem_availNiches.1 hq
    have hs := (inv.avail i hi).1 ha
    have : i :: s.sel ⊆ List.range c.n := by
      intro a ha'
      rcases List.mem_cons.1 ha' with rfl | h
      · exact List.mem_range.2 hi
      · exact List.mem_range.2 (inv.greedy.lt a h)
    have := (List.subperm_of_subset (List.nodup_cons.2 ⟨hs, inv.greedy.nodup⟩) this).length_le
    rw [List.length_range, List.length_cons] at this
    omega
  unfold round
  simp only
  rw [h0]
  rfl

theorem rounds_spec {c : NConf K} (hR : ∀ i < c.n, c.niche i < c.R) (hN : ∀ a l, (c.shN a l).Perm l) (hI : ∀ a l, (c.shI a l).Perm l) {base : ℕ → ℕ}
    {k : ℕ} (hk : k ≤ c.n) : ∀ (fuel : ℕ) {s : NState}, NInv c base s → s.sel.length ≤ k → k ≤ s.sel.length + fuel →
    ∃ s', rounds c k fuel s = .ok s' ∧ NInv c base s' ∧ s'.sel.length = k := by
  intro fuel
  induction fuel with
  | zero =>
    intro s inv h1 h2
    refine ⟨s, ?_, inv, by omega⟩
    rw [rounds, if_neg (by omega)]
  | succ fuel ih =>
    intro s inv h1 h2
    by_cases hlt : s.sel.length < k
    · obtain ⟨s', g1, g2, g3, g4⟩ := round_spec hR hN hI inv hlt (by omega)
      obtain ⟨s'', e1, e2, e3⟩ := ih g2 g4 (by omega)
      refine ⟨s'', ?_, e2, e3⟩
      rw [rounds, if_pos hlt, g1]
      exact e1
    · refine ⟨s, ?_, inv, by omega⟩
      rw [rounds, if_neg hlt]

theorem rounds_none {c : NConf K} (hR : ∀ i < c.n, c.niche i < c.R) (hN : ∀ a l, (c.shN a l).Perm l) (hI : ∀ a l, (c.shI a l).Perm l) {base : ℕ → ℕ}
    {k : ℕ} (hk : c.n < k) : ∀ (fuel : ℕ) {s : NState}, NInv c base s → c.n < s.sel.length + fuel → rounds c k fuel s = .error .valueError := by
  intro fuel
  induction fuel with
  | zero =>
    intro s inv h
    have := inv.length_le
    omega
  | succ fuel ih =>
    intro s inv h
    have hle := inv.length_le
    rw [rounds, if_pos (by omega)]
    by_cases hlt : s.sel.length < c.n
    · obtain ⟨s', g1, g2, g3, g4⟩ := round_spec hR hN hI inv (k := k) (by omega) hlt
      rw [g1]
      exact ih g2 (by omega)
    · rw [round_none inv (by omega)]

theorem NInv.init (c : NConf K) (base : ℕ → ℕ) : NInv c base { avail := fun _ => true, cnt := base, sel := [] } := by
  refine ⟨⟨by simp, by simp, by simp, by simp⟩, by simp, by simp [occ]⟩

end

end Neorl.ND

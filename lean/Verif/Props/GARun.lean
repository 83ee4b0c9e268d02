import Verif.GARun
import Mathlib.Tactic.LinearCombination

/-!
# C121: the genetic algorithm started from an input file

The generation loop of `neorl/evolu/runners/ga.py`: where offspring come from, what survives, what is reported, which vectors are
evaluated, and where it fails.
-/

set_option linter.unusedSectionVars false
set_option linter.unusedVariables false

namespace Neorl.GARun

open ES (Ind select cx2point fold MutDraw)

section
variable {K : Type} [Field K] [LinearOrder K] [IsStrictOrderedRing K] [FloorRing K]

/-! ### Specifications -/

/-- `kept` are the `k` best of `off` (all of them if there are fewer), best first. -/
def TopOf (k : ℕ) (off kept : List (Ind K)) : Prop :=
  ∃ rest, (kept ++ rest).Perm off ∧ kept.length = min k off.length ∧ (∀ a ∈ kept, ∀ b ∈ rest, b.fit ≤ a.fit) ∧
    kept.Pairwise (fun a b => b.fit ≤ a.fit)

/-- `s'` is `r` reflected at the ends of `[lo, hi]` until it lies inside. -/
def Reflected (lo hi r s' : K) : Prop :=
  lo ≤ s' ∧ s' ≤ hi ∧ ∃ k : ℤ, s' = r + 2 * k * (hi - lo) ∨ s' = 2 * lo - r + 2 * k * (hi - lo)

/-- One coordinate of a mutation: old value and strategy `x`, `s`, new ones `x'`, `s'`; `e`, `t`, `g` are the draws. -/
def CoordMutated (c : Conf K) (p : Par K) (e t g x s x' s' : K) : Prop :=
  (p.ty = .int ∧ Reflected c.smin c.smax (1 / (1 + (1 - s) / s * e)) s' ∧ (s' ≤ t → x' = x) ∧
    (t < s' → p.lo = p.hi → x' = p.lo) ∧ (t < s' → p.lo < p.hi → x' ≠ x ∧ p.lo ≤ x' ∧ x' ≤ p.hi ∧ ∃ z : ℤ, x' = z)) ∨
  (p.ty = .float ∧ s' = s * e ∧ x' = clamp p.lo p.hi (x + s' * g))

/-- How an offspring comes about: by its number `alpha` it is two-point crossover of two different members, mutation of one member, or a
copy of one. -/
def Child (c : Conf K) (pop : List (Ind K)) (d : Draw K) (v s : List K) : Prop :=
  (d.alpha < c.cxpb ∧ ∃ (i j : ℕ) (p q : Ind K) (a b : ℕ), i ≠ j ∧ pop[i]? = some p ∧ pop[j]? = some q ∧ 1 ≤ a ∧ a < b ∧
    b ≤ c.pars.length ∧ (∀ k : ℕ, v[k]? = if a ≤ k ∧ k < b then q.ind[k]? else p.ind[k]?) ∧
    (∀ k : ℕ, s[k]? = if a ≤ k ∧ k < b then q.strat[k]? else p.strat[k]?)) ∨
  (c.cxpb ≤ d.alpha ∧ d.alpha < c.cxpb + c.mutpb ∧ ∃ p ∈ pop, v.length = p.ind.length ∧ s.length = p.strat.length ∧
    ∀ (k : ℕ) (x r x' r' : K) (pr : Par K), p.ind[k]? = some x → p.strat[k]? = some r → v[k]? = some x' → s[k]? = some r' →
      c.pars[k]? = some pr → CoordMutated c pr (d.md.e k) (d.md.t k) (d.md.g k) x r x' r') ∨
  (c.cxpb ≤ d.alpha ∧ c.cxpb + c.mutpb ≤ d.alpha ∧ ∃ p ∈ pop, v = p.ind ∧ s = p.strat)

/-- The worst `pick.length` members take their vectors from the data set (worst first); fitness and strategy stay as they were. -/
def Replaced (rows : List (List K)) (pick : List ℕ) (kept pop : List (Ind K)) : Prop :=
  pop.length = kept.length ∧ pick.length ≤ kept.length ∧
  ∀ (i : ℕ) (e : Ind K), kept[i]? = some e →
    (i + pick.length < kept.length → pop[i]? = some e) ∧
    (∀ j k : ℕ, i + j + 1 = kept.length → pick[j]? = some k →
      pop[i]? = some { ind := (rows[k]?).getD [], strat := e.strat, fit := e.fit })

/-- Sensible data set. -/
def KbsOK (c : Conf K) : Prop := ∀ rows, c.kbs = some rows → ∀ r ∈ rows, Good c r

/-! ### The operators -/

theorem fold_reflected {lo hi : K} (h : lo < hi) (r : K) : Reflected lo hi r (fold lo hi r) := by
  refine ⟨(ES.fold_mem h.le r).1, (ES.fold_mem h.le r).2, ?_⟩
  have hw : hi - lo ≠ 0 := ne_of_gt (sub_pos.2 h)
  unfold fold
  simp only
  have hy : (r - lo) / (hi - lo) * (hi - lo) = r - lo := div_mul_cancel₀ _ hw
  set y := (r - lo) / (hi - lo)
  have h1 : 0 ≤ y - ⌊y⌋ := by linarith [Int.floor_le y]
  rw [abs_of_nonneg h1]
  split_ifs with he
  · refine ⟨-(⌊y⌋ / 2), Or.inl ?_⟩
    have : (⌊y⌋ : K) = 2 * ((⌊y⌋ / 2 : ℤ) : K) := by
      have : ⌊y⌋ = 2 * (⌊y⌋ / 2) := by omega
      exact_mod_cast this
    push_cast
    rw [this]
    linear_combination hy
  · refine ⟨⌊y⌋ / 2 + 1, Or.inr ?_⟩
    have : (⌊y⌋ : K) = 2 * ((⌊y⌋ / 2 : ℤ) : K) + 1 := by
      have : ⌊y⌋ = 2 * (⌊y⌋ / 2) + 1 := by omega
      exact_mod_cast this
    push_cast
    rw [this]
    linear_combination -hy

theorem clamp_ifs {lo hi : K} (h : lo ≤ hi) (x : K) :
    (if (if x < lo then lo else x) > hi then hi else (if x < lo then lo else x)) = clamp lo hi x := by
  unfold clamp
  by_cases h1 : x < lo
  · simp only [h1, if_true, gt_iff_lt, not_lt.2 h, if_false]
    rw [min_eq_left (h1.le.trans h), max_eq_left h1.le]
  · simp only [h1, if_false, gt_iff_lt]
    split_ifs with h2
    · rw [min_eq_right h2.le, max_eq_right h]
    · rw [min_eq_left (not_lt.1 h2), max_eq_right (not_lt.1 h1)]

theorem mutCoord_spec {c : Conf K} (hP : ParsOK c) (hs : c.smin < c.smax) {d : MutDraw K} {i : ℕ} {xs ys : K × K}
    (h : mutCoord c d i xs = .ok ys) {p : Par K} (hp : c.pars[i]? = some p) :
    CoordMutated c p (d.e i) (d.t i) (d.g i) xs.1 xs.2 ys.1 ys.2 := by
  obtain ⟨q1, q2, q3⟩ := hP p (List.mem_of_getElem? hp)
  simp only [mutCoord, hp] at h
  split at h
  · rename_i ht
    left
    have hr := fold_reflected hs (1 / (1 + (1 - xs.2) / xs.2 * d.e i))
    obtain ⟨l, u, e1, e2⟩ := q2 ht
    have t1 : truncZ p.lo = l := by rw [e1, truncZ_intCast]
    have t2 : truncZ p.hi = u := by rw [e2, truncZ_intCast]
    have t3 : truncZ (p.hi + 1) - 1 = u := by
      rw [e2, show (u : K) + 1 = ((u + 1 : ℤ) : K) by push_cast; ring, truncZ_intCast]; ring
    refine ⟨ht, ?_⟩
    split_ifs at h with h1 h2 h3
    · cases h
      refine ⟨hr, fun h => absurd h1 (not_lt.2 h), fun _ _ => by show ((truncZ p.lo : ℤ) : K) = p.lo; rw [t1, e1], fun _ hlt => ?_⟩
      rw [t1, t2] at h2
      rw [e1, e2, h2] at hlt
      exact absurd hlt (lt_irrefl _)
    · split at h
      · cases h
      · rename_i z hz
        cases h
        rw [t1, t3] at hz
        obtain ⟨-, -, g1, g2, g3⟩ := flipChoice_ok hz
        refine ⟨hr, fun h => absurd h1 (not_lt.2 h), fun _ he => ?_, fun _ _ => ⟨?_, ?_, ?_, z, rfl⟩⟩
        · rw [t1, t2] at h2
          rw [e1, e2] at he
          exact absurd (by exact_mod_cast he) h2
        · intro he
          apply g3
          have : (z : K) = xs.1 := he
          rw [← this, Int.floor_intCast]
        · show p.lo ≤ (z : K); rw [e1]; exact_mod_cast g1
        · show (z : K) ≤ p.hi; rw [e2]; exact_mod_cast g2
    · cases h
      exact ⟨hr, fun _ => rfl, fun h => absurd h h1, fun h => absurd h h1⟩
  · rename_i ht
    right
    cases h
    exact ⟨ht, rfl, clamp_ifs q1 _⟩
  · cases h

theorem genOne_child {c : Conf K} (hP : ParsOK c) (hs : c.smin < c.smax) {pop : List (Ind K)} (hp : PopOK c pop) {d : Draw K}
    {o : List K × List K} (h : genOne c pop d = .ok o) : Child c pop d o.1 o.2 := by
  unfold genOne at h
  simp only at h
  by_cases h1 : d.alpha < c.cxpb
  · left
    rw [if_pos h1] at h
    split_ifs at h with h3
    refine ⟨h1, ?_⟩
    split at h
    · rename_i p q ep eq
      obtain ⟨gp, lp⟩ := hp p (List.mem_of_getElem? ep)
      obtain ⟨gq, lq⟩ := hp q (List.mem_of_getElem? eq)
      split at h
      · cases h
      · rename_i r hr
        cases h
        obtain ⟨a, b, e1, e2, e3, -, -, e4, e5⟩ := cx_parts hr gp.1 gq.1 lp lq
        refine ⟨_, _, p, q, a, b, ?_, ep, eq, e1, e2, e3, e4, e5⟩
        have hn : 2 ≤ pop.length := by omega
        have hk := Nat.mod_lt d.i1 (show 0 < pop.length by omega)
        have hj := Nat.mod_lt d.i2 (show 0 < pop.length - 1 by omega)
        generalize d.i1 % pop.length = k at *
        generalize d.i2 % (pop.length - 1) = j at *
        by_cases hlt : k + 1 + j < pop.length
        · rw [Nat.mod_eq_of_lt hlt]; omega
        · rw [Nat.mod_eq_sub_mod (by omega), Nat.mod_eq_of_lt (by omega)]; omega
    · cases h
  rw [if_neg h1] at h
  by_cases h2 : d.alpha < c.cxpb + c.mutpb
  · right; left
    simp only [h2, if_true] at h
    split at h
    · cases h
    · rename_i p ep
      refine ⟨not_lt.1 h1, h2, p, List.mem_of_getElem? ep, ?_⟩
      obtain ⟨gp, lp⟩ := hp p (List.mem_of_getElem? ep)
      unfold mutES at h
      split_ifs at h with h0
      split at h
      · cases h
      · rename_i l hl
        cases h
        obtain ⟨m1, m2⟩ := mapRows_ok hl
        have hlen : l.length = c.pars.length := by rw [m1, List.length_zip, gp.1, lp, min_self]
        refine ⟨by simp [hlen, gp.1], by simp [hlen, lp, gp.1], ?_⟩
        intro k x r x' r' pr hx hr hx' hr' hpr
        have hkl : k < l.length := by
          have := (List.getElem?_eq_some_iff.1 hx).1
          rw [hlen, ← gp.1]; exact this
        rw [List.getElem?_map, List.getElem?_eq_getElem hkl] at hx'
        rw [List.getElem?_append_left (by simpa using hkl), List.getElem?_map, List.getElem?_eq_getElem hkl] at hr'
        cases hx'; cases hr'
        obtain ⟨xs, hxs, hf⟩ := m2 k l[k] (List.getElem?_eq_getElem hkl)
        rw [Nat.zero_add] at hf
        rw [List.getElem?_zip_eq_some] at hxs
        rw [hx, hr] at hxs
        obtain ⟨z1, z2⟩ := hxs
        cases z1; cases z2
        exact mutCoord_spec hP hs hf hpr
  · right; right
    simp only [h2, if_false] at h
    split at h
    · cases h
    · rename_i p ep
      cases h
      exact ⟨not_lt.1 h1, not_lt.1 h2, p, List.mem_of_getElem? ep, rfl, rfl⟩

theorem select_top (k : ℕ) (off : List (Ind K)) : TopOf k off (select k off) := by
  refine ⟨(sortDesc (fun e : Ind K => e.fit) off).drop k, ?_, by simp [select], ?_, ?_⟩
  · unfold select; rw [List.take_append_drop]; exact sortDesc_perm _ _
  · intro a ha b hb; exact sortDesc_take_drop _ off k ha hb
  · exact (sortDesc_sorted _ off).sublist (List.take_sublist _ _)

theorem foldl_max_spec (l : List K) (f : K) : (l.foldl max f = f ∨ l.foldl max f ∈ l) ∧ f ≤ l.foldl max f ∧ ∀ x ∈ l, x ≤ l.foldl max f := by
  induction l generalizing f with
  | nil => simp
  | cons a l ih =>
    obtain ⟨h1, h2, h3⟩ := ih (max f a)
    refine ⟨?_, (le_max_left f a).trans h2, ?_⟩
    · rcases h1 with h1 | h1
      · rcases max_choice f a with h | h
        · left; show l.foldl max (max f a) = f; rw [h1, h]
        · right; show l.foldl max (max f a) ∈ a :: l; rw [h1, h]; simp
      · right; exact List.mem_cons_of_mem _ h1
    · intro x hx
      rcases List.mem_cons.1 hx with rfl | hx
      · exact (le_max_right _ _).trans h2
      · exact h3 x hx

theorem report_spec {g : ℕ} {kept : List (Ind K)} {r : Report K} (h : report g kept = .ok r) :
    r.gen = g ∧ (∃ e ∈ kept, r.best = e.fit) ∧ (∀ e ∈ kept, e.fit ≤ r.best) ∧
    r.mean * (kept.length : K) = (kept.map (fun e => e.fit)).sum := by
  unfold report at h
  split at h
  · cases h
  · rename_i f fs hf
    cases h
    obtain ⟨h1, h2, h3⟩ := foldl_max_spec fs f
    have hall : ∀ x ∈ kept.map (fun e => e.fit), x ≤ fs.foldl max f := by
      intro x hx
      rw [hf] at hx
      rcases List.mem_cons.1 hx with rfl | hx
      · exact h2
      · exact h3 x hx
    refine ⟨rfl, ?_, fun e he => hall _ (List.mem_map.2 ⟨e, he, rfl⟩), ?_⟩
    · have : fs.foldl max f ∈ kept.map (fun e => e.fit) := by
        rw [hf]
        rcases h1 with h1 | h1
        · rw [h1]; simp
        · exact List.mem_cons_of_mem _ h1
      obtain ⟨e, he, hee⟩ := List.mem_map.1 this
      exact ⟨e, he, hee.symm⟩
    · have hl : (kept.length : K) = (fs.length : K) + 1 := by
        have := congrArg List.length hf
        simp at this
        rw [this]; push_cast; ring
      rw [hf, hl]
      have : (fs.length : K) + 1 ≠ 0 := by positivity
      simp only [List.sum_cons]
      field_simp

theorem replLast_spec {rows : List (List K)} {pick : List ℕ} {kept pop : List (Ind K)}
    (h : replLast (pick.map fun k => (rows[k]?).getD []) kept = .ok pop) : Replaced rows pick kept pop := by
  have hlen := length_replLast h
  unfold replLast at h
  split_ifs at h with h1 h2
  cases h
  rw [List.length_map, not_lt] at h2
  refine ⟨hlen, h2, fun i e he => ?_⟩
  have hi := (List.getElem?_eq_some_iff.1 he).1
  have hrev : ∀ j : ℕ, i + j + 1 = kept.length → kept.reverse[j]? = some e := by
    intro j hj
    rw [List.getElem?_reverse (by omega), show kept.length - 1 - j = i by omega]; exact he
  set L := (List.zipWith (fun r (e : Ind K) => ({ e with ind := r } : Ind K)) (pick.map fun k => (rows[k]?).getD []) kept.reverse) ++
    kept.reverse.drop (pick.map fun k => (rows[k]?).getD []).length with hL
  have hLl : L.length = kept.length := by simp [hL]; omega
  have hz : (List.zipWith (fun r (e : Ind K) => ({ e with ind := r } : Ind K)) (pick.map fun k => (rows[k]?).getD []) kept.reverse).length
      = pick.length := by simp; omega
  constructor
  · intro hlt
    rw [List.getElem?_reverse (by omega), hLl, hL, List.getElem?_append_right (by rw [hz]; omega), hz, List.getElem?_drop, List.length_map,
      show pick.length + (kept.length - 1 - i - pick.length) = kept.length - 1 - i by omega]
    exact hrev _ (by omega)
  · intro j k hj hk
    have hjl := (List.getElem?_eq_some_iff.1 hk).1
    rw [List.getElem?_reverse (by omega), hLl, show kept.length - 1 - i = j by omega, hL, List.getElem?_append_left (by rw [hz]; exact hjl),
      List.getElem?_zipWith, List.getElem?_map, hk, hrev j hj]
    rfl

/-! ### The theorems -/

theorem trunc_bounds {x : K} (h0 : 0 ≤ x) : ((truncZ x).toNat : K) ≤ x ∧ x < ((truncZ x).toNat : K) + 1 := by
  have ez : ((truncZ x).toNat : ℤ) = ⌊x⌋ := by
    rw [truncZ, if_pos h0, Int.toNat_of_nonneg (Int.floor_nonneg.2 h0)]
  have ek : (((truncZ x).toNat : ℕ) : K) = ((⌊x⌋ : ℤ) : K) := by
    rw [← ez, Int.cast_natCast]
  rw [ek]
  exact ⟨Int.floor_le _, Int.lt_floor_add_one _⟩

/-- **C121 (construction).**  The agent is made exactly when both bounds and the types are given with equal lengths; `lambda` is `pop` unless
a positive number was given, the part of the offspring taken from the data set is rounded down, and the other settings are those of the card. -/
theorem C121_construct (a : Card K) :
    ((∃ c, construct a = .ok c) ↔ ∃ lb ub ty, a.lb = some lb ∧ a.ub = some ub ∧ a.ty = some ty ∧ lb.length = ub.length ∧ lb.length = ty.length) ∧
    ∀ c, construct a = .ok c → c.mu = a.pop ∧ (∀ l, a.lam = some l → 0 < l → c.lam = l) ∧ ((∀ l, a.lam = some l → l = 0) → c.lam = a.pop) ∧
      some (c.pars.map fun p => p.lo) = a.lb ∧ some (c.pars.map fun p => p.hi) = a.ub ∧ some (c.pars.map fun p => p.ty) = a.ty ∧
      c.ngen = a.ngen ∧ c.freq = a.freq ∧ c.cxpb = a.cxpb ∧ c.mutpb = a.mutpb ∧ c.smin = a.smin ∧ c.smax = a.smax ∧ c.kbs = a.kbs ∧
      (0 ≤ a.kbsFrac → (c.kbsPop : K) ≤ a.kbsFrac * (c.lam : K) ∧ a.kbsFrac * (c.lam : K) < (c.kbsPop : K) + 1) := by
  constructor
  · constructor
    · rintro ⟨c, h⟩
      unfold construct at h
      simp only at h
      split at h
      · rename_i ty? lb ub h1 h2
        split_ifs at h with h3
        split at h
        · cases h
        · rename_i ty h4
          split_ifs at h with h5
          exact ⟨lb, ub, ty, h1, h2, h4, not_not.1 h3, not_not.1 h5⟩
      · cases h
    · rintro ⟨lb, ub, ty, h1, h2, h3, h4, h5⟩
      unfold construct
      simp only [h1, h2, h3]
      rw [if_neg (not_not.2 h4), if_neg (not_not.2 h5)]
      exact ⟨_, rfl⟩
  · intro c h
    unfold construct at h
    simp only at h
    split at h
    · rename_i ty? lb ub h1 h2
      split_ifs at h with h3
      split at h
      · cases h
      · rename_i ty h4
        split_ifs at h with h5
        cases h
        have e3 : lb.length = ub.length := not_not.1 h3
        have e5 : lb.length = ty.length := not_not.1 h5
        refine ⟨rfl, ?_, ?_, ?_, ?_, ?_, rfl, rfl, rfl, rfl, rfl, rfl, rfl, fun hf => ?_⟩
        · intro l hl hpos; simp [hl, hpos.ne']
        · intro hz
          cases hl : a.lam with
          | none => rfl
          | some l => simp [hz l hl]
        · rw [h1]; congr 1
          apply List.ext_getElem (by simp; omega)
          intro i h1 h2; simp
        · rw [h2]; congr 1
          apply List.ext_getElem (by simp; omega)
          intro i h1 h2; simp
        · rw [h4]; congr 1
          apply List.ext_getElem (by simp; omega)
          intro i h1 h2; simp
        · exact trunc_bounds (mul_nonneg hf (Nat.cast_nonneg _))
    · cases h

/-- **C121 (inside).**  Every vector given to the environment lies within the bounds, with integers for the `int` parameters, and is logged with
its own fitness; in KBS mode this needs a data set of such vectors. -/
theorem C121_inside {c : Conf K} (hP : ParsOK c) (hk : KbsOK c) {fit : List K → K} {d0 : ℕ → InitDraw K}
    (hu : ∀ j i, 0 ≤ (d0 j).u i ∧ (d0 j).u i ≤ 1) {d : ℕ → ℕ → Draw K} {pick : ℕ → List ℕ} (hpk : ∀ g, PickOK c (pick g)) {n : ℕ} {s : State K}
    (h : run c fit d0 d pick n = .ok s) : ∀ e ∈ s.log, Good c e.1 ∧ e.2 = fit e.1 :=
  (run_inv hP hk hu hpk h).2

/-- **C121 (count).**  `lambda` evaluations for the initial population and for every generation. -/
theorem C121_count {c : Conf K} {fit : List K → K} {d0 : ℕ → InitDraw K} {d : ℕ → ℕ → Draw K} {pick : ℕ → List ℕ} {n : ℕ} {s : State K}
    (h : run c fit d0 d pick n = .ok s) : s.log.length = c.lam * (n + 1) := by
  induction n generalizing s with
  | zero =>
    simp only [run] at h
    split at h
    · cases h
    · rename_i p hp
      cases h
      unfold initPop at hp
      split at hp
      · cases hp
      · rename_i l hl
        cases hp
        simp [(mapRows_range hl).1]
  | succ n ih =>
    simp only [run] at h
    split at h
    · cases h
    · rename_i s0 hs0
      obtain ⟨os, hos, off, hoff, -, -, hlog⟩ := gen_split h
      rw [hlog, List.length_append, ih hs0, List.length_map, hoff, List.length_map, (mapRows_range hos).1]
      ring

/-- **C121 (generation).**  What generation `n + 1` does to the state: `lambda` offspring, the `k`-th made from the population as its draws say;
the `pop` best of them, and nothing else, survive; the report, if one is due, gives the greatest fitness among all offspring and the mean of
the survivors; then, in KBS mode only, the worst survivors get vectors from the data set. -/
theorem C121_generation {c : Conf K} (hP : ParsOK c) (hs : c.smin < c.smax) (hk : KbsOK c) {fit : List K → K} {d0 : ℕ → InitDraw K}
    (hu : ∀ j i, 0 ≤ (d0 j).u i ∧ (d0 j).u i ≤ 1) {d : ℕ → ℕ → Draw K} {pick : ℕ → List ℕ} (hpk : ∀ g, PickOK c (pick g)) {n : ℕ} {s' : State K}
    (h : run c fit d0 d pick (n + 1) = .ok s') :
    ∃ s, run c fit d0 d pick n = .ok s ∧ ∃ off kept : List (Ind K), off.length = c.lam ∧
      (∀ (k : ℕ) (e : Ind K), off[k]? = some e → Child c s.pop (d (n + 1) k) e.ind e.strat ∧ e.fit = fit e.ind) ∧
      s'.log = s.log ++ off.map (fun e => (e.ind, e.fit)) ∧ TopOf c.mu off kept ∧
      (¬ (n + 1) % c.freq = 0 ∧ n + 1 ≠ c.ngen → s'.reports = s.reports) ∧
      ((n + 1) % c.freq = 0 ∨ n + 1 = c.ngen → ∃ r : Report K, s'.reports = s.reports ++ [r] ∧ r.gen = n + 1 ∧ (∃ e ∈ off, r.best = e.fit) ∧
        (∀ e ∈ off, e.fit ≤ r.best) ∧ r.mean * (kept.length : K) = (kept.map (fun e => e.fit)).sum) ∧
      (c.kbs = none → s'.pop = kept) ∧ (∀ rows, c.kbs = some rows → Replaced rows (pick (n + 1)) kept s'.pop) := by
  simp only [run] at h
  split at h
  · cases h
  · rename_i s hs0
    obtain ⟨i1, -⟩ := run_inv hP hk hu hpk hs0
    obtain ⟨os, hos, off, hoff, hmon, hpop, hlog⟩ := gen_split h
    obtain ⟨l1, l2⟩ := mapRows_range hos
    have htop := select_top c.mu off
    refine ⟨s, hs0, off, select c.mu off, by rw [hoff, List.length_map, l1], ?_, hlog, htop, ?_, ?_, ?_, ?_⟩
    · intro k e he
      rw [hoff, List.getElem?_map] at he
      cases ho : os[k]? with
      | none => rw [ho] at he; cases he
      | some o =>
        rw [ho] at he; cases he
        exact ⟨genOne_child hP hs i1 (l2 k o ho), rfl⟩
    · rintro ⟨g1, g2⟩
      unfold monitor at hmon
      split_ifs at hmon with f1 f2
      · exact absurd f2 (by simp [g1, g2])
      · injection hmon with hmon; exact hmon.symm
    · intro hd
      unfold monitor at hmon
      split_ifs at hmon with f1
      split at hmon
      · cases hmon
      · rename_i r hr
        obtain ⟨r1, ⟨e, he, re⟩, r3, r4⟩ := report_spec hr
        injection hmon with hmon
        refine ⟨r, hmon.symm, r1, ⟨e, mem_select he, re⟩, ?_, r4⟩
        intro x hx
        obtain ⟨rest, hperm, -, hbest, -⟩ := htop
        rcases List.mem_append.1 (hperm.mem_iff.2 hx) with hx | hx
        · exact r3 x hx
        · exact (hbest e he x hx).trans (r3 e he)
    · intro hn
      unfold kbsStep at hpop
      rw [hn] at hpop
      injection hpop with hpop; exact hpop.symm
    · intro rows hr
      unfold kbsStep at hpop
      rw [hr] at hpop
      simp only at hpop
      split_ifs at hpop with f1
      rw [← (hpk (n + 1) rows hr).1, List.take_length] at hpop
      exact replLast_spec hpop

/-- The generations with a report. -/
def due (c : Conf K) (n : ℕ) : List ℕ := (List.range' 1 n).filter fun g => g % c.freq == 0 || g == c.ngen

/-- **C121 (reports).**  After `n` generations there is one report for every multiple of `check_freq` and one for the last generation, in order; each
gives the greatest fitness among the `lambda` evaluations of its own generation. -/
theorem C121_reports {c : Conf K} {fit : List K → K} {d0 : ℕ → InitDraw K} {d : ℕ → ℕ → Draw K} {pick : ℕ → List ℕ} {n : ℕ} {s : State K}
    (h : run c fit d0 d pick n = .ok s) :
    s.reports.map (fun r => r.gen) = due c n ∧
    ∀ r ∈ s.reports, ∃ blk, blk = (s.log.drop (c.lam * r.gen)).take c.lam ∧ (∃ e ∈ blk, r.best = e.2) ∧ ∀ e ∈ blk, e.2 ≤ r.best := by
  induction n generalizing s with
  | zero =>
    simp only [run] at h
    split at h
    · cases h
    · cases h; simp [due]
  | succ n ih =>
    have hcount := C121_count h
    simp only [run] at h
    split at h
    · cases h
    · rename_i s0 hs0
      obtain ⟨i1, i2⟩ := ih hs0
      have hcount0 := C121_count hs0
      obtain ⟨os, hos, off, hoff, hmon, -, hlog⟩ := gen_split h
      have hol : off.length = c.lam := by rw [hoff, List.length_map, (mapRows_range hos).1]
      have hdue : due c (n + 1) = due c n ++ (if (n + 1) % c.freq = 0 ∨ n + 1 = c.ngen then [n + 1] else []) := by
        unfold due
        rw [List.range'_concat, List.filter_append]
        congr 1
        by_cases hh : (n + 1) % c.freq = 0 ∨ n + 1 = c.ngen
        · rw [if_pos hh]
          rw [List.filter_cons_of_pos (by rw [show 1 + 1 * n = n + 1 by ring]; simpa using hh), List.filter_nil, show 1 + 1 * n = n + 1 by ring]
        · rw [if_neg hh]
          rw [List.filter_cons_of_neg (by rw [show 1 + 1 * n = n + 1 by ring]; simpa using hh), List.filter_nil]
      have hgen : ∀ r ∈ s0.reports, r.gen ≤ n := by
        intro r hr
        have : r.gen ∈ due c n := by rw [← i1]; exact List.mem_map.2 ⟨r, hr, rfl⟩
        have := (List.mem_filter.1 this).1
        rw [List.mem_range'_1] at this; omega
      have hold : ∀ r ∈ s0.reports, ∃ blk, blk = (s.log.drop (c.lam * r.gen)).take c.lam ∧ (∃ e ∈ blk, r.best = e.2) ∧ ∀ e ∈ blk, e.2 ≤ r.best := by
        intro r hr
        obtain ⟨blk, hb, h1, h2⟩ := i2 r hr
        refine ⟨blk, ?_, h1, h2⟩
        have hle : c.lam * r.gen + c.lam ≤ s0.log.length := by
          rw [hcount0]
          have := Nat.mul_le_mul_left c.lam (hgen r hr)
          rw [Nat.mul_add]; omega
        rw [hlog, List.drop_append_of_le_length (by omega), List.take_append_of_le_length (by rw [List.length_drop]; omega)]
        exact hb
      unfold monitor at hmon
      split_ifs at hmon with f1 f2
      · split at hmon
        · cases hmon
        · rename_i r hr
          injection hmon with hmon
          obtain ⟨r1, ⟨e, he, re⟩, r3, -⟩ := report_spec hr
          rw [← hmon]
          refine ⟨by rw [hdue, if_pos f2, List.map_append, i1]; simp [r1], ?_⟩
          intro q hq
          rcases List.mem_append.1 hq with hq | hq
          · exact hold q hq
          · rw [List.mem_singleton] at hq
            subst hq
            refine ⟨off.map (fun e => (e.ind, e.fit)), ?_, ⟨(e.ind, e.fit), List.mem_map.2 ⟨e, mem_select he, rfl⟩, re⟩, ?_⟩
            · rw [hlog, r1, List.drop_left' hcount0, List.take_of_length_le (by simp [hol])]
            · intro x hx
              obtain ⟨y, hy, rfl⟩ := List.mem_map.1 hx
              obtain ⟨rest, hperm, -, hbest, -⟩ := select_top c.mu off
              rcases List.mem_append.1 (hperm.mem_iff.2 hy) with hy | hy
              · exact r3 y hy
              · exact (hbest e he y hy).trans (r3 e he)
      · injection hmon with hmon
        rw [← hmon]
        exact ⟨by rw [hdue, if_neg f2, i1, List.append_nil], hold⟩

/-- A strategy vector: int entries within `[smin, smax]`, float entries positive. -/
def StepsOK (c : Conf K) (s : List K) : Prop :=
  ∀ (i : ℕ) (v : K) (p : Par K), s[i]? = some v → c.pars[i]? = some p → (p.ty = .int → c.smin ≤ v ∧ v ≤ c.smax) ∧ 0 < v

/-- **C121 (steps).**  Throughout, the strategies of `int` parameters stay within `[smin, smax]` and all strategies are positive. -/
theorem C121_steps {c : Conf K} (hP : ParsOK c) (h0 : 0 < c.smin) (hs : c.smin < c.smax) (hk : KbsOK c) {fit : List K → K}
    {d0 : ℕ → InitDraw K} (hu : ∀ j i, 0 ≤ (d0 j).u i ∧ (d0 j).u i ≤ 1) (hv : ∀ j i, 0 ≤ (d0 j).s i ∧ (d0 j).s i ≤ 1) {d : ℕ → ℕ → Draw K}
    (he : ∀ g j i, 0 < (d g j).md.e i) {pick : ℕ → List ℕ} (hpk : ∀ g, PickOK c (pick g)) {n : ℕ} {s : State K}
    (h : run c fit d0 d pick n = .ok s) : ∀ x ∈ s.pop, StepsOK c x.strat := by
  induction n generalizing s with
  | zero =>
    simp only [run] at h
    split at h
    · cases h
    · rename_i p hp
      cases h
      unfold initPop at hp
      split at hp
      · cases hp
      · rename_i l hl
        cases hp
        intro x hx
        obtain ⟨o, ho, rfl⟩ := List.mem_map.1 hx
        obtain ⟨k, hk'⟩ := List.mem_iff_getElem?.1 ho
        have hg := (mapRows_range hl).2 k o hk'
        have hstrat : o.2 = (List.range c.pars.length).map fun i => c.smin + (c.smax - c.smin) * (d0 k).s i := by
          unfold genES at hg
          simp only at hg
          split at hg
          · split_ifs at hg
            split at hg
            · cases hg; rfl
            · cases hg
          · split at hg
            · cases hg
            · cases hg; rfl
        intro i v p hi hpi
        simp only [hstrat, List.getElem?_map] at hi
        rw [List.getElem?_range (List.getElem?_eq_some_iff.1 hpi).1] at hi
        cases hi
        obtain ⟨v1, v2⟩ := hv k i
        have hlo : c.smin ≤ c.smin + (c.smax - c.smin) * (d0 k).s i := by nlinarith
        exact ⟨fun _ => ⟨hlo, by nlinarith⟩, lt_of_lt_of_le h0 hlo⟩
  | succ n ih =>
    obtain ⟨s0, hs0, off, kept, hlen, hchild, -, htop, -, -, hnone, hsome⟩ := C121_generation hP hs hk hu hpk h
    have hpop0 := ih hs0
    obtain ⟨hok, -⟩ := run_inv hP hk hu hpk hs0
    have hoff : ∀ e ∈ off, StepsOK c e.strat := by
      intro e hee
      obtain ⟨k, hk'⟩ := List.mem_iff_getElem?.1 hee
      obtain ⟨hc, -⟩ := hchild k e hk'
      intro i v p hi hpi
      rcases hc with ⟨-, a, b, x, y, pa, pb, -, hx, hy, -, -, -, -, hst⟩ | ⟨-, -, x, hx, hl1, hl2, hm⟩ | ⟨-, -, x, hx, -, hst⟩
      · rw [hst] at hi
        split_ifs at hi
        · exact hpop0 y (List.mem_of_getElem? hy) i v p hi hpi
        · exact hpop0 x (List.mem_of_getElem? hx) i v p hi hpi
      · obtain ⟨gx, lx⟩ := hok x hx
        have hip := (List.getElem?_eq_some_iff.1 hpi).1
        have a1 : x.ind[i]? = some (x.ind[i]'(by rw [gx.1]; exact hip)) := List.getElem?_eq_getElem _
        have a2 : x.strat[i]? = some (x.strat[i]'(by rw [lx]; exact hip)) := List.getElem?_eq_getElem _
        have a3 : e.ind[i]? = some (e.ind[i]'(by rw [hl1, gx.1]; exact hip)) := List.getElem?_eq_getElem _
        rcases hm i _ _ _ v p a1 a2 a3 hi hpi with ⟨ht, ⟨r1, r2, -⟩, -⟩ | ⟨ht, hr, -⟩
        · exact ⟨fun _ => ⟨r1, r2⟩, lt_of_lt_of_le h0 r1⟩
        · refine ⟨fun h => (by rw [ht] at h; cases h), ?_⟩
          rw [hr]
          exact mul_pos (hpop0 x hx i _ p a2 hpi).2 (he _ _ _)
      · rw [hst] at hi
        exact hpop0 x hx i v p hi hpi
    have hkept : ∀ e ∈ kept, StepsOK c e.strat := by
      intro e hee
      obtain ⟨rest, hperm, -⟩ := htop
      exact hoff e (hperm.mem_iff.1 (List.mem_append_left _ hee))
    intro x hx
    cases hc : c.kbs with
    | none => rw [hnone hc] at hx; exact hkept x hx
    | some rows =>
      obtain ⟨r1, r2, r3⟩ := hsome rows hc
      obtain ⟨k, hk'⟩ := List.mem_iff_getElem?.1 hx
      have hkl : k < kept.length := by rw [← r1]; exact (List.getElem?_eq_some_iff.1 hk').1
      obtain ⟨r4, r5⟩ := r3 k kept[k] (List.getElem?_eq_getElem hkl)
      by_cases hlt : k + (pick (n + 1)).length < kept.length
      · have := r4 hlt
        rw [hk'] at this
        cases this
        exact hkept _ (List.getElem_mem hkl)
      · have hj : kept.length - 1 - k < (pick (n + 1)).length := by omega
        have := r5 (kept.length - 1 - k) _ (by omega) (List.getElem?_eq_getElem hj)
        rw [hk'] at this
        cases this
        exact hkept kept[k] (List.getElem_mem hkl)

theorem mutCoord_total {c : Conf K} (hP : ParsOK c) (d : MutDraw K) {i : ℕ} {xs : K × K} {p : Par K} (hp : c.pars[i]? = some p)
    (hx : p.lo ≤ xs.1 ∧ xs.1 ≤ p.hi ∧ (p.ty = .int → ∃ z : ℤ, xs.1 = z)) : ∃ ys, mutCoord c d i xs = .ok ys := by
  obtain ⟨q1, q2, q3⟩ := hP p (List.mem_of_getElem? hp)
  obtain ⟨x1, x2, x3⟩ := hx
  simp only [mutCoord, hp]
  rcases q3 with ht | ht
  · simp only [ht]
    obtain ⟨l, u, e1, e2⟩ := q2 ht
    obtain ⟨z, hz⟩ := x3 ht
    have t1 : truncZ p.lo = l := by rw [e1, truncZ_intCast]
    have t2 : truncZ p.hi = u := by rw [e2, truncZ_intCast]
    have t3 : truncZ (p.hi + 1) - 1 = u := by
      rw [e2, show (u : K) + 1 = ((u + 1 : ℤ) : K) by push_cast; ring, truncZ_intCast]; ring
    split_ifs with h1 h2 h3
    · exact ⟨_, rfl⟩
    · rw [t1, t3, hz, Int.floor_intCast]
      rw [t1, t2] at h2
      have hlu : l ≤ u := by rw [e1, e2] at q1; exact_mod_cast q1
      have hm := Nat.mod_lt (d.pick i) (show 0 < (u - l).toNat by omega)
      obtain ⟨r, hr⟩ := flipChoice_total (lb := l) (ub := u) (cur := z) (by rw [e1, hz] at x1; exact_mod_cast x1)
        (by rw [e2, hz] at x2; exact_mod_cast x2) (pick := d.pick i % (u - l).toNat) (by omega)
      rw [hr]; exact ⟨_, rfl⟩
    · exact absurd (by rw [hz, Int.floor_intCast]) h3
    · exact ⟨_, rfl⟩
  · simp only [ht]
    exact ⟨_, rfl⟩

theorem mapRows_total_idx {X Y : Type} {f : ℕ → X → Py Y} {xs : List X} {i : ℕ} (h : ∀ (k : ℕ) (x : X), xs[k]? = some x → ∃ y, f (i + k) x = .ok y) :
    ∃ ys, mapRows f i xs = .ok ys := by
  induction xs generalizing i with
  | nil => exact ⟨[], rfl⟩
  | cons x xs ih =>
    obtain ⟨y, hy⟩ := h 0 x rfl
    obtain ⟨ys, hys⟩ := ih (i := i + 1) (fun k z hz => by rw [show i + 1 + k = i + (k + 1) by ring]; exact h (k + 1) z (by simpa using hz))
    rw [Nat.add_zero] at hy
    exact ⟨y :: ys, by simp [mapRows, hy, hys]⟩

theorem genOne_total {c : Conf K} (hP : ParsOK c) (hn : 2 ≤ c.pars.length) {pop : List (Ind K)} (hp : PopOK c pop) (hl : 2 ≤ pop.length)
    (d : Draw K) : ∃ o, genOne c pop d = .ok o := by
  unfold genOne
  simp only
  have k1 := Nat.mod_lt d.i1 (show 0 < pop.length by omega)
  rw [List.getElem?_eq_getElem k1, List.getElem?_eq_getElem (Nat.mod_lt _ (show 0 < pop.length by omega))]
  obtain ⟨g1, l1⟩ := hp _ (List.getElem_mem k1)
  split_ifs with h1 h2 h3
  · omega
  · simp only
    obtain ⟨g2, l2⟩ := hp _ (List.getElem_mem (Nat.mod_lt (d.i1 % pop.length + 1 + d.i2 % (pop.length - 1)) (show 0 < pop.length by omega)))
    unfold cx2point ES.cxPoints
    rw [g1.1, g2.1, min_self, if_neg (by omega)]
    exact ⟨_, rfl⟩
  · simp only
    unfold mutES
    rw [if_neg (by rw [g1.1, l1]; omega)]
    obtain ⟨ys, hys⟩ := mapRows_total_idx (f := mutCoord c d.md) (i := 0) (xs := List.zip pop[d.i1 % pop.length].ind pop[d.i1 % pop.length].strat) (by
      intro k x hx
      rw [Nat.zero_add]
      rw [List.getElem?_zip_eq_some] at hx
      have hk : k < c.pars.length := by rw [← g1.1]; exact (List.getElem?_eq_some_iff.1 hx.1).1
      exact mutCoord_total hP d.md (List.getElem?_eq_getElem hk) (g1.2 k x.1 _ hx.1 (List.getElem?_eq_getElem hk)))
    rw [hys]
    exact ⟨_, rfl⟩
  · exact ⟨_, rfl⟩

/-- **C121 (total).**  With at least two parameters, two survivors and two offspring, sensible parameters, `check_freq` at least one and, in KBS mode, more
rows than `lambda` and no more replacements than survivors, a run of any length comes to its end. -/
theorem C121_total {c : Conf K} (hP : ParsOK c) (hn : 2 ≤ c.pars.length) (hm : 2 ≤ c.mu) (hl : 2 ≤ c.lam) (hf : 1 ≤ c.freq)
    (hk : KbsOK c) (hr : ∀ rows, c.kbs = some rows → c.lam < rows.length ∧ c.kbsPop ≤ min c.mu c.lam) (fit : List K → K)
    {d0 : ℕ → InitDraw K} (hu : ∀ j i, 0 ≤ (d0 j).u i ∧ (d0 j).u i ≤ 1) (d : ℕ → ℕ → Draw K) {pick : ℕ → List ℕ} (hpk : ∀ g, PickOK c (pick g))
    (n : ℕ) : ∃ s, run c fit d0 d pick n = .ok s ∧ 2 ≤ s.pop.length := by
  induction n with
  | zero =>
    have hg : ∀ i, ∃ o, genES c (d0 i) = .ok o := by
      intro i
      unfold genES
      simp only
      cases hc : c.kbs with
      | some rows =>
        simp only
        have := (hr rows hc).1
        rw [if_pos this, List.getElem?_eq_getElem (Nat.mod_lt _ (by omega))]
        exact ⟨_, rfl⟩
      | none =>
        simp only
        obtain ⟨ys, hys⟩ := mapRows_total (f := genCoord (d0 i)) (i := 0) (xs := c.pars) (P := fun p => p ∈ c.pars) (fun x hx => hx) (by
          intro k p hp
          obtain ⟨q1, q2, q3⟩ := hP p hp
          unfold genCoord
          rcases q3 with ht | ht
          · rw [ht]
            obtain ⟨l, u, e1, e2⟩ := q2 ht
            simp only
            rw [if_pos ⟨by rw [e1, Int.floor_intCast], by rw [e2, Int.floor_intCast], q1⟩]
            exact ⟨_, rfl⟩
          · rw [ht]; exact ⟨_, rfl⟩)
        rw [hys]; exact ⟨_, rfl⟩
    obtain ⟨ys, hys⟩ := mapRows_total (f := fun _ i => genES c (d0 i)) (i := 0) (xs := List.range c.lam) (P := fun _ => True)
      (fun _ _ => trivial) (fun _ i _ => hg i)
    simp only [run, initPop, hys]
    refine ⟨_, rfl, ?_⟩
    simp [(mapRows_range hys).1, hl]
  | succ n ih =>
    obtain ⟨s, hs, hlen⟩ := ih
    obtain ⟨hok, -⟩ := run_inv hP hk hu hpk hs
    obtain ⟨os, hos⟩ := mapRows_total (f := fun _ i => genOne c s.pop (d (n + 1) i)) (i := 0) (xs := List.range c.lam) (P := fun _ => True)
      (fun _ _ => trivial) (fun _ i _ => genOne_total hP hn hok hlen (d (n + 1) i))
    have hol := (mapRows_range hos).1
    set off : List (Ind K) := os.map fun o => { ind := o.1, strat := o.2, fit := fit o.1 } with hoff
    have hkl : (select c.mu off).length = min c.mu c.lam := by simp [select, hoff, hol]
    have hmon : ∃ rs, monitor c (n + 1) (select c.mu off) s.reports = .ok rs := by
      unfold monitor
      rw [if_neg (by omega)]
      split_ifs
      · unfold report
        cases hc : select c.mu off with
        | nil => rw [hc] at hkl; simp at hkl; omega
        | cons e es => exact ⟨_, rfl⟩
      · exact ⟨_, rfl⟩
    have hkb : ∃ p, kbsStep c (pick (n + 1)) (select c.mu off) = .ok p ∧ 2 ≤ p.length := by
      unfold kbsStep
      cases hc : c.kbs with
      | none => exact ⟨_, rfl, by rw [hkl]; omega⟩
      | some rows =>
        simp only
        obtain ⟨r1, r2⟩ := hr rows hc
        rw [if_neg (by omega)]
        have hne : select c.mu off ≠ [] := by intro h; rw [h] at hkl; simp at hkl; omega
        have hex : ∃ p, replLast (((pick (n + 1)).take c.kbsPop).map fun k => (rows[k]?).getD []) (select c.mu off) = .ok p := by
          unfold replLast
          rw [if_neg hne, if_neg (by rw [hkl]; simp; omega)]
          exact ⟨_, rfl⟩
        obtain ⟨p, hp⟩ := hex
        exact ⟨p, hp, by rw [length_replLast hp, hkl]; omega⟩
    obtain ⟨rs, hrs⟩ := hmon
    obtain ⟨p, hp, hpl⟩ := hkb
    refine ⟨{ pop := p, log := s.log ++ off.map (fun e => (e.ind, e.fit)), reports := rs }, ?_, hpl⟩
    simp only [run, hs, gen, genOffspring, hos]
    rw [← hoff, hrs]
    simp only [hp]

/-- **C121 (single; defect).**  With one survivor the first crossover of a later generation fails; so does crossover of one-parameter vectors. -/
theorem C121_single (c : Conf K) (pop : List (Ind K)) (d : Draw K) (hd : d.alpha < c.cxpb)
    (h : pop.length ≤ 1 ∨ (∀ e ∈ pop, e.ind.length ≤ 1)) : genOne c pop d = .error .valueError := by
  unfold genOne
  simp only
  rw [if_pos hd]
  split_ifs with h1
  · rfl
  · rcases h with h | h
    · omega
    · have hn : 0 < pop.length := by omega
      rw [List.getElem?_eq_getElem (Nat.mod_lt _ hn), List.getElem?_eq_getElem (Nat.mod_lt _ hn)]
      simp only
      unfold cx2point ES.cxPoints
      have := h _ (List.getElem_mem (Nat.mod_lt d.i1 hn))
      rw [if_pos (by omega)]

/-- **C121 (grid; defect).**  A `grid` parameter, announced by the error message as allowed, fails at the first individual. -/
theorem C121_grid {c : Conf K} (hk : c.kbs = none) (hl : 0 < c.lam) {i : ℕ} {p : Par K} (hp : c.pars[i]? = some p) (ht : p.ty = .grid)
    (fit : List K → K) (d0 : ℕ → InitDraw K) : ∃ e, initPop c fit d0 = .error e := by
  cases h : initPop c fit d0 with
  | error e => exact ⟨e, rfl⟩
  | ok l =>
    exfalso
    unfold initPop at h
    split at h
    · cases h
    · rename_i l' hl'
      obtain ⟨h1, h2⟩ := mapRows_range hl'
      have hz : 0 < l'.length := by omega
      have hg := h2 0 _ (List.getElem?_eq_getElem hz)
      unfold genES at hg
      simp only [hk] at hg
      split at hg
      · cases hg
      · rename_i v hv
        obtain ⟨m1, m2⟩ := mapRows_ok hv
        have hi : i < v.length := by rw [m1]; exact (List.getElem?_eq_some_iff.1 hp).1
        obtain ⟨q, hq, hf⟩ := m2 i _ (List.getElem?_eq_getElem hi)
        rw [hp] at hq; cases hq
        simp only [genCoord, ht] at hf
        cases hf

/-- **C121 (kbs; defect).**  In KBS mode more replacements than survivors end the run in its first generation, whatever was drawn. -/
theorem C121_kbs {c : Conf K} {rows : List (List K)} (hk : c.kbs = some rows) (hr : min c.mu c.lam < c.kbsPop) (hle : c.kbsPop ≤ rows.length)
    (fit : List K → K) (d0 : ℕ → InitDraw K) (d : ℕ → ℕ → Draw K) {pick : ℕ → List ℕ} (hpk : ∀ g, PickOK c (pick g)) (n : ℕ) :
    ∃ e, run c fit d0 d pick (n + 1) = .error e := by
  induction n with
  | zero =>
    cases h : run c fit d0 d pick 1 with
    | error e => exact ⟨e, rfl⟩
    | ok s =>
      exfalso
      simp only [run] at h
      split at h
      · cases h
      · obtain ⟨os, hos, off, hoff, -, hpop, -⟩ := gen_split h
        have hkl : (select c.mu off).length = min c.mu c.lam := by simp [select, hoff, (mapRows_range hos).1]
        unfold kbsStep replLast at hpop
        simp only [hk] at hpop
        rw [if_neg (by omega)] at hpop
        split_ifs at hpop with f1 f2
        rw [hkl, List.length_map, List.length_take, (hpk _ rows hk).1] at f2
        omega
  | succ n ih =>
    obtain ⟨e, he⟩ := ih
    exact ⟨e, by rw [run, he]⟩

/-- **C121 (foreign; defect).**  Mutating an `int` parameter whose value (from a data set) is not an integer of its range fails. -/
theorem C121_foreign {c : Conf K} {d : MutDraw K} {i : ℕ} {xs : K × K} {p : Par K} (hp : c.pars[i]? = some p) (ht : p.ty = .int) {l u : ℤ}
    (e1 : p.lo = l) (e2 : p.hi = u) (hlu : l < u) (ht' : d.t i < fold c.smin c.smax (1 / (1 + (1 - xs.2) / xs.2 * d.e i)))
    (hx : ∀ z : ℤ, l ≤ z → z ≤ u → xs.1 ≠ z) : mutCoord c d i xs = .error .valueError := by
  have t1 : truncZ p.lo = l := by rw [e1, truncZ_intCast]
  have t2 : truncZ p.hi = u := by rw [e2, truncZ_intCast]
  have t3 : truncZ (p.hi + 1) - 1 = u := by
    rw [e2, show (u : K) + 1 = ((u + 1 : ℤ) : K) by push_cast; ring, truncZ_intCast]; ring
  simp only [mutCoord, hp, ht]
  rw [if_pos ht', if_neg (by rw [t1, t2]; omega)]
  split_ifs with h
  · rw [t1, t3]
    unfold flipChoice
    simp only
    rw [if_neg]
    intro hm
    obtain ⟨m1, m2⟩ := mem_pyRange.1 hm
    exact hx ⌊xs.1⌋ m1 (by omega) h.symm
  · rfl

end

/-! ### Concrete cases -/

section Examples

/-- Two parameters, an integer in `{0..3}` and a number in `[0, 1]`; two survivors of three offspring. -/
def exC : Conf ℚ := { pars := [⟨.int, 0, 3⟩, ⟨.float, 0, 1⟩], mu := 2, lam := 3, ngen := 2, freq := 1, cxpb := 1/2, mutpb := 1/4, smin := 1/100, smax := 1/2, kbs := none, kbsPop := 0 }

def exFit (v : List ℚ) : ℚ := v.sum

def exD0 (j : ℕ) : InitDraw ℚ := { u := fun i => (j : ℚ) / 4, z := fun i => j + i, row := j, s := fun i => 1/2 }

/-- Mutation makes small values here; crossover for the first offspring, mutation for the second, a copy for the third. -/
def exD (g j : ℕ) : Draw ℚ := { alpha := if j = 0 then 1/4 else if j = 1 then 5/8 else 7/8, i1 := j + 1, i2 := 0, a := 0, b := 0, md := { e := fun _ => 1, t := fun _ => 0, pick := fun _ => 0, g := fun _ => -1 } }

theorem exOK : ParsOK exC := by
  intro p hp
  simp only [exC, List.mem_cons, List.not_mem_nil, or_false] at hp
  rcases hp with rfl | rfl
  · exact ⟨by norm_num, fun _ => ⟨0, 3, by norm_num, by norm_num⟩, Or.inl rfl⟩
  · exact ⟨by norm_num, fun h => (by cases h), Or.inr rfl⟩

/-- What a run shows: evaluated vectors with fitness, reports. -/
def shown (r : Py (State ℚ)) : Option (List (List ℚ × ℚ) × List (ℕ × ℚ × ℚ)) :=
  match r with
  | .ok s => some (s.log, s.reports.map fun r => (r.gen, r.best, r.mean))
  | .error _ => none

/-- A run of two generations. -/
example : (shown (run exC exFit exD0 exD (fun _ => []) 2)).map (fun r => r.2) = some [(1, 3/2, 349/400), (2, 1/2, 149/400)] := by decide +kernel

/-- Copies of one survivor only: draws that lose the best. -/
def losD (g j : ℕ) : Draw ℚ := { exD g j with alpha := 7/8, i1 := if g = 1 then j else 1 }

/-- **C121 (lost; defect).**  The reported best can get worse from one generation to the next: the best of generation one need not be among the parents chosen
by lot, and nothing remembers it. -/
theorem C121_lost : ∃ (c : Conf ℚ) (fit : List ℚ → ℚ) (d0 : ℕ → InitDraw ℚ) (d : ℕ → ℕ → Draw ℚ) (s : State ℚ) (r1 r2 : Report ℚ), ParsOK c ∧
    run c fit d0 d (fun _ => []) 2 = .ok s ∧ s.reports = [r1, r2] ∧ r2.best < r1.best := by
  have h : (shown (run exC exFit exD0 losD (fun _ => []) 2)).map (fun r => r.2) = some [(1, 5/2, 15/8), (2, 5/4, 5/4)] := by decide +kernel
  cases hr : run exC exFit exD0 losD (fun _ => []) 2 with
  | error e => rw [hr] at h; cases h
  | ok s =>
    rw [hr] at h
    simp only [shown, Option.map_some, Option.some.injEq] at h
    cases hs : s.reports with
    | nil => rw [hs] at h; cases h
    | cons r1 l1 =>
      cases l1 with
      | nil => rw [hs] at h; simp at h
      | cons r2 l2 =>
        cases l2 with
        | cons r3 l3 => rw [hs] at h; simp at h
        | nil =>
          rw [hs] at h
          simp only [List.map_cons, List.map_nil, List.cons.injEq, Prod.mk.injEq] at h
          exact ⟨exC, exFit, exD0, losD, s, r1, r2, exOK, hr, hs, by rw [h.1.2.1, h.2.1.2.1]; norm_num⟩

/-- One number in `[0, 1]`, one survivor. -/
def wildC : Conf ℚ := { pars := [⟨.float, 0, 1⟩], mu := 1, lam := 1, ngen := 1, freq := 1, cxpb := 0, mutpb := 1, smin := 1/2, smax := 3/2, kbs := none, kbsPop := 0 }

/-- **C121 (wild; defect).**  The strategy of a `float` parameter is not bounded by `smax`: it passes every number. -/
theorem C121_wild (M : ℚ) : ∃ (d0 : ℕ → InitDraw ℚ) (d : ℕ → ℕ → Draw ℚ) (s : State ℚ), (∀ j i, 0 ≤ (d0 j).s i ∧ (d0 j).s i ≤ 1) ∧
    (∀ g j i, 0 < (d g j).md.e i) ∧ run wildC exFit d0 d (fun _ => []) 1 = .ok s ∧ ∃ x ∈ s.pop, ∃ v ∈ x.strat, M < v := by
  refine ⟨fun _ => { u := fun _ => 0, z := fun _ => 0, row := 0, s := fun _ => 1/2 },
    fun _ _ => { alpha := 1/2, i1 := 0, i2 := 0, a := 0, b := 0, md := { e := fun _ => |M| + 1, t := fun _ => 0, pick := fun _ => 0, g := fun _ => 0 } },
    { pop := [{ ind := [0], strat := [|M| + 1], fit := 0 }], log := [([0], 0), ([0], 0)], reports := [⟨1, 0, 0⟩] },
    fun _ _ => by norm_num, fun _ _ _ => by positivity, ?_, { ind := [0], strat := [|M| + 1], fit := 0 }, by simp, |M| + 1, by simp,
    by linarith [le_abs_self M]⟩
  have h : (1 : ℚ) / 2 + (3 / 2 - 1 / 2) * (1 / 2) = 1 := by norm_num
  simp only [run, initPop, genES, gen, genOffspring, genOne, mutES, genCoord, wildC, monitor, kbsStep, mapRows, List.range, List.range.loop, List.map,
    List.length, h]
  norm_num [mapRows, mutCoord, select, sortDesc, report, exFit]

/-- The same with the data set of a KBS run: four rows, the worst survivor gets one. -/
def kbsC : Conf ℚ := { exC with kbs := some [[3, 1], [2, 1], [1, 1], [0, 1]], kbsPop := 1 }

/-- After a generation of a KBS run the replaced survivor carries the fitness of the vector it lost. -/
theorem C121_stale : ∃ (s : State ℚ) (x : Ind ℚ), run kbsC exFit exD0 exD (fun _ => [0]) 1 = .ok s ∧ x ∈ s.pop ∧ x.fit ≠ exFit x.ind := by
  have h : (match run kbsC exFit exD0 exD (fun _ => [0]) 1 with
      | .ok s => s.pop.any (fun x => decide (x.fit ≠ exFit x.ind))
      | .error _ => false) = true := by decide +kernel
  cases hr : run kbsC exFit exD0 exD (fun _ => [0]) 1 with
  | error e => rw [hr] at h; cases h
  | ok s =>
    rw [hr] at h
    obtain ⟨x, hx, hd⟩ := List.any_eq_true.1 h
    exact ⟨s, x, rfl, hx, of_decide_eq_true hd⟩

/-- The hypotheses of the general theorems hold for the two configurations. -/
example : KbsOK exC ∧ 0 < exC.smin ∧ exC.smin < exC.smax ∧ 2 ≤ exC.pars.length ∧ 2 ≤ exC.mu ∧ (∀ g : ℕ, PickOK exC []) :=
  ⟨fun rows h => (by cases h), by norm_num [exC], by norm_num [exC], by decide, by decide, fun _ rows h => (by cases h)⟩

example : ParsOK kbsC ∧ PickOK kbsC [0] ∧ kbsC.kbsPop ≤ min kbsC.mu kbsC.lam ∧ (∀ rows, kbsC.kbs = some rows → kbsC.lam < rows.length) :=
  ⟨exOK, fun rows h => (by cases h; exact ⟨rfl, by decide, by decide⟩), by decide, fun rows h => (by cases h; decide)⟩

example : (due exC 2) = [1, 2] := by decide

/-- A card whose `lambda` is left out. -/
example : (match construct ({ lb := some [0, 0], ub := some [3, 1], ty := some [.int, .float], pop := 2, lam := none, ngen := 1, freq := 1, cxpb := 1/2, mutpb := 1/4, smin := 1/100, smax := 1/2, kbs := none, kbsFrac := 1/10 } : Card ℚ) with
    | .ok c => some (c.lam, c.pars.length)
    | .error _ => none) = some (2, 2) := by decide +kernel

/-- A `grid` parameter. -/
example : initPop { exC with pars := [⟨.grid, 0, 1⟩] } exFit exD0 = .error .typeError := by rfl

/-- More replacements than survivors. -/
example : min kbsC.mu kbsC.lam < ({ kbsC with kbsPop := 3 } : Conf ℚ).kbsPop := by decide

end Examples
end Neorl.GARun

import Verif.Props.EPSO
import Verif.Props.HCLPSOMove

/-!
# Property theorems C55: how EPSO particles move
-/

set_option linter.unusedSectionVars false
set_option linter.unusedVariables false

namespace Neorl.EPSO
open Particles
open HCLPSO (line)
open EDEV (repair worker repair_feasible repair_rows repair_total)

section
variable {K : Type} [Field K] [LinearOrder K] [IsStrictOrderedRing K] [FloorRing K]

/-! ### Specification of the moves -/

/-- Value by which a neighbour `r` of `p` is judged in one coordinate: improvement of the fitness per distance; a neighbour at distance zero offers nothing. -/
def Offers (d : ℕ) (p r : Indv K) (q : K) : Prop :=
  (p.1.getD d 0 = r.1.getD d 0 → q = 0) ∧ (p.1.getD d 0 ≠ r.1.getD d 0 → q * |p.1.getD d 0 - r.1.getD d 0| = p.2 - r.2)

/-- `r` is the first of the first `n` personal bests that offers `p` most in coordinate `d`. -/
def FirstBestOffer (pb : List (Indv K)) (n d : ℕ) (p : Indv K) (r : ℕ) : Prop :=
  r < n ∧ ∃ q, Offers d p (pb.getD r ([], 0)) q ∧
    (∀ r' < n, ∀ q', Offers d p (pb.getD r' ([], 0)) q' → q' ≤ q) ∧ (∀ r' < r, ∀ q', Offers d p (pb.getD r' ([], 0)) q' → q' < q)

/-- What the move reads: velocity and position of the particle in one coordinate, its personal best, the best of all, its exemplar. -/
structure Seen (K : Type) where
  v : K
  x : K
  p : K
  g : K
  e : K

/-- The velocity that strategy `st` proposes in generation `k` of `n` for coordinate `j` of particle `i`. -/
def Proposes (C : Cfg K) (D : Draws K) (pb : List (Indv K)) (k i j : ℕ) (c : Seen K) : ℕ → K → Prop
  | 0, w => w = line (9 / 10) (2 / 10) C.ngen k * c.v + line (5 / 2) (1 / 2) C.ngen k * D.u1 i j * (c.p - c.x) +
      line (1 / 2) (5 / 2) C.ngen k * D.u2 i j * (c.g - c.x)
  | 1, w => ∃ r, (0 < C.g2 → FirstBestOffer pb C.g2 j (pb.getD i ([], 0)) r) ∧
      w = line (9 / 10) (2 / 10) C.ngen k * c.v + D.u1 i j * (c.p - c.x) + D.u2 i j * (c.g - c.x) +
        2 * D.u3 i j * (((pb.getD r ([], 0)).1).getD j 0 - c.x)
  | 2, w => ∀ ub, (C.S.bounds.getD j (0, 0)).2 = ub → 0 ≤ ub →
      let v0 := line (5 / 2) (1 / 2) C.ngen k * D.u1 i j * (c.p - c.x) + line (1 / 2) (5 / 2) C.ngen k * D.u2 i j * (c.g - c.x)
      let v1 := D.z i j * line ub (1 / 10 * ub) C.ngen k
      (v0 ≠ 0 → w = max (-ub) (min ub v0)) ∧
      (v0 = 0 → D.coin i j < 1 / 2 → w = max (-ub) (min ub v1)) ∧ (v0 = 0 → 1 / 2 ≤ D.coin i j → w = max (-ub) (min ub (-v1)))
  | 3, w => D.fi i 0 j + D.fi i 1 j + D.fi i 2 j ≠ 0 →
      w = 7298 / 10000 * (c.v + (41 / 30) * (D.fi i 0 j * (((pb.getD (D.near i 0) ([], 0)).1).getD j 0 - c.x) +
        D.fi i 1 j * (((pb.getD (D.near i 1) ([], 0)).1).getD j 0 - c.x) + D.fi i 2 j * (((pb.getD (D.near i 2) ([], 0)).1).getD j 0 - c.x)))
  | 4, w => w = line (9 / 10) (2 / 10) C.ngen k * c.v + line (5 / 2) (1 / 2) C.ngen k * D.u1 i j * (c.e - c.x) +
      line (1 / 2) (5 / 2) C.ngen k * D.u2 i j * (c.g - c.x)
  | _, _ => False

/-- What the velocity limit makes of a proposal: beyond the limit the limit, inside unchanged. -/
def Limited (lim w v : K) : Prop := (|w| < lim → v = w) ∧ (lim < w → v = lim) ∧ (w < -lim → v = -lim)

/-! ### Lemmas -/

theorem argmaxTo_spec (F : ℕ → K) : ∀ n, 0 < n → argmaxTo F n < n ∧ (∀ r < n, F r ≤ F (argmaxTo F n)) ∧ (∀ r < argmaxTo F n, F r < F (argmaxTo F n)) := by
  intro n
  induction n with
  | zero => intro h; omega
  | succ n ih =>
    intro _
    rcases Nat.eq_zero_or_pos n with rfl | hn
    · have : argmaxTo F 1 = 0 := by simp [argmaxTo]
      rw [this]
      exact ⟨by omega, fun r hr => by rw [show r = 0 by omega], fun r hr => by omega⟩
    · obtain ⟨h1, h2, h3⟩ := ih hn
      rw [argmaxTo]
      split_ifs with hc
      · refine ⟨by omega, fun r hr => ?_, fun r hr => lt_of_le_of_lt (h2 r hr) hc⟩
        rcases Nat.lt_or_ge r n with hlt | hge
        · exact (h2 r hlt).trans hc.le
        · rw [show r = n by omega]
      · refine ⟨by omega, fun r hr => ?_, h3⟩
        rcases Nat.lt_or_ge r n with hlt | hge
        · exact h2 r hlt
        · rw [show r = n by omega]; exact not_lt.1 hc

theorem fdr_offers (pb : List (Indv K)) (i d r : ℕ) : Offers d (pb.getD i ([], 0)) (pb.getD r ([], 0)) (fdr pb i d r) := by
  unfold fdr Offers
  dsimp only
  refine ⟨fun h => ?_, fun h => ?_⟩
  · rw [h, if_pos (by simp)]
  · have : |(pb.getD i ([], 0)).1.getD d 0 - (pb.getD r ([], 0)).1.getD d 0| ≠ 0 := by rw [abs_ne_zero]; exact sub_ne_zero.2 h
    rw [if_neg this, div_mul_cancel₀ _ this]

theorem Offers.unique {d : ℕ} {p r : Indv K} {q q' : K} (h : Offers d p r q) (h' : Offers d p r q') : q = q' := by
  by_cases hc : p.1.getD d 0 = r.1.getD d 0
  · rw [h.1 hc, h'.1 hc]
  · have := (h.2 hc).trans (h'.2 hc).symm
    exact mul_right_cancel₀ (abs_ne_zero.2 (sub_ne_zero.2 hc)) this

/-- The neighbour of FDR-PSO. -/
theorem argmaxTo_offer (pb : List (Indv K)) {n : ℕ} (hn : 0 < n) (i d : ℕ) :
    FirstBestOffer pb n d (pb.getD i ([], 0)) (argmaxTo (fdr pb i d) n) := by
  obtain ⟨h1, h2, h3⟩ := argmaxTo_spec (fdr pb i d) n hn
  refine ⟨h1, _, fdr_offers pb i d _, fun r' hr q' hq => ?_, fun r' hr q' hq => ?_⟩
  · rw [hq.unique (fdr_offers pb i d r')]; exact h2 r' hr
  · rw [hq.unique (fdr_offers pb i d r')]; exact h3 r' hr

theorem hclamp_eq {ub v : K} (h : 0 ≤ ub) : hclamp ub v = max (-ub) (min ub v) := by
  unfold hclamp
  rcases lt_trichotomy v 0 with h1 | rfl | h1
  · rw [if_pos h1, abs_of_neg h1, min_eq_right (h1.le.trans h)]
    rcases le_total (-v) ub with h2 | h2
    · rw [min_eq_left h2, max_eq_right (by linarith)]; ring
    · rw [min_eq_right h2, max_eq_left (by linarith)]; ring
  · simp [h]
  · rw [if_neg (not_lt.2 h1.le), if_neg h1.ne', abs_of_pos h1, one_mul, min_comm, max_eq_right (le_min (by linarith) (by linarith))]

theorem rawVel_proposes (C : Cfg K) (D : Draws K) (pb : List (Indv K)) (gb x v fri : List K) (k i j : ℕ) {st : ℕ} (hst : st < 5) :
    Proposes C D pb k i j ⟨v.getD j 0, x.getD j 0, ((pb.getD i ([], 0)).1).getD j 0, gb.getD j 0, fri.getD j 0⟩ st
      (rawVel C.S C.g2 C.ngen k D pb gb x v fri i st j) := by
  have e1 : ramp (9 / 10) (7 / 10) C.ngen k = line (9 / 10 : K) (2 / 10) C.ngen k := by unfold ramp line; ring
  have e2 : ramp (5 / 2) 2 C.ngen k = line (5 / 2 : K) (1 / 2) C.ngen k := by unfold ramp line; ring
  have e3 : ramp (1 / 2) (-2) C.ngen k = line (1 / 2 : K) (5 / 2) C.ngen k := by unfold ramp line; ring
  interval_cases st
  · simp only [Proposes, rawVel, e1, e2, e3, if_true]; ring
  · refine ⟨argmaxTo (fdr pb i j) C.g2, fun h => argmaxTo_offer pb h i j, ?_⟩
    simp only [rawVel, e1, e2, e3, one_ne_zero, if_true, if_false]; ring
  · intro ub hub h0
    have e4 : ramp ub (9 / 10 * ub) C.ngen k = line ub (1 / 10 * ub) C.ngen k := by unfold ramp line; ring
    simp only [rawVel, hub, e1, e2, e3, e4, hclamp_eq h0, OfNat.ofNat_ne_zero, OfNat.ofNat_ne_one, if_true, if_false]
    refine ⟨fun h => by rw [if_neg h], fun h hc => by rw [if_pos h, if_pos hc], fun h hc => by rw [if_pos h, if_neg (not_lt.2 hc), neg_mul]⟩
  · intro h0
    simp only [rawVel, OfNat.ofNat_ne_zero, OfNat.ofNat_ne_one, if_true, if_false, show (3 : ℕ) ≠ 2 by decide]
    have : (41 / 10 : K) / 3 * D.fi i 0 j + 41 / 10 / 3 * D.fi i 1 j + 41 / 10 / 3 * D.fi i 2 j ≠ 0 := by
      intro hc; apply h0
      have : (41 / 30 : K) * (D.fi i 0 j + D.fi i 1 j + D.fi i 2 j) = 0 := by rw [← hc]; ring
      rcases mul_eq_zero.1 this with h | h
      · norm_num at h
      · exact h
    rw [mul_sub, mul_div_cancel₀ _ this]; ring
  · simp only [Proposes, rawVel, e1, e2, e3, OfNat.ofNat_ne_zero, OfNat.ofNat_ne_one, if_false, show (4 : ℕ) ≠ 2 by decide, show (4 : ℕ) ≠ 3 by decide]; ring

theorem limit_limited {lim : K} (h : 0 < lim) (w : K) : Limited lim w (limit (-lim) lim w) := by
  obtain ⟨t1, t2, t3, -⟩ := limit_spec h w
  exact ⟨fun hq => t3 (abs_lt.1 hq).1 (abs_lt.1 hq).2, t2, t1⟩

/-! ### Theorems -/

/-- **C55 (moves of the adaptive group).**  Every particle from `lo` on moves by exactly one of the five strategies - the one whose interval of the current
probabilities contains its draw: classic PSO, FDR-PSO with the first neighbour offering most fitness per distance, HPSO with restarted zero velocities, LIPS with
three neighbours, or CLPSO with the exemplar - with inertia from 0.9 to 0.2 and pulls between 2.5 and 0.5; the proposal is limited to half the width of the variable and
the new position is the repaired sum. -/
theorem C55_move {C : Cfg K} {pc : ℕ → K} {f : List K → K} {D : Draws K} {k lo : ℕ} {gb : List K} {s t : State K} (hlo : lo ≤ s.fri.length)
    (hp : lo ≤ s.pos.length) (hv : lo ≤ s.vel.length) (h : second C pc f D k lo gb s = .ok t) {i : ℕ} (h1 : lo ≤ i) (h2 : i < C.g) :
    ∃ st < 5, (∃ r, t.roul = some r ∧ r.rk.getD st 0 ≤ D.prob i ∧ D.prob i < r.rk.getD (st + 1) 0) ∧
      (st ≠ 4 → t.fri.getD i [] = s.fri.getD i []) ∧
      (∀ (j : ℕ) (b : K × K), C.S.bounds[j]? = some b → b.1 < b.2 →
        ∃ w, Proposes C D s.mem.pb k i j ⟨at2 s.vel i j, at2 s.pos i j, ((s.mem.pb.getD i ([], 0)).1).getD j 0, gb.getD j 0, at2 t.fri i j⟩ st w ∧
          Limited ((b.2 - b.1) / 2) w (at2 t.vel i j)) ∧
      ∃ x, t.pos[i]? = some x ∧ C.S.disc (1 - (k : K) * (1 / (C.ngen : K))) (D.d i)
        (C.S.clip ((List.range C.S.bounds.length).map (fun j => at2 s.pos i j + at2 t.vel i j))) = .ok x := by
  unfold second at h
  dsimp only at h
  split at h
  · cases h
  rename_i q ro flag hq
  split at h
  · cases h
  rename_i hall
  split at h
  · cases h
  split at h
  · cases h
  rename_i rows hrows
  split at h
  · cases h
  simp only [Except.ok.injEq] at h
  subst h
  dsimp only
  set strat := (List.range' lo (C.g - lo)).map (fun i => choose ((ro.map Roul.rk).getD []) (D.prob i)) with hstrat
  have hget : ∀ {β : Type} (F : ℕ → β), ((List.range' lo (C.g - lo)).map F)[i - lo]? = some (F i) := by
    intro β F
    rw [List.getElem?_map, List.getElem?_range' (by omega)]
    simp; congr 1; omega
  have hsti : strat[i - lo]? = some (choose ((ro.map Roul.rk).getD []) (D.prob i)) := hget _
  have hstD : strat.getD (i - lo) 5 = choose ((ro.map Roul.rk).getD []) (D.prob i) := by rw [List.getD_eq_getElem?_getD, hsti]; rfl
  have hlt : choose ((ro.map Roul.rk).getD []) (D.prob i) < 5 := by
    by_contra hc
    exact hall (List.any_eq_true.2 ⟨_, List.mem_of_getElem? hsti, by simpa using hc⟩)
  have happ : ∀ {β : Type} (a l : List β), lo ≤ a.length → (a.take lo ++ l)[i]? = l[i - lo]? := by
    intro β a l ha
    rw [List.getElem?_append_right (by rw [List.length_take]; omega), List.length_take, min_eq_left ha]
  have hvel : ∀ l : List (List K), (s.vel.take lo ++ l).getD i [] = l.getD (i - lo) [] := by
    intro l; rw [List.getD_eq_getElem?_getD, happ _ _ hv, List.getD_eq_getElem?_getD]
  have hfri : ∀ l : List (List K), (s.fri.take lo ++ l).getD i [] = l.getD (i - lo) [] := by
    intro l; rw [List.getD_eq_getElem?_getD, happ _ _ hlo, List.getD_eq_getElem?_getD]
  refine ⟨choose ((ro.map Roul.rk).getD []) (D.prob i), hlt, ?_, ?_, ?_, ?_⟩
  · cases ro with
    | none =>
      exfalso
      unfold spin at hq
      rw [if_pos (by omega)] at hq
      split at hq
      · cases hq
      · simp only [Except.ok.injEq, Prod.mk.injEq] at hq; exact absurd hq.1 (by simp)
    | some r =>
      refine ⟨_, rfl, ?_⟩
      dsimp only [Option.map_some, Option.getD_some] at hlt ⊢
      unfold choose at hlt ⊢
      cases hc : (List.range 5).find? (fun j => decide (r.rk.getD j 0 ≤ D.prob i ∧ D.prob i < r.rk.getD (j + 1) 0)) with
      | none => rw [hc] at hlt; simp at hlt
      | some j =>
        have := List.find?_some hc
        simpa using this
  · intro hne
    rw [hfri, List.getD_eq_getElem?_getD, List.getElem?_map, hget]
    simp only [Option.map_some, Option.getD_some, hstD]
    rw [if_neg hne]
  · intro j b hb hlt'
    have hj : j < C.S.bounds.length := (List.getElem?_eq_some_iff.1 hb).1
    have hm : vmax C.S j = (b.2 - b.1) / 2 := by
      unfold vmax; simp only [List.getD_eq_getElem?_getD, hb, Option.getD_some]; ring
    have hpos : 0 < (b.2 - b.1) / 2 := by have := sub_pos.2 hlt'; positivity
    unfold at2
    rw [hvel, hfri]
    simp only [List.map_map]
    rw [List.getD_eq_getElem?_getD (l := List.map _ _), hget, List.getD_eq_getElem?_getD (l := List.map _ _), hget]
    simp only [Option.getD_some, Function.comp, hstD, velRow2, List.getD_eq_getElem?_getD (l := List.map _ (List.range _)), List.getElem?_map,
      List.getElem?_range hj, Option.map_some, hm]
    rw [List.getD_eq_getElem?_getD (l := List.map _ (List.range' _ _)), hget, Option.getD_some]
    simp only [hstD]
    exact ⟨_, rawVel_proposes C D s.mem.pb gb _ _ _ k i j hlt, limit_limited hpos _⟩
  · obtain ⟨hlen, hrow⟩ := mapRows_ok hrows
    simp only [List.length_map, List.length_range'] at hlen
    have hip : i - lo < rows.length := by omega
    refine ⟨rows[i - lo], by rw [happ _ _ hp, List.getElem?_eq_getElem hip], ?_⟩
    obtain ⟨x, hx, hr⟩ := hrow _ _ (List.getElem?_eq_getElem hip)
    rw [hget, Option.some.injEq] at hx
    rw [← hx, show lo + (i - lo) = i by omega] at hr
    unfold at2
    simp only [hvel]
    exact hr

/-- **C55 (moves of group 1).**  While exploring, a particle of group 1 adds to its velocity, damped from 0.9 to 0.4, a random pull (from 3 to 1.5) towards its exemplar; limits
and repair as in the other group. -/
theorem C55_move_first {C : Cfg K} {pc : ℕ → K} {f : List K → K} {D : Draws K} {k : ℕ} {s t : State K} (h : first C pc f D k s = .ok t) {i : ℕ} (hi : i < C.g1) :
    (∀ (j : ℕ) (b : K × K), C.S.bounds[j]? = some b → b.1 < b.2 →
      Limited ((b.2 - b.1) / 2) (line (9 / 10) (4 / 10) C.ngen k * at2 s.vel i j + line 3 (3 / 2) C.ngen k * D.u1 i j * (at2 t.fri i j - at2 s.pos i j)) (at2 t.vel i j)) ∧
    ∃ x, t.pos[i]? = some x ∧ C.S.disc (1 - (k : K) * (1 / (C.ngen : K))) (D.d i)
      (C.S.clip ((List.range C.S.bounds.length).map (fun j => at2 s.pos i j + at2 t.vel i j))) = .ok x := by
  unfold first at h
  dsimp only at h
  split at h
  · cases h
  rename_i rows hrows
  simp only [Except.ok.injEq] at h
  subst h
  dsimp only
  have hget : ∀ {β : Type} (F : ℕ → β), ((List.range C.g1).map F)[i]? = some (F i) := by
    intro β F; rw [List.getElem?_map, List.getElem?_range hi]; rfl
  have happ : ∀ {β : Type} (F : ℕ → β) (l : List β), ((List.range C.g1).map F ++ l)[i]? = some (F i) := by
    intro β F l; rw [List.getElem?_append_left (by simpa using hi), hget]
  constructor
  · intro j b hb hlt'
    have hj : j < C.S.bounds.length := (List.getElem?_eq_some_iff.1 hb).1
    have hm : vmax C.S j = (b.2 - b.1) / 2 := by
      unfold vmax; simp only [List.getD_eq_getElem?_getD, hb, Option.getD_some]; ring
    have hpos : 0 < (b.2 - b.1) / 2 := by have := sub_pos.2 hlt'; positivity
    unfold at2
    rw [List.map_map, List.getD_eq_getElem?_getD (l := _ ++ _), happ, List.getD_eq_getElem?_getD (l := _ ++ _), happ]
    simp only [Option.getD_some, Function.comp, velRow1, List.getD_eq_getElem?_getD (l := List.map _ (List.range _)), List.getElem?_map,
      List.getElem?_range hj, List.getElem?_range hi, Option.map_some, hm]
    have e1 : ramp (9 / 10) (1 / 2) C.ngen k = line (9 / 10 : K) (4 / 10) C.ngen k := by unfold ramp line; ring
    have e2 : ramp 3 (3 / 2) C.ngen k = line (3 : K) (3 / 2) C.ngen k := by unfold ramp line; ring
    rw [e1, e2]
    exact limit_limited hpos _
  · obtain ⟨hlen, hrow⟩ := mapRows_ok hrows
    simp only [List.length_map, List.length_range] at hlen
    have hip : i < rows.length := by omega
    refine ⟨rows[i], by rw [List.getElem?_append_left hip, List.getElem?_eq_getElem hip], ?_⟩
    obtain ⟨x, hx, hr⟩ := hrow _ _ (List.getElem?_eq_getElem hip)
    rw [hget, Option.some.injEq] at hx
    rw [← hx, Nat.zero_add] at hr
    unfold at2
    rw [List.getD_eq_getElem?_getD (l := _ ++ _), happ, Option.getD_some]
    rw [List.getD_eq_getElem?_getD (l := List.map _ _), hget, Option.getD_some] at hr
    exact hr

/-- Every particle keeps its row of the exemplar table. -/
theorem second_fri {C : Cfg K} {pc : ℕ → K} {f : List K → K} {D : Draws K} {k lo : ℕ} (hlo : lo ≤ C.g) {gb : List K} {s t : State K} (hs : s.fri.length = C.g)
    (h : second C pc f D k lo gb s = .ok t) : t.fri.length = C.g := by
  unfold second at h
  dsimp only at h
  split at h
  · cases h
  split at h
  · cases h
  split at h
  · cases h
  split at h
  · cases h
  split at h
  · cases h
  simp only [Except.ok.injEq] at h
  subst h
  simp [hs]; omega

theorem first_fri {C : Cfg K} {pc : ℕ → K} {f : List K → K} {D : Draws K} {k : ℕ} {s t : State K} (hs : s.fri.length = C.g)
    (h : first C pc f D k s = .ok t) : t.fri.length = C.g := by
  unfold first at h
  dsimp only at h
  split at h
  · cases h
  simp only [Except.ok.injEq] at h
  subst h
  have : C.g1 ≤ C.g := Nat.le_add_right _ _
  simp [hs]; omega

theorem gen_fri {C : Cfg K} {pc : ℕ → K} {f : List K → K} {D : Draws K} {k : ℕ} {s t : State K} (hs : s.fri.length = C.g)
    (h : gen C pc f D k s = .ok t) : t.fri.length = C.g := by
  unfold gen at h
  split at h
  · cases h
  rename_i t' ht
  have key : t'.fri.length = C.g := by
    unfold body at ht
    dsimp only at ht
    split at ht
    · split at ht
      · cases ht
      rename_i t1 h1
      exact second_fri (Nat.le_add_right _ _) (first_fri hs h1) ht
    · exact second_fri (Nat.zero_le _) hs ht
  split at h
  · cases h
  split at h
  · cases h
  simp only [Except.ok.injEq] at h
  subst h
  exact key

/-- **C55 (tables).**  In every reachable state positions, velocities, exemplars, personal bests and failure counters have one row per particle, so that
the moves above describe every particle of every generation. -/
theorem C55_tables {C : Cfg K} (hS : C.S.OK) (hg : 0 < C.g) {pc : ℕ → K} {f : List K → K} {x0 : List (List K)} (hn : x0.length = C.g)
    (hx : ∀ x ∈ x0, x.length = C.S.bounds.length) {v0 : ℕ → ℕ → K} (hv : Unit01 v0) {D0 : Draws K} {D : ℕ → Draws K} {s0 : State K}
    (h0 : start C pc f x0 v0 D0 = .ok s0) {G : ℕ} : ∀ {s : State K}, run C pc f D s0 G = .ok s →
    s.pos.length = C.g ∧ s.vel.length = C.g ∧ s.fri.length = C.g ∧ s.mem.pb.length = C.g ∧ s.mem.slope.length = C.g := by
  intro s h
  have inv := run_inv hS hg (start_inv hS hn hx hv h0) h
  refine ⟨inv.mid.npos, inv.mid.nvel, ?_, inv.mid.mem.size, inv.mid.mem.slopes⟩
  have f0 : s0.fri.length = C.g := by
    unfold start at h0
    dsimp only at h0
    split at h0
    · cases h0
    split at h0
    · cases h0
    simp only [Except.ok.injEq] at h0
    subst h0
    simp [HCLPSO.firstFri]
  clear inv
  induction G generalizing s with
  | zero => simp only [run, Except.ok.injEq] at h; rw [← h]; exact f0
  | succ G ih =>
    rw [run] at h
    split at h
    · cases h
    rename_i s1 h1
    exact gen_fri (ih h1) h

end

/-- In the run of the example the second generation meets the hypotheses: two particles of group 1 and three of the adaptive group. -/
example : ∃ s1 t1 t2, run exC HCLPSO.exPc (worker exC.S false HCLPSO.exFit) exDr s1 0 = .ok s1 ∧ first exC HCLPSO.exPc (worker exC.S false HCLPSO.exFit) (exDr 0) 0 s1 = .ok t1 ∧
    second exC HCLPSO.exPc (worker exC.S false HCLPSO.exFit) (exDr 0) 0 exC.g1 (s1.mem.gref.get s1.mem.pb) t1 = .ok t2 ∧ t1.fri.length = exC.g := by
  obtain ⟨r, hr⟩ := C55_total (C := exC) (m := false) (fit := HCLPSO.exFit) (pc := HCLPSO.exPc) (D0 := exDr 0) (D := exDr) HCLPSO.exS_ok rfl (by decide) (by decide) (by decide) (by decide)
    (x0 := exX) rfl exX_ok exV_ok exDr_ok
  have hr0 := hr
  unfold evolute at hr
  rw [if_neg (by decide)] at hr
  dsimp only at hr
  split at hr
  · cases hr
  rename_i s0 h0
  have hfr : s0.fri.length = exC.g := (C55_tables (C := exC) HCLPSO.exS_ok (by decide) rfl exX_ok exV_ok h0 (D := exDr) (G := 0) rfl).2.2.1
  have hex : exploring exC s0 = true := by
    have := (start_inv (C := exC) HCLPSO.exS_ok rfl exX_ok exV_ok h0)
    unfold start at h0
    dsimp only at h0
    split at h0
    · cases h0
    rename_i pos hpos
    split at h0
    · cases h0
    simp only [Except.ok.injEq] at h0
    subst h0
    have hl : pos.length = 5 := by rw [(mapRows_ok hpos).1]; rfl
    unfold exploring
    simp only [hl]
    decide
  have h1 : ∃ s, gen exC HCLPSO.exPc (worker exC.S false HCLPSO.exFit) (exDr 0) 0 s0 = .ok s := by
    cases hg : gen exC HCLPSO.exPc (worker exC.S false HCLPSO.exFit) (exDr 0) 0 s0 with
    | ok s => exact ⟨s, rfl⟩
    | error e =>
      exfalso
      have : ∀ n, run exC HCLPSO.exPc (worker exC.S false HCLPSO.exFit) exDr s0 (n + 1) = .error e := by
        intro n
        induction n with
        | zero => simp [run, hg]
        | succ n ih => rw [run, ih]
      rw [show exC.ngen = 2 + 1 from rfl, this 2] at hr
      cases hr
  obtain ⟨s, hs⟩ := h1
  unfold gen at hs
  split at hs
  · cases hs
  rename_i t ht
  unfold body at ht
  rw [hex, if_pos rfl] at ht
  split at ht
  · cases ht
  rename_i t1 ht1
  exact ⟨s0, t1, t, rfl, ht1, ht, first_fri hfr ht1⟩

end Neorl.EPSO

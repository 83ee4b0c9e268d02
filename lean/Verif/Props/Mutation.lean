import Verif.Variation
import Mathlib.Tactic.FieldSimp
import Mathlib.Tactic.Linarith

/-!
# C13, continued: what a mutation of an evolution strategy does to each coordinate

`ES.mutES` (`neorl/evolu/es.py` lines 267-338) is described coordinate by coordinate by a specification that does not mention the model: odds of
the strategy, mirror images in the limits, Gaussian step.  Every point of the space can be reached by one mutation.
-/

set_option linter.unusedSectionVars false
set_option linter.unusedVariables false

namespace Neorl.ES

section
variable {K : Type} [Field K] [LinearOrder K] [IsStrictOrderedRing K] [FloorRing K]

/-- `s'` is the image of `s` between two mirrors at `l` and `u`: inside, and reached from `s` by reflections. -/
def Mirrored (l u s s' : K) : Prop :=
  l ≤ s' ∧ s' ≤ u ∧ ∃ k : ℤ, s' - l = s - l + 2 * k * (u - l) ∨ s' - l = -(s - l) + 2 * k * (u - l)

/-- Two mirrors give one image only. -/
theorem Mirrored.unique {l u s a b : K} (h : l < u) (ha : Mirrored l u s a) (hb : Mirrored l u s b) : a = b := by
  obtain ⟨a1, a2, k, hk⟩ := ha
  obtain ⟨b1, b2, m, hm⟩ := hb
  have hw : 0 < u - l := sub_pos.2 h
  have key : ∀ n : ℤ, 0 ≤ 2 * (n : K) * (u - l) → 2 * (n : K) * (u - l) ≤ 2 * (u - l) → n = 0 ∨ n = 1 := by
    intro n h1 h2
    have h3 : (0 : K) ≤ n := by
      by_contra hc
      have := mul_neg_of_neg_of_pos (show 2 * (n : K) < 0 by linarith [not_le.1 hc]) hw
      linarith
    have h4 : (n : K) ≤ 1 := by
      by_contra hc
      have := mul_pos (show 0 < (n : K) - 1 by linarith [not_le.1 hc]) hw
      linarith
    have h5 : (0 : ℤ) ≤ n := by exact_mod_cast h3
    have h6 : n ≤ (1 : ℤ) := by exact_mod_cast h4
    omega
  have same : ∀ {n p : ℤ} {x y : K}, l ≤ x → x ≤ u → l ≤ y → y ≤ u → x - y = 2 * ((n : K) - p) * (u - l) → x = y := by
    intro n p x y hx1 hx2 hy1 hy2 e
    rcases lt_trichotomy n p with hlt | heq | hgt
    · have h1 : (n : K) - p ≤ -1 := by
        have : n - p ≤ -1 := by omega
        exact_mod_cast this
      have : 2 * ((n : K) - p) * (u - l) ≤ -2 * (u - l) := by nlinarith
      linarith
    · rw [heq] at e; linarith [show x - y = 0 by rw [e]; ring]
    · have h1 : (1 : K) ≤ (n : K) - p := by
        have : 1 ≤ n - p := by omega
        exact_mod_cast this
      have : 2 * (u - l) ≤ 2 * ((n : K) - p) * (u - l) := by nlinarith
      linarith
  have opp : ∀ {n p : ℤ} {x y : K}, l ≤ x → x ≤ u → l ≤ y → y ≤ u → x - l = s - l + 2 * n * (u - l) → y - l = -(s - l) + 2 * p * (u - l) → x = y := by
    intro n p x y hx1 hx2 hy1 hy2 e1 e2
    have e : (x - l) + (y - l) = 2 * ((n + p : ℤ) : K) * (u - l) := by push_cast; linarith
    rcases key (n + p) (by rw [← e]; linarith) (by rw [← e]; linarith) with h0 | h0
    · rw [h0] at e; push_cast at e; linarith
    · rw [h0] at e; push_cast at e; linarith
  rcases hk with hk | hk <;> rcases hm with hm | hm
  · exact same (n := k) (p := m) a1 a2 b1 b2 (by linarith)
  · exact opp a1 a2 b1 b2 hk hm
  · exact (opp b1 b2 a1 a2 hm hk).symm
  · exact same (n := k) (p := m) a1 a2 b1 b2 (by linarith)

theorem fold_mirrored {smin smax : K} (h : smin < smax) (s : K) : Mirrored smin smax s (fold smin smax s) := by
  refine ⟨(fold_mem h.le s).1, (fold_mem h.le s).2, ?_⟩
  have hw : smax - smin ≠ 0 := (sub_pos.2 h).ne'
  unfold fold
  simp only
  set y := (s - smin) / (smax - smin) with hy
  have hys : s - smin = (smax - smin) * y := by rw [hy]; field_simp
  have h1 : 0 ≤ y - ⌊y⌋ := by linarith [Int.floor_le y]
  rw [abs_of_nonneg h1]
  split_ifs with hp
  · obtain ⟨k, hk⟩ : ∃ k : ℤ, ⌊y⌋ = 2 * k := ⟨⌊y⌋ / 2, by omega⟩
    refine ⟨-k, Or.inl ?_⟩
    rw [hys, hk]
    push_cast
    ring
  · obtain ⟨k, hk⟩ : ∃ k : ℤ, ⌊y⌋ = 2 * k + 1 := ⟨⌊y⌋ / 2, by omega⟩
    refine ⟨k + 1, Or.inr ?_⟩
    rw [hys, hk]
    push_cast
    ring

/-- What the mutation of one coordinate with strategy `s` may do, when the draws are the factor `e > 0`, the number `t`, the choice and the Gaussian `g`.
A continuous coordinate is displaced by `s e g` and kept in its bounds, its strategy becomes `s e`, kept in `[smin, smax]`.  The odds of the strategy of an
integer coordinate are multiplied by `e` and the result mirrored into `[smin, smax]`; if `t` is below the new strategy the coordinate takes another value of
its range (when there is another), otherwise it stays. -/
def CoordStep (smin smax e t g : K) (ty : VType) (b : K × K) (x s x' s' : K) : Prop :=
  match ty with
  | .float => s' = max smin (min (s * e) smax) ∧ x' = max b.1 (min (x + s * e * g) b.2)
  | .int => (∃ p : K, 0 < p ∧ (1 - p) / p = (1 - s) / s * e ∧ Mirrored smin smax p s') ∧
      (t < s' → b.1 < b.2 → x' ≠ x) ∧ ((¬ t < s' ∨ b.1 = b.2) → x' = x) ∧ b.1 ≤ x' ∧ x' ≤ b.2 ∧ ∃ n : ℤ, x' = n

theorem clip_at {S : Space K} (hS : S.OK) {v : List K} {i : ℕ} {b : K × K} {x : K} (hb : S.bounds[i]? = some b) (hx : v[i]? = some x) :
    (S.clip v)[i]? = some (max b.1 (min x b.2)) := by
  unfold Space.clip
  rw [ensureBounds_eq_zipWith hS.ordered, List.getElem?_zipWith, hb, hx]
  rfl

theorem clampS_id {l u x : K} (h1 : l ≤ x) (h2 : x ≤ u) : max l (min x u) = x := by rw [min_eq_left h2, max_eq_right h1]

/-- **C13.** The mutation of a feasible individual does to every coordinate what `CoordStep` says, for all draws with positive factors and all strategies in
`(0, 1]`. -/
theorem C13_steps {S : Space K} (hS : S.OK) {smin smax : K} (hs : smin < smax) {d : MutDraw K} (he : ∀ i, 0 < d.e i) {ind strat ind' strat' : List K}
    (hf : S.Feasible ind) (hst : strat.length = S.bounds.length) (h01 : ∀ s ∈ strat, 0 < s ∧ s ≤ 1) (h : mutES S smin smax d ind strat = .ok (ind', strat')) :
    ind'.length = S.bounds.length ∧ strat'.length = S.bounds.length ∧
    ∀ (i : ℕ) (ty : VType) (b : K × K) (x s : K), S.types[i]? = some ty → S.bounds[i]? = some b → ind[i]? = some x → strat[i]? = some s →
      ∃ x' s', ind'[i]? = some x' ∧ strat'[i]? = some s' ∧ CoordStep smin smax (d.e i) (d.t i) (d.g i) ty b x s x' s' := by
  obtain ⟨hf', hl', -⟩ := mutES_ok hS hs.le hf.1.length_eq hst h
  refine ⟨hf'.1.length_eq, hl', ?_⟩
  intro i ty b x s ht hb hx hsi
  unfold mutES at h
  rw [S.clip_of_inBox hf.1] at h
  split at h
  · cases h
  rename_i l hm
  cases h
  obtain ⟨h1, h2⟩ := mapRows_ok hm
  have hil : i < l.length := by
    rw [h1, List.length_zip]
    have := (List.getElem?_eq_some_iff.1 hx).1
    have := (List.getElem?_eq_some_iff.1 hsi).1
    omega
  obtain ⟨p, hp⟩ : ∃ p, l[i]? = some p := ⟨_, List.getElem?_eq_getElem hil⟩
  obtain ⟨xs, hxs, hfi⟩ := h2 i p hp
  rw [Nat.zero_add] at hfi
  have hxs' : xs = (x, s) := by
    rw [List.getElem?_zip_eq_some] at hxs
    obtain ⟨g1, g2⟩ := hxs
    rw [hx] at g1; rw [hsi] at g2
    cases g1; cases g2; rfl
  subst hxs'
  have hbox := inBox_getElem? hf.1 hx hb
  have hs01 := h01 s (List.mem_of_getElem? hsi)
  have hei := he i
  refine ⟨max b.1 (min p.1 b.2), min (max p.2 smin) smax, clip_at hS hb (by rw [List.getElem?_map, hp]; rfl), by
    simp [clipS, hp], ?_⟩
  cases ty with
  | float =>
    simp only [mutCoord, ht, hb, Except.ok.injEq] at hfi
    subst hfi
    refine ⟨?_, rfl⟩
    simp only
    rw [max_comm (s * d.e i), max_min_distrib_left, max_eq_right hs.le]
  | int =>
    obtain ⟨lo, hi, e1, e2⟩ := hS.intBounds i b ht hb
    obtain ⟨n, hn⟩ := hf.2 i x ht hx
    have hpos : 0 < 1 + (1 - s) / s * d.e i := by
      have : 0 ≤ (1 - s) / s * d.e i := mul_nonneg (div_nonneg (by linarith [hs01.2]) hs01.1.le) hei.le
      linarith
    set q := 1 / (1 + (1 - s) / s * d.e i) with hq
    have hq0 : 0 < q := one_div_pos.2 hpos
    have hodds : (1 - q) / q = (1 - s) / s * d.e i := by
      have hqi : 1 / q = 1 + (1 - s) / s * d.e i := by rw [hq, one_div_one_div]
      rw [sub_div, div_self hq0.ne', hqi]; ring
    have hfm := fold_mirrored hs q
    have hfr := fold_mem hs.le q
    have hlohi : (lo : K) ≤ hi := by rw [← e1, ← e2]; exact hbox.1.trans hbox.2
    have tr1 : truncZ b.1 = lo := by rw [e1, truncZ_intCast]
    have tr2 : truncZ b.2 = hi := by rw [e2, truncZ_intCast]
    have tr3 : truncZ x = n := by rw [hn, truncZ_intCast]
    have hbn : lo ≤ n ∧ n ≤ hi := by
      rw [e1, e2, hn] at hbox
      exact ⟨by exact_mod_cast hbox.1, by exact_mod_cast hbox.2⟩
    have hcl : min (max (fold smin smax q) smin) smax = fold smin smax q := by rw [max_eq_left hfr.1, min_eq_left hfr.2]
    simp only [mutCoord, ht, hb, tr1, tr2, tr3, ← hq] at hfi
    split_ifs at hfi with g1 g2
    · cases hfi
      simp only [hcl]
      have hb' : b.1 = b.2 := by rw [e1, e2, g2]
      have hx' : x = b.1 := le_antisymm (by rw [hb']; exact hbox.2) hbox.1
      have hv : max b.1 (min ((lo : ℤ) : K) b.2) = x := by rw [← e1, clampS_id le_rfl hb'.le, hx']
      refine ⟨⟨q, hq0, hodds, hfm⟩, fun _ hlt => absurd hb' hlt.ne, fun _ => hv, ?_, ?_, n, ?_⟩
      · rw [hv]; exact hbox.1
      · rw [hv]; exact hbox.2
      · rw [hv]; exact hn
    · cases hz : flipChoice lo hi n (d.pick i) with
      | error e => rw [hz] at hfi; cases hfi
      | ok z =>
        rw [hz] at hfi
        cases hfi
        simp only [hcl]
        obtain ⟨-, -, z1, z2, z3⟩ := flipChoice_ok hz
        have hv : max b.1 (min (z : K) b.2) = z :=
          clampS_id (by rw [e1]; exact_mod_cast z1) (by rw [e2]; exact_mod_cast z2)
        rw [hv]
        refine ⟨⟨q, hq0, hodds, hfm⟩, fun _ _ hcon => z3 (by rw [hn] at hcon; exact_mod_cast hcon), fun hc => ?_, by rw [e1]; exact_mod_cast z1, by rw [e2]; exact_mod_cast z2, z, rfl⟩
        rcases hc with hc | hc
        · exact absurd g1 hc
        · rw [e1, e2] at hc
          exact absurd (by exact_mod_cast hc) g2
    · cases hfi
      simp only [hcl]
      have hv : max b.1 (min (n : K) b.2) = x := by rw [← hn]; exact clampS_id hbox.1 hbox.2
      rw [hv]
      exact ⟨⟨q, hq0, hodds, hfm⟩, fun hc => absurd hc g1, fun _ => rfl, hbox.1, hbox.2, n, hn⟩

/-- `CoordStep` leaves no freedom except the value chosen by a mutated integer coordinate. -/
theorem C13_steps_determined {smin smax e t g : K} (hs : smin < smax) {ty : VType} {b : K × K} {x s x1 s1 x2 s2 : K}
    (h1 : CoordStep smin smax e t g ty b x s x1 s1) (h2 : CoordStep smin smax e t g ty b x s x2 s2) :
    s1 = s2 ∧ ((ty = .int → ¬ t < s1) → x1 = x2) := by
  cases ty with
  | float => exact ⟨h1.1.trans h2.1.symm, fun _ => h1.2.trans h2.2.symm⟩
  | int =>
    obtain ⟨⟨p, hp, op, mp⟩, -, a1, -⟩ := h1
    obtain ⟨⟨q, hq, oq, mq⟩, -, a2, -⟩ := h2
    have : p = q := by
      have e1 : 1 / p = 1 / q := by
        have g1 : (1 - p) / p = 1 / p - 1 := by rw [sub_div, div_self hp.ne']
        have g2 : (1 - q) / q = 1 / q - 1 := by rw [sub_div, div_self hq.ne']
        rw [g1] at op; rw [g2] at oq; linarith
      have := congrArg (fun z => 1 / z) e1
      simpa using this
    subst this
    have es := mp.unique hs mq
    refine ⟨es, fun hn => ?_⟩
    have hn := hn rfl
    rw [a1 (Or.inl hn), a2 (Or.inl (es ▸ hn))]

/-- **C13.** One mutation can lead from any point of the space to any other: no local optimum is a trap.  The factors of the draws are 1. -/
theorem C13_reach {S : Space K} (hS : S.OK) {smin smax : K} (h0 : 0 < smin) (hs : smin < smax) {ind strat target : List K}
    (hf : S.Feasible ind) (hst : strat.length = S.bounds.length) (h01 : ∀ s ∈ strat, s ≠ 0) (hg : S.Feasible target) :
    ∃ (d : MutDraw K) (strat' : List K), (∀ i, d.e i = 1) ∧ (∀ i, d.t i = 0 ∨ d.t i = smax) ∧ mutES S smin smax d ind strat = .ok (target, strat') := by
  classical
  let ch : ℕ → ℕ := fun i =>
    if h : ∃ pick : ℕ, flipChoice (truncZ (S.bounds.getD i 0).1) (truncZ (S.bounds.getD i 0).2) (truncZ (ind.getD i 0)) pick = .ok (truncZ (target.getD i 0)) then h.choose else 0
  let d : MutDraw K := { e := fun _ => 1, t := fun i => if ind.getD i 0 = target.getD i 0 then smax else 0, pick := ch, g := fun i => (target.getD i 0 - ind.getD i 0) / strat.getD i 0 }
  have hli := hf.1.length_eq
  have hlt := hg.1.length_eq
  have hrow : ∀ (i : ℕ) (hi : i < S.bounds.length), ∃ s', mutCoord S smin smax d i (ind.getD i 0, strat.getD i 0) = .ok (target.getD i 0, s') := by
    intro i hi
    have hb : S.bounds[i]? = some S.bounds[i] := List.getElem?_eq_getElem hi
    have ht : S.types[i]? = some (S.types[i]'(hS.ntypes ▸ hi)) := List.getElem?_eq_getElem _
    have hx : ind[i]? = some (ind[i]'(hli ▸ hi)) := List.getElem?_eq_getElem _
    have hy : target[i]? = some (target[i]'(hlt ▸ hi)) := List.getElem?_eq_getElem _
    have hsi : strat[i]? = some (strat[i]'(hst ▸ hi)) := List.getElem?_eq_getElem _
    have hbx : S.bounds.getD i 0 = S.bounds[i] := by rw [List.getD_eq_getElem?_getD, hb]; rfl
    have hxx : ind.getD i 0 = ind[i]'(hli ▸ hi) := by rw [List.getD_eq_getElem?_getD, hx]; rfl
    have hyy : target.getD i 0 = target[i]'(hlt ▸ hi) := by rw [List.getD_eq_getElem?_getD, hy]; rfl
    have hss : strat.getD i 0 = strat[i]'(hst ▸ hi) := by rw [List.getD_eq_getElem?_getD, hsi]; rfl
    have bx := inBox_getElem? hf.1 hx hb
    have by' := inBox_getElem? hg.1 hy hb
    have hfr : ∀ q : K, smin ≤ fold smin smax q ∧ fold smin smax q ≤ smax := fun q => fold_mem hs.le q
    have hty : S.types[i]'(hS.ntypes ▸ hi) = .int ∨ S.types[i]'(hS.ntypes ▸ hi) = .float := by cases S.types[i]'(hS.ntypes ▸ hi) <;> simp
    rcases hty with hT | hT
    · rw [hT] at ht
      obtain ⟨n, hn⟩ := hf.2 i _ ht hx
      obtain ⟨m, hm⟩ := hg.2 i _ ht hy
      obtain ⟨lo, hi', e1, e2⟩ := hS.intBounds i _ ht hb
      simp only [mutCoord, ht, hb]
      by_cases he : ind.getD i 0 = target.getD i 0
      · have : ¬ d.t i < fold smin smax (1 / (1 + (1 - strat.getD i 0) / strat.getD i 0 * d.e i)) := by
          simp only [d, if_pos he]
          exact not_lt.2 (hfr _).2
        rw [if_neg this]
        refine ⟨fold smin smax (1 / (1 + (1 - strat.getD i 0) / strat.getD i 0 * d.e i)), ?_⟩
        rw [← he, hxx, hn, truncZ_intCast]
      · have : d.t i < fold smin smax (1 / (1 + (1 - strat.getD i 0) / strat.getD i 0 * d.e i)) := by
          simp only [d, if_neg he]
          exact lt_of_lt_of_le h0 (hfr _).1
        rw [if_pos this]
        have hnm : m ≠ n := fun hc => he (by rw [hxx, hyy, hn, hm, hc])
        have bn : lo ≤ n ∧ n ≤ hi' := by
          rw [e1, e2, hn] at bx; exact ⟨by exact_mod_cast bx.1, by exact_mod_cast bx.2⟩
        have bm : lo ≤ m ∧ m ≤ hi' := by
          rw [e1, e2, hm] at by'; exact ⟨by exact_mod_cast by'.1, by exact_mod_cast by'.2⟩
        have hne : ¬ truncZ S.bounds[i].1 = truncZ S.bounds[i].2 := by
          rw [e1, e2, truncZ_intCast, truncZ_intCast]; omega
        rw [if_neg hne]
        have hex : ∃ pick : ℕ, flipChoice (truncZ (S.bounds.getD i 0).1) (truncZ (S.bounds.getD i 0).2) (truncZ (ind.getD i 0)) pick = .ok (truncZ (target.getD i 0)) := by
          rw [hbx, hxx, hyy, e1, e2, hn, hm]
          simp only [truncZ_intCast]
          exact flipChoice_surj bn.1 bn.2 bm.1 bm.2 hnm
        have hpick : flipChoice (truncZ S.bounds[i].1) (truncZ S.bounds[i].2) (truncZ (ind.getD i 0)) (d.pick i) = .ok (truncZ (target.getD i 0)) := by
          have h1 := hex.choose_spec
          have h2 : d.pick i = hex.choose := by simp only [d, ch, dif_pos hex]
          rw [h2, ← hbx]; exact h1
        rw [hpick]
        refine ⟨fold smin smax (1 / (1 + (1 - strat.getD i 0) / strat.getD i 0 * d.e i)), ?_⟩
        simp only [hyy, hm, truncZ_intCast]
    · rw [hT] at ht
      simp only [mutCoord, ht, hb]
      refine ⟨strat.getD i 0 * d.e i, ?_⟩
      have hs0 : strat.getD i 0 ≠ 0 := by rw [hss]; exact h01 _ (List.getElem_mem _)
      simp only [d, mul_one, mul_div_cancel₀ _ hs0]
      rw [show ind.getD i 0 + (target.getD i 0 - ind.getD i 0) = target.getD i 0 by ring]
  have hall : ∃ l, mapRows (mutCoord S smin smax d) 0 (List.zip ind strat) = .ok l ∧ l.map (fun p => p.1) = target := by
    have gen : ∀ (zs : List (K × K)) (ts : List K) (k : ℕ), zs.length = ts.length →
        (∀ j z t, zs[j]? = some z → ts[j]? = some t → ∃ s', mutCoord S smin smax d (k + j) z = .ok (t, s')) →
        ∃ l, mapRows (mutCoord S smin smax d) k zs = .ok l ∧ l.map (fun p => p.1) = ts := by
      intro zs
      induction zs with
      | nil =>
        intro ts k hl _
        cases ts with
        | nil => exact ⟨[], rfl, rfl⟩
        | cons t ts => simp at hl
      | cons z zs ih =>
        intro ts k hl hstep
        cases ts with
        | nil => simp at hl
        | cons t ts =>
          obtain ⟨s', hs'⟩ := hstep 0 z t rfl rfl
          obtain ⟨l, hl1, hl2⟩ := ih ts (k + 1) (by simpa using hl) (fun j z' t' hz ht => by
            have := hstep (j + 1) z' t' (by simpa using hz) (by simpa using ht)
            rwa [show k + (j + 1) = k + 1 + j by omega] at this)
          refine ⟨(t, s') :: l, ?_, by simp [hl2]⟩
          rw [Nat.add_zero] at hs'
          simp only [mapRows, hs', hl1]
    refine gen _ target 0 (by rw [List.length_zip, hli, hst, min_self, hlt]) ?_
    intro j z t hz ht
    rw [List.getElem?_zip_eq_some] at hz
    have hj : j < S.bounds.length := by
      have := (List.getElem?_eq_some_iff.1 ht).1
      omega
    obtain ⟨s', h'⟩ := hrow j hj
    rw [Nat.zero_add]
    refine ⟨s', ?_⟩
    simp only [List.getD_eq_getElem?_getD, hz.1, hz.2, ht, Option.getD_some] at h'
    exact h'
  obtain ⟨l, hl1, hl2⟩ := hall
  refine ⟨d, clipS smin smax (l.map (fun p => p.2)), fun _ => rfl, fun i => ?_, ?_⟩
  · by_cases h : ind.getD i 0 = target.getD i 0
    · right; simp only [d, if_pos h]
    · left; simp only [d, if_neg h]
  · unfold mutES
    rw [S.clip_of_inBox hf.1, hl1]
    simp only [hl2, S.clip_of_inBox hg.1]

end

/-! ### Examples and a defect -/

/-- An integer in `0 .. 5` and a continuous variable in `[-10, 10]`. -/
def mutS : Space ℚ := { bounds := [(0, 5), (-10, 10)], types := [.int, .float], method := .nearestInt, expf := fun x => x }
def mutD : MutDraw ℚ := { e := fun i => if i = 0 then 1 / 2 else 2, t := fun _ => 1 / 3, pick := fun _ => 0, g := fun _ => 1 }

theorem mutS_ok : mutS.OK := Space.ok_of_okB (by decide +kernel)

/-- A strategy of 1/4 (odds 3 to 1 against) becomes 2/5 (odds 3 to 2), below the limit; the continuous variable moves by 4/5. -/
example : mutES mutS (1 / 100) (1 / 2) mutD [3, 1] [1 / 4, 2 / 5] = .ok ([0, 9 / 5], [2 / 5, 1 / 2]) := by decide +kernel

example : mutS.Feasible [3, 1] ∧ (∀ i, 0 < mutD.e i) ∧ (∀ s ∈ [(1 / 4 : ℚ), 2 / 5], 0 < s ∧ s ≤ 1) := by
  refine ⟨⟨?_, ?_⟩, ?_, ?_⟩
  · unfold InBox mutS; exact .cons (by norm_num) (.cons (by norm_num) .nil)
  · intro d x ht hx
    match d with
    | 0 => simp at hx; exact ⟨3, by rw [← hx]; norm_num⟩
    | 1 => simp [mutS] at ht
    | d + 2 => simp [mutS] at ht
  · intro i; simp only [mutD]; split_ifs <;> norm_num
  · intro s hs; simp at hs; rcases hs with rfl | rfl <;> norm_num

/-- **C13, defect.** The limit `smax` bounds the strategy that is stored, not the one that is used: the step is taken before the strategy is limited
(`es.py` lines 328-329 and 337), so with `smax = 1/2` and a Gaussian draw of 1 a coordinate can move by any distance. -/
theorem C13_step_unlimited (M : ℚ) (hM : 0 ≤ M) : ∃ (S : Space ℚ) (d : MutDraw ℚ) (ind' strat' : List ℚ), S.OK ∧ (∀ i, 0 < d.e i) ∧ (∀ i, d.g i = 1) ∧
    mutES S (1 / 100) (1 / 2) d [0] [1 / 2] = .ok (ind', strat') ∧ ind' = [M + 1] ∧ strat' = [1 / 2] := by
  refine ⟨{ bounds := [(0, M + 1)], types := [.float], method := .nearestInt, expf := fun x => x }, { e := fun _ => 2 * (M + 1), t := fun _ => 0, pick := fun _ => 0, g := fun _ => 1 },
    [M + 1], [1 / 2], ⟨?_, rfl, ?_⟩, fun _ => by simp only; linarith, fun _ => rfl, ?_, rfl, rfl⟩
  · intro b hb; simp at hb; subst hb; simp only; linarith
  · intro d b ht; cases d <;> simp at ht
  · have h0 : (0 : ℚ) ≤ M + 1 := by linarith
    have h4 : (1 / 100 : ℚ) ≤ M + 1 := by linarith
    have h5 : (1 / 2 : ℚ) ≤ M + 1 := by linarith
    have h3 : (1 / 2 : ℚ) * (2 * (M + 1)) = M + 1 := by ring
    have hb : InBox [((0 : ℚ), M + 1)] [0] := .cons ⟨le_rfl, h0⟩ .nil
    have hb' : InBox [((0 : ℚ), M + 1)] [M + 1] := .cons ⟨h0, le_rfl⟩ .nil
    have e1 : ensureBounds [((0 : ℚ), M + 1)] [0] = [0] := ensureBounds_of_inBox hb
    have e2 : ensureBounds [((0 : ℚ), M + 1)] [M + 1] = [M + 1] := ensureBounds_of_inBox hb'
    simp only [mutES, Space.clip, e1, List.zip, List.zipWith, mapRows, mutCoord, List.getElem?_cons_zero, h3, zero_add, mul_one, List.map, e2, clipS, max_eq_left h4, min_eq_right h5]

end Neorl.ES

import Verif.Props.AEOMigration
import Mathlib.Analysis.SpecialFunctions.Log.Basic

/-!
# Property theorems C41: which members an AEO population is likely to export
-/

set_option linter.unusedSectionVars false
set_option linter.unusedVariables false

namespace Neorl.AEO

section
variable {K : Type} [Field K] [LinearOrder K] [IsStrictOrderedRing K]

/-- What is used of `np.log`, `np.exp` and `np.pi`. -/
structure Trans.OK (T : Trans K) : Prop where
  log_one : T.logf 1 = 0
  log_mono : ∀ x y, 1 ≤ x → x < y → T.logf x < T.logf y
  exp_pos : ∀ x, 0 < T.expf x
  exp_zero : T.expf 0 = 1
  exp_mono : ∀ x y, x < y → T.expf x < T.expf y
  pi : 1 ≤ T.pi

/-- Specification: in this part of the run the option makes good members (low values) the likely emigrants. -/
def BestLeave (o : Order) (gfrac : K) : Prop := o = .wb ∨ (o = .awb ∧ gfrac < 1 / 2) ∨ (o = .abw ∧ 1 / 2 ≤ gfrac)

instance (o : Order) (g : K) : Decidable (BestLeave o g) := by unfold BestLeave; infer_instance

theorem orderNow_spec {o : Order} (h : o ≠ .none) (g : K) : orderNow o g = .ok (decide (BestLeave o g)) := by
  cases o with
  | none => exact absurd rfl h
  | wb => simp [orderNow, BestLeave]
  | bw => simp [orderNow, BestLeave]
  | awb => simp [orderNow, BestLeave]
  | abw =>
    unfold orderNow BestLeave
    simp only [reduceCtorEq, false_and, true_and, false_or, ← not_lt, decide_not]

theorem sum_map_div {α : Type} (f : α → K) (d : K) (l : List α) : (l.map (fun i => f i / d)).sum = (l.map f).sum / d := by
  induction l with
  | nil => simp
  | cons a l ih => simp only [List.map_cons, List.sum_cons, ih, add_div]

theorem checked_spec {f : ℕ → K} {d : K} (hd : d ≠ 0) (hf : ∀ i, 0 < f i) (hm : ∀ i j, i < j → f i < f j) {n : ℕ} (hn : 0 < n) :
    (checked ((List.range n).map (fun i => f i / d))).length = n ∧
    (checked ((List.range n).map (fun i => f i / d))).sum = 1 ∧
    (checked ((List.range n).map (fun i => f i / d))).Pairwise (· < ·) ∧
    ∀ v ∈ checked ((List.range n).map (fun i => f i / d)), 0 < v := by
  have hsum : ((List.range n).map (fun i => f i / d)).sum = ((List.range n).map f).sum / d := by
    exact sum_map_div f d _
  have hpos : 0 < ((List.range n).map f).sum := by
    apply List.sum_pos
    · intro x hx; obtain ⟨i, _, rfl⟩ := List.mem_map.1 hx; exact hf i
    · simp; omega
  have e : checked ((List.range n).map (fun i => f i / d)) = (List.range n).map (fun i => f i / ((List.range n).map f).sum) := by
    unfold checked
    rw [hsum, List.map_map]
    apply List.map_congr_left
    intro i _
    simp only [Function.comp]
    rw [div_div_div_cancel_right₀ hd]
  rw [e]
  refine ⟨by simp, ?_, ?_, ?_⟩
  · rw [sum_map_div, div_self hpos.ne']
  · rw [List.pairwise_map]
    exact List.pairwise_lt_range.imp (fun h => div_lt_div_of_pos_right (hm _ _ h) hpos)
  · intro v hv
    obtain ⟨i, _, rfl⟩ := List.mem_map.1 hv
    exact div_pos (hf i) hpos

theorem weights_checked {T : Trans K} (hT : T.OK) {wt : Wt} (hw : wt ≠ .uni) {n : ℕ} (hn : 0 < n) :
    (checked (weights T wt n)).length = n ∧ (checked (weights T wt n)).sum = 1 ∧ (checked (weights T wt n)).Pairwise (· < ·) ∧
      ∀ v ∈ checked (weights T wt n), 0 < v := by
  have hn1 : (1 : K) ≤ (n : K) := by exact_mod_cast hn
  have hlog : ∀ x : K, 1 ≤ x → 0 ≤ T.logf x := by
    intro x hx
    rcases hx.eq_or_lt with h | h
    · rw [← h, hT.log_one]
    · have := hT.log_mono 1 x le_rfl h; rw [hT.log_one] at this; exact this.le
  have hlog1 : ∀ x : K, 1 < x → 0 < T.logf x := by
    intro x hx; have := hT.log_mono 1 x le_rfl hx; rwa [hT.log_one] at this
  cases wt with
  | uni => exact absurd rfl hw
  | lin =>
    refine checked_spec (f := fun i : ℕ => (i : K) + 1) ?_ (fun i => by positivity) (fun i j h => by
      have : (i : K) < (j : K) := by exact_mod_cast h
      linarith) hn
    positivity
  | log =>
    refine checked_spec (f := fun i : ℕ => T.logf ((i : K) + 1) + 1) ?_ (fun i => ?_) (fun i j h => ?_) hn
    · unfold rajLogfact
      have h1 := hlog _ hn1
      have h2 : (1 : K) < n * (1 + 4 * n * (1 + 2 * n)) := by
        have h6 : (1 : K) ≤ (n : K) * n := by nlinarith
        have h7 : (0 : K) ≤ (n : K) * n * n := by positivity
        nlinarith
      have h3 := hlog1 _ h2
      have h4 := hlog _ hT.pi
      have h5 : 0 ≤ (n : K) * T.logf n := mul_nonneg (by linarith) h1
      apply ne_of_gt
      linarith
    · have := hlog ((i : K) + 1) (by have : (0 : K) ≤ i := Nat.cast_nonneg i; linarith)
      linarith
    · have h0 : (0 : K) ≤ i := Nat.cast_nonneg i
      have : (i : K) < (j : K) := by exact_mod_cast h
      have := hT.log_mono ((i : K) + 1) ((j : K) + 1) (by linarith) (by linarith)
      linarith
  | exp =>
    refine checked_spec (f := fun i : ℕ => T.expf ((i : K) + 1 - 1)) ?_ (fun i => hT.exp_pos _) (fun i j h => ?_) hn
    · have h1 := hT.exp_mono 0 1 one_pos
      have h2 := hT.exp_mono 0 n (by linarith)
      rw [hT.exp_zero] at h1 h2
      exact div_ne_zero (by linarith) (by linarith)
    · have : (i : K) < (j : K) := by exact_mod_cast h
      exact hT.exp_mono _ _ (by linarith)

/-- **C41, who leaves.** With weights, the emigrants are drawn from a ranking of the members in which the draw probabilities increase strictly and sum to
one: the better the member the likelier it leaves when `BestLeave` holds (`wb`, first half of `awb`, second half of `abw`), the worse the likelier
otherwise. -/
theorem C41_who_leaves {so : Sorts K} (hs : so.OK) {T : Trans K} (hT : T.OK) {rng : Rng K} (hr : rng.OK) {wt : Wt} (hw : wt ≠ .uni) {order : Order}
    (ho : order ≠ .none) {gfrac : K} {cyc j ei : ℕ} {p : Pop K} (hg : Good p) (he : ei ≤ p.members.length) (hne : p.members ≠ [])
    {fit : List K → K} (hA : Aligned fit p) (hnan : ∀ v ∈ p.fits, v ≠ none) :
    ∃ (ranked : List (List K)) (w : List K), ranked.Perm p.members ∧
      ranked.Pairwise (fun x y => if BestLeave order gfrac then fit y ≤ fit x else fit x ≤ fit y) ∧
      w.length = p.members.length ∧ w.sum = 1 ∧ w.Pairwise (· < ·) ∧ (∀ v ∈ w, 0 < v) ∧
      ∃ q r, p.export so T rng wt order gfrac cyc j ei = .ok (q, r) ∧
        r.Perm ((rng.choice cyc j p.members.length ei w).filterMap (fun i => ranked[i]?)) := by
  have hpos : 0 < p.members.length := List.length_pos_of_ne_nil hne
  obtain ⟨s1, s2, s3⟩ := sorted_ok hs (decide (BestLeave order gfrac)) hg
  have hA' := s3 fit hnan hA
  have hlen : (p.sorted so (decide (BestLeave order gfrac))).members.length = p.members.length := s1.length_eq
  obtain ⟨w1, w2, w3, w4⟩ := weights_checked hT hw hpos
  obtain ⟨q, r, e1, -⟩ := C41_export hs (T := T) hr (wt := wt) (order := order) (Or.inr ho) (gfrac := gfrac) (cyc := cyc) (j := j) hg he
  refine ⟨(p.sorted so (decide (BestLeave order gfrac))).members, checked (weights T wt p.members.length), s1, ?_, w1, w2, w3, w4, q, r, e1, ?_⟩
  · have hzl : ∀ v ∈ List.zip p.fits p.members, v.1 ≠ none ∧ ∀ y, v.1 = some y → y = fit v.2 := by
      intro v hv
      obtain ⟨i, hi⟩ := List.mem_iff_getElem?.1 hv
      rw [List.getElem?_zip_eq_some] at hi
      exact ⟨hnan _ (List.mem_of_getElem? hi.1), fun y hy => hA i v.2 y hi.2 (by rw [hi.1, hy])⟩
    have hp := hs.pairs_sorted (decide (BestLeave order gfrac)) _ (fun v hv => (hzl v hv).1)
    have hmem := hs.pairs_perm (decide (BestLeave order gfrac)) (List.zip p.fits p.members)
    simp only [Pop.sorted, List.pairwise_map]
    refine hp.imp_of_mem (fun {a b} ha hb h => ?_)
    obtain ⟨a1, a2⟩ := hzl a (hmem.mem_iff.1 ha)
    obtain ⟨b1, b2⟩ := hzl b (hmem.mem_iff.1 hb)
    obtain ⟨x, hx⟩ := Option.ne_none_iff_exists'.1 a1
    obtain ⟨y, hy⟩ := Option.ne_none_iff_exists'.1 b1
    have := h x y hx hy
    rw [a2 x hx, b2 y hy] at this
    simpa using this
  · unfold Pop.export at e1
    rw [if_neg hw, orderNow_spec ho] at e1
    dsimp only at e1
    unfold Pop.remove at e1
    rw [if_neg (by rw [s2.n, hlen]; omega), if_neg (by rw [hlen]; omega), hlen] at e1
    dsimp only at e1
    obtain ⟨c1, c2, c3⟩ := hr.choice_ok cyc j p.members.length ei (checked (weights T wt p.members.length)) he
    generalize rng.choice cyc j p.members.length ei (checked (weights T wt p.members.length)) = idx at c1 c2 c3 e1 ⊢
    have hp := sortAsc_perm id idx
    have hpr : (sortAsc id idx).reverse.Perm idx := (List.reverse_perm _).trans hp
    have hsd : (sortAsc id idx).reverse.Pairwise (fun a b => b < a) := by
      rw [List.pairwise_reverse]
      have h1 := sortAsc_sorted (K := ℕ) id idx
      have h2 : (sortAsc (K := ℕ) id idx).Nodup := hp.nodup_iff.2 c1
      exact (h1.and h2).imp (fun h => lt_of_le_of_ne h.1 h.2)
    rw [show popDesc idx (p.sorted so (decide (BestLeave order gfrac))).members = _ from
      popAll_ok hsd (fun i hi => by rw [hlen]; exact c3 i (hpr.mem_iff.1 hi))] at e1
    dsimp only at e1
    split at e1
    · cases e1
    · cases e1
      exact hpr.filterMap _

end

/-- The real logarithm, exponential and pi (3.14...) are as assumed. -/
example : Trans.OK (K := ℝ) ⟨Real.log, Real.exp, 314 / 100⟩ where
  log_one := Real.log_one
  log_mono := fun x y hx h => Real.log_lt_log (by linarith) h
  exp_pos := Real.exp_pos
  exp_zero := Real.exp_zero
  exp_mono := fun x y h => Real.exp_lt_exp.2 h
  pi := by norm_num

/-- A population of three with known values, annealed order in its second half: the worst one (`[3]`) carries most weight and leaves. -/
example : ((⟨[[1], [3], [2]], [some 1, some 3, some 2], 3, [1], 0⟩ : Pop ℚ).export
    ⟨fun r l => l.insertionSort (fun a b => if r then b.1.getD 0 ≤ a.1.getD 0 else a.1.getD 0 ≤ b.1.getD 0),
      fun r l => l.insertionSort (fun a b => if r then b.getD 0 ≤ a.getD 0 else a.getD 0 ≤ b.getD 0)⟩
    ⟨fun x => x, fun x => x, 3⟩
    ⟨fun _ _ _ _ => 1, fun _ _ n k w => (List.range n).reverse.take k, fun _ l => l, fun _ n w => [n]⟩
    .lin .awb (3 / 4) 1 0 1).map (fun x => (x.1.members, x.1.fits, x.2)) = .ok ([[1], [2]], [some 1, some 2], [[3]]) := by decide +kernel

end Neorl.AEO

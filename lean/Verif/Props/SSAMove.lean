import Verif.SwarmTrace
import Verif.Props.SSA
import Mathlib.Analysis.SpecialFunctions.Exp

/-!
# Property theorems C64: how a salp moves

Stated on the sequence of evaluated positions: block `k` of the log is the chain of generation `k`.
-/

set_option linter.unusedSectionVars false
set_option linter.unusedVariables false

namespace Neorl.SSA

section
variable {K : Type} [Field K] [LinearOrder K] [IsStrictOrderedRing K] [FloorRing K]

/-- Specification: `c2` is in `[0, 1]`. -/
def Draw.Unit (d : Draw K) : Prop := ∀ j, 0 ≤ d.c2 j ∧ d.c2 j ≤ 1

theorem moveFrom_row {c : Conf K} {k : ℕ} {c1 : K} {dr : ℕ → Draw K} {best : List K} {i0 : ℕ} {prev : List K} {pop pop' : List (List K)}
    (h : moveFrom c k c1 dr best i0 prev pop = .ok pop') (i : ℕ) {p : List K} (hp : pop[i]? = some p) : ∃ q before, pop'[i]? = some q ∧
      (if i = 0 then before = prev else pop'[i - 1]? = some before) ∧
      repair c k (dr (i0 + i)) (if 2 * (i0 + i) < c.nsalps then leader c c1 (dr (i0 + i)) best p else follower before p) = .ok q := by
  induction pop generalizing i0 prev pop' i with
  | nil => simp at hp
  | cons row rows ih =>
    simp only [moveFrom] at h
    split at h
    · cases h
    rename_i row' hr
    split at h
    · cases h
    rename_i rows' hrs
    cases h
    cases i with
    | zero =>
      simp only [List.getElem?_cons_zero, Option.some.injEq] at hp
      subst hp
      exact ⟨row', prev, by simp, by simp, hr⟩
    | succ i =>
      rw [List.getElem?_cons_succ] at hp
      obtain ⟨q, before, h1, h2, h3⟩ := ih hrs i hp
      refine ⟨q, before, by simpa using h1, ?_, by rw [show i0 + (i + 1) = i0 + 1 + i by ring]; exact h3⟩
      simp only [Nat.add_one_ne_zero, if_false, Nat.add_sub_cancel]
      cases i with
      | zero => simp at h2; simp [h2]
      | succ i => simpa using h2

/-- **C64.** Every generation, every float coordinate.  The salps in the first half of the chain are put at the best point evaluated so far plus or minus `c1` times some point of the
box, whatever their own position was; each salp of the second half is put exactly halfway between its own position and its predecessor's new
position. -/
theorem C64_ssa_move {c : Conf K} (hS : c.S.OK) {m : Bool} {userFit : List K → K} {dr : ℕ → ℕ → Draw K} {pos0 : List (List K)}
    (hf : ∀ p ∈ pos0, c.S.Feasible p) (hd : ∀ k i, (dr k i).Unit) {r : Swarm.Result K} (h : evolute c m userFit dr pos0 = .ok r) {k i j : ℕ}
    (hk : k < c.ngen) (hi : i < c.nsalps) {p q : List K} (hp : r.log[k * c.nsalps + i]? = some p) (hq : r.log[(k + 1) * c.nsalps + i]? = some q)
    {b : K × K} (ht : c.S.types[j]? = some VType.float) (hb : c.S.bounds[j]? = some b) {x y : K} (hx : p[j]? = some x) (hy : q[j]? = some y) :
    (2 * i < c.nsalps → ∃ c1 B z, coefC1 c k = .ok c1 ∧ IsBest m userFit (r.log.take ((k + 1) * c.nsalps)) B (userFit B) ∧ b.1 ≤ z ∧ z ≤ b.2 ∧
      (y = clamp b.1 b.2 (B.getD j 0 + c1 * z) ∨ y = clamp b.1 b.2 (B.getD j 0 - c1 * z))) ∧
    (c.nsalps ≤ 2 * i → ∃ before u, r.log[(k + 1) * c.nsalps + i - 1]? = some before ∧ before[j]? = some u ∧ y = (x + u) / 2) := by
  have hmv0 : Swarm.MoveOK c.S c.nsalps (move c dr) := fun k b ps ps' _ hps hn h => move_ok hS dr hps hn h
  obtain ⟨B, hB, hmv⟩ := Swarm.evolute_steps hmv0 hf h hk
  have hcon := Swarm.evolute_contract hmv0 hf h
  unfold move at hmv
  split at hmv
  · cases hmv
  rename_i c1 hc1
  have hp' : (Swarm.blk c.nsalps r.log k)[i]? = some p := by rw [Swarm.getElem?_blk hi, hp]
  obtain ⟨q', before, e1, e2, e3⟩ := moveFrom_row hmv i hp'
  rw [Swarm.getElem?_blk hi, hq] at e1; cases e1
  rw [Nat.zero_add] at e3
  constructor
  · intro hl
    rw [if_pos hl] at e3
    have hbd : c.S.bounds.getD j (0, 0) = b := by rw [List.getD_eq_getElem?_getD, hb]; rfl
    obtain ⟨u1, u2⟩ := hd k i j
    have hbb : b.1 ≤ b.2 := hS.ordered b (List.mem_of_getElem? hb)
    refine ⟨c1, B, (b.2 - b.1) * (dr k i).c2 j + b.1, hc1, hB, by nlinarith, by nlinarith, ?_⟩
    by_cases hc3 : (dr k i).c3 j < 1 / 2
    · left
      have hv : (leader c c1 (dr k i) B p)[j]? = some (B.getD j 0 + c1 * ((b.2 - b.1) * (dr k i).c2 j + b.1)) := by
        simp only [leader, List.getElem?_mapIdx, hx, Option.map_some, hbd, if_pos hc3]
      have := Space.repair_float hS e3 ht hb hv
      rw [hy] at this; exact Option.some.inj this
    · right
      have hv : (leader c c1 (dr k i) B p)[j]? = some (B.getD j 0 - c1 * ((b.2 - b.1) * (dr k i).c2 j + b.1)) := by
        simp only [leader, List.getElem?_mapIdx, hx, Option.map_some, hbd, if_neg hc3]
      have := Space.repair_float hS e3 ht hb hv
      rw [hy] at this; exact Option.some.inj this
  · intro hl
    rw [if_neg (by omega)] at e3
    rw [if_neg (by omega), Swarm.getElem?_blk (by omega)] at e2
    have hidx : (k + 1) * c.nsalps + i - 1 = (k + 1) * c.nsalps + (i - 1) := by omega
    have hbf : c.S.Feasible before := hcon.feas _ (List.mem_of_getElem? e2)
    have hpf : c.S.Feasible p := hcon.feas _ (List.mem_of_getElem? hp)
    have hjl : j < before.length := by rw [hbf.1.length_eq]; exact (List.getElem?_eq_some_iff.1 hb).1
    have hu : before[j]? = some before[j] := List.getElem?_eq_getElem hjl
    refine ⟨before, before[j], by rw [hidx]; exact e2, hu, ?_⟩
    have hv : (follower before p)[j]? = some ((x + before[j]) / 2) := by
      simp only [follower, List.getElem?_zipWith, hx, hu]
    have h1 := Space.repair_float hS e3 ht hb hv
    rw [hy] at h1
    have h2 := Option.some.inj h1
    have b1 := inBox_getElem? hpf.1 hx hb
    have b2 := inBox_getElem? hbf.1 hu hb
    rw [h2]
    unfold clamp
    rw [min_eq_left (by linarith [b1.2, b2.2]), max_eq_right (by linarith [b1.1, b2.1])]

/-- **C64 (defect).** The step of a leader is measured from the origin, not from the box: if the lower bound is positive and `c1 * lb` exceeds the width of the box, every leader
coordinate ends on a bound, whatever was drawn. -/
theorem C64_ssa_far_box {c : Conf K} (hS : c.S.OK) {m : Bool} {userFit : List K → K} {dr : ℕ → ℕ → Draw K} {pos0 : List (List K)}
    (hf : ∀ p ∈ pos0, c.S.Feasible p) (hd : ∀ k i, (dr k i).Unit) {r : Swarm.Result K} (h : evolute c m userFit dr pos0 = .ok r) {k i j : ℕ}
    (hk : k < c.ngen) (hi : i < c.nsalps) (hl : 2 * i < c.nsalps) {p q : List K} (hp : r.log[k * c.nsalps + i]? = some p)
    (hq : r.log[(k + 1) * c.nsalps + i]? = some q) {b : K × K} (ht : c.S.types[j]? = some VType.float) (hb : c.S.bounds[j]? = some b)
    {x y c1 : K} (hx : p[j]? = some x) (hy : q[j]? = some y) (hc : coefC1 c k = .ok c1) (hc0 : 0 ≤ c1) (hw : b.2 - b.1 ≤ c1 * b.1) :
    y = b.1 ∨ y = b.2 := by
  have hmv0 : Swarm.MoveOK c.S c.nsalps (move c dr) := fun k b ps ps' _ hps hn h => move_ok hS dr hps hn h
  have hcon := Swarm.evolute_contract hmv0 hf h
  obtain ⟨c1', B, z, e1, e2, e3, e4, e5⟩ := (C64_ssa_move hS hf hd h hk hi hp hq ht hb hx hy).1 hl
  rw [hc] at e1; cases e1
  have hBf : c.S.Feasible B := hcon.feas _ (List.mem_of_mem_take e2.1)
  have hjl : j < B.length := by rw [hBf.1.length_eq]; exact (List.getElem?_eq_some_iff.1 hb).1
  have hBj : B[j]? = some (B.getD j 0) := by rw [List.getD_eq_getElem?_getD, List.getElem?_eq_getElem hjl]; rfl
  have hbb := inBox_getElem? hBf.1 hBj hb
  have hle : b.1 ≤ b.2 := hS.ordered b (List.mem_of_getElem? hb)
  have hz : c1 * b.1 ≤ c1 * z := mul_le_mul_of_nonneg_left e3 hc0
  rcases e5 with h5 | h5
  · right; rw [h5]; unfold clamp
    rw [min_eq_right (by linarith [hbb.1]), max_eq_right hle]
  · left; rw [h5]; unfold clamp
    rw [min_eq_left (by linarith [hbb.2]), max_eq_left (by linarith [hbb.2])]

/-- **C64.** The coefficient `c1` of the leaders.  By default generation `l = 1 .. ngen` uses `2 * exp(-(4 l / ngen)^2)`: below 2 from the start, strictly falling, and
`2 * exp(-16)` in the last generation.  A scalar is used as it is and entry `l - 1` of a list in generation `l`. -/
theorem C64_ssa_coefficient {c : Conf ℝ} (hexp : c.c1fun = fun (l n : ℕ) => 2 * Real.exp (-((4 * (l : ℝ) / (n : ℝ)) ^ 2))) {k : ℕ} (hk : k < c.ngen) :
    (c.c1 = .default → ∃ v, coefC1 c k = .ok v ∧ v = 2 * Real.exp (-16 * (((k + 1 : ℕ) : ℝ) / (c.ngen : ℝ)) ^ 2) ∧ 0 < v ∧ v < 2 ∧
      (k + 1 = c.ngen → v = 2 * Real.exp (-16)) ∧ ∀ k' < k, ∃ v', coefC1 c k' = .ok v' ∧ v < v') ∧
    (∀ x, c.c1 = .scalar x → coefC1 c k = .ok x) ∧
    ∀ cs, c.c1 = .list cs → cs.length = c.ngen → ∃ x, cs[k]? = some x ∧ coefC1 c k = .ok x := by
  have hn : (0 : ℝ) < (c.ngen : ℝ) := by exact_mod_cast (by omega : 0 < c.ngen)
  refine ⟨fun hd => ?_, fun x hx => by simp [coefC1, hx], fun cs hc hl => ?_⟩
  · have key : ∀ k, coefC1 c k = .ok (2 * Real.exp (-16 * (((k + 1 : ℕ) : ℝ) / (c.ngen : ℝ)) ^ 2)) := by
      intro k
      simp only [coefC1, hd, hexp]
      congr 3
      ring
    refine ⟨_, key k, rfl, by positivity, ?_, ?_, ?_⟩
    · have : Real.exp (-16 * (((k + 1 : ℕ) : ℝ) / (c.ngen : ℝ)) ^ 2) < 1 := by
        rw [Real.exp_lt_one_iff]
        have : 0 < (((k + 1 : ℕ) : ℝ) / (c.ngen : ℝ)) ^ 2 := by positivity
        linarith
      linarith
    · intro he
      rw [he, div_self hn.ne']
      norm_num
    · intro k' hk'
      refine ⟨_, key k', ?_⟩
      have h1 : ((k' + 1 : ℕ) : ℝ) / (c.ngen : ℝ) < ((k + 1 : ℕ) : ℝ) / (c.ngen : ℝ) := by
        apply div_lt_div_of_pos_right _ hn
        exact_mod_cast Nat.add_lt_add_right hk' 1
      have h0 : 0 ≤ ((k' + 1 : ℕ) : ℝ) / (c.ngen : ℝ) := by positivity
      have : Real.exp (-16 * (((k + 1 : ℕ) : ℝ) / (c.ngen : ℝ)) ^ 2) < Real.exp (-16 * (((k' + 1 : ℕ) : ℝ) / (c.ngen : ℝ)) ^ 2) := by
        rw [Real.exp_lt_exp]
        nlinarith
      linarith
  · have hlt : k < cs.length := by omega
    exact ⟨cs[k], List.getElem?_eq_getElem hlt, by simp [coefC1, hc, hl, List.getElem?_eq_getElem hlt]⟩

/-! ### Concrete cases -/

/-- The hypotheses of `C64_ssa_coefficient` hold for the default arguments. -/
example : ∃ c : Conf ℝ, c.c1 = .default ∧ (c.c1fun = fun (l n : ℕ) => 2 * Real.exp (-((4 * (l : ℝ) / (n : ℝ)) ^ 2))) ∧ 2 < c.ngen :=
  ⟨{ S := { bounds := [(0, 1)], types := [.float], method := .nearestInt, expf := Real.exp }, nsalps := 4, ngen := 10, c1 := .default,
     c1fun := fun (l n : ℕ) => 2 * Real.exp (-((4 * (l : ℝ) / (n : ℝ)) ^ 2)) }, rfl, rfl, by norm_num⟩

example : ∀ k i, (exDr k i).Unit := by intro k i j; simp only [exDr]; norm_num
/-- The run of `Props/SSA.lean`: salps 0 and 1 are leaders, salp 2 follows; -37/12 is halfway between -5 and -7/6. -/
example : (match evolute exC true exFit exDr exPos with | .ok r => r.log.map (fun p => p.getD 0 0) | _ => []) =
    [3, -2, -5, -7 / 6, -7 / 6, -37 / 12, -23 / 9, -23 / 9, -203 / 72] := by decide +kernel

/-- A box far from the origin: all leaders on the bounds. -/
def exFar : Conf ℚ :=
  { S := { bounds := [(10, 12)], types := [.float], method := .nearestInt, expf := fun x => x }, nsalps := 3, ngen := 1, c1 := .scalar (1 / 2), c1fun := fun _ _ => 0 }
example : exFar.S.OK := Space.ok_of_okB (by decide +kernel)
example : (match evolute exFar true exFit exDr [[11], [21 / 2], [23 / 2]] with | .ok r => r.log.map (fun p => p.getD 0 0) | _ => []) =
    [11, 21 / 2, 23 / 2, 12, 12, 47 / 4] := by decide +kernel

end
end Neorl.SSA

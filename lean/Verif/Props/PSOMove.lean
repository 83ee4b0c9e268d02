import Verif.Moves
import Verif.Props.PSO

/-!
# Property theorems C64: how a particle moves
-/

set_option linter.unusedSectionVars false
set_option linter.unusedVariables false

namespace Neorl.PSO

section
variable {K : Type} [Field K] [LinearOrder K] [IsStrictOrderedRing K] [FloorRing K]

/-- Specification: the random factors are in `[0, 1]`. -/
def Draw.Unit (d : Draw K) : Prop := ∀ i, (0 ≤ d.r1 i ∧ d.r1 i ≤ 1) ∧ (0 ≤ d.r2 i ∧ d.r2 i ≤ 1)

theorem gen_ok {c : Conf K} {fit : List K → K} {g : ℕ} {dr : ℕ → Draw K} {s s' : State K} (h : gen c fit g dr s = .ok s') :
    genSwarm c s.w s.swm dr (s.swarm.zip s.mem) = .ok s'.swarm ∧ nextW c g s.w = .ok s'.w := by
  unfold gen at h
  simp only at h
  split at h
  · cases h
  rename_i off hoff
  split at h
  · cases h
  rename_i w hw
  split at h
  · cases h
  cases h
  exact ⟨hoff, hw⟩

/-- **C64.** The inertia weight in generation `g`: with `timew` it falls linearly from `wmax` and would reach `wmin` only after the last generation; with
`constric` and `globw` the stored weight never changes. -/
theorem C64_pso_weight {c : Conf K} {fit : List K → K} {dr : ℕ → ℕ → Draw K} {pos0 : List (List K)} {g : ℕ} {s : State K}
    (h : run c fit dr pos0 g = .ok s) :
    (c.mech = .timew → c.kwW = none → c.w0 = c.wmax → c.npar ≠ 0 → s.w = c.wmax - (c.wmax - c.wmin) * ((g : K) / (c.ngen : K))) ∧
    (c.mech ≠ .timew → s.w = c.w0) := by
  induction g generalizing s with
  | zero =>
    simp only [run, init] at h
    split at h <;> cases h
    exact ⟨fun _ _ h _ => by simp [h], fun _ => rfl⟩
  | succ g ih =>
    simp only [run] at h
    split at h
    · cases h
    rename_i s0 h0
    obtain ⟨-, hw⟩ := gen_ok h
    obtain ⟨i1, i2⟩ := ih h0
    refine ⟨fun hm hk hw0 hnp => ?_, fun hm => ?_⟩
    · simp only [nextW, hm, hk] at hw
      injection hw with hw
      have hp : (c.npar : K) ≠ 0 := by exact_mod_cast hnp
      have e : (c.wmax - c.wmin) * (((g + 1) * c.npar : ℕ) : K) / ((c.ngen * c.npar : ℕ) : K) = (c.wmax - c.wmin) * ((((g : ℕ) : K) + 1) / (c.ngen : K)) := by
        push_cast
        rw [mul_div_assoc, mul_div_mul_right _ _ hp]
      rw [← hw, e]; push_cast; ring
    · have : nextW c g s0.w = .ok s0.w := by
        unfold nextW
        split
        · rename_i e; exact absurd e hm
        · rfl
      rw [this] at hw; injection hw with hw; rw [← hw]; exact i2 hm

/-- **C64 (defect).** Weights given by the keyword `w` are used one generation late: the first generation uses `wmax`, generation `g` uses entry `g-1`, and the last
entry is never used. -/
theorem C64_pso_keyword_late {c : Conf K} {fit : List K → K} {dr : ℕ → ℕ → Draw K} {pos0 : List (List K)} {ws : List K} (hm : c.mech = .timew)
    (hk : c.kwW = some ws) {g : ℕ} {s : State K} (h : run c fit dr pos0 g = .ok s) :
    (g = 0 → s.w = c.w0) ∧ ∀ k, g = k + 1 → ws[k]? = some s.w := by
  cases g with
  | zero =>
    simp only [run, init] at h
    split at h <;> cases h
    exact ⟨fun _ => rfl, fun k hk => by omega⟩
  | succ g =>
    simp only [run] at h
    split at h
    · cases h
    rename_i s0 h0
    obtain ⟨-, hw⟩ := gen_ok h
    refine ⟨by omega, fun k hk' => ?_⟩
    obtain rfl : g = k := by omega
    simp only [nextW, hm, hk] at hw
    split at hw
    · cases hw
    · split at hw
      · cases hw
      · rename_i e; injection hw with hw; rw [← hw]; exact e

/-- Specification: the inertia factor and the factor of the two attractions. -/
def Factors (c : Conf K) (w sfit lfit om ch : K) : Prop :=
  (c.mech = .timew → om = w ∧ ch = 1) ∧ (c.mech = .constric → om = w ∧ ch = w) ∧ (c.mech = .globw → ch = 1 ∧ (lfit ≠ 0 → om = 11 / 10 - sfit / lfit))

theorem newVel_form {c : Conf K} {w sfit lfit : K} {d : Draw K} (hd : d.Unit) (hc1 : 0 ≤ c.c1) (hc2 : 0 ≤ c.c2) (i : ℕ) (x v lp sp : K) :
    ∃ om ch α β, Factors c w sfit lfit om ch ∧ 0 ≤ α ∧ α ≤ c.c1 ∧ 0 ≤ β ∧ β ≤ c.c2 ∧
      newVel c w sfit lfit d i x v lp sp = om * v + ch * (α * (lp - x) + β * (sp - x)) := by
  obtain ⟨⟨a1, a2⟩, b1, b2⟩ := hd i
  have ha : c.c1 * d.r1 i ≤ c.c1 := by nlinarith
  have hb : c.c2 * d.r2 i ≤ c.c2 := by nlinarith
  have ha0 := mul_nonneg hc1 a1
  have hb0 := mul_nonneg hc2 b1
  cases hm : c.mech with
  | constric =>
    refine ⟨w, w, c.c1 * d.r1 i, c.c2 * d.r2 i, ⟨fun h => (by rw [hm] at h; cases h), fun _ => ⟨rfl, rfl⟩, fun h => (by rw [hm] at h; cases h)⟩, ha0, ha, hb0, hb, ?_⟩
    simp only [newVel, hm]; ring
  | timew =>
    refine ⟨w, 1, c.c1 * d.r1 i, c.c2 * d.r2 i, ⟨fun _ => ⟨rfl, rfl⟩, fun h => (by rw [hm] at h; cases h), fun h => (by rw [hm] at h; cases h)⟩, ha0, ha, hb0, hb, ?_⟩
    simp only [newVel, hm]; ring
  | globw =>
    refine ⟨if lfit = 0 then d.wr i else 11 / 10 - sfit / lfit, 1, c.c1 * d.r1 i, c.c2 * d.r2 i,
      ⟨fun h => (by rw [hm] at h; cases h), fun h => (by rw [hm] at h; cases h), fun _ => ⟨rfl, fun h => by rw [if_neg h]⟩⟩, ha0, ha, hb0, hb, ?_⟩
    simp only [newVel, hm]; ring

/-- **C64.** Every particle, every generation: the new speed in each coordinate is the old speed times the inertia factor plus a pull towards the particle's own best point of
strength in `[0, c1]` plus a pull towards the best point of the swarm of strength in `[0, c2]`; a float coordinate then moves by exactly that speed and is clamped.
The particle's own best is the best of the positions it has taken, the swarm's best is the best of everything evaluated. -/
theorem C64_pso_move {c : Conf K} (hS : c.S.OK) (hc1 : 0 ≤ c.c1) (hc2 : 0 ≤ c.c2) {fit : List K → K} {dr : ℕ → ℕ → Draw K} (hd : ∀ g i, (dr g i).Unit)
    {pos0 : List (List K)} (hn : pos0.length = c.npar) (hf : ∀ p ∈ pos0, c.S.Feasible p) {g : ℕ} {s s' : State K} (h : run c fit dr pos0 g = .ok s)
    (h' : run c fit dr pos0 (g + 1) = .ok s') {i : ℕ} {p p' : Part K} (hp : s.swarm[i]? = some p) (hp' : s'.swarm[i]? = some p') :
    ∃ lp lfit, s.mem[i]? = some (lp, lfit) ∧ SlotBest false fit c.npar (g + 1) s.log i lp lfit ∧ IsBest false fit s.log s.swm.1 s.swm.2 ∧
      p'.vel.length = p.vel.length ∧ p'.pos.length = p.pos.length ∧
      ∀ (j : ℕ) (x v : K), p.pos[j]? = some x → p.vel[j]? = some v →
        ∃ om ch α β, Factors c s.w s.swm.2 lfit om ch ∧ 0 ≤ α ∧ α ≤ c.c1 ∧ 0 ≤ β ∧ β ≤ c.c2 ∧
          p'.vel[j]? = some (om * v + ch * (α * (lp.getD j 0 - x) + β * (s.swm.1.getD j 0 - x))) ∧
          ∀ b, c.S.types[j]? = some VType.float → c.S.bounds[j]? = some b →
            p'.pos[j]? = some (clamp b.1 b.2 (x + (om * v + ch * (α * (lp.getD j 0 - x) + β * (s.swm.1.getD j 0 - x))))) := by
  have hi := run_inv hS hn hf h
  simp only [run, h] at h'
  obtain ⟨hgs, -⟩ := gen_ok h'
  obtain ⟨pl, hpl, hupd⟩ := (mapRows_ok hgs).2 i p' hp'
  rw [List.getElem?_zip_eq_some] at hpl
  obtain ⟨e1, e2⟩ := hpl
  rw [hp] at e1
  have e1' : p = pl.1 := Option.some.inj e1
  subst e1'
  simp only [Nat.zero_add] at hupd
  refine ⟨pl.2.1, pl.2.2, e2, hi.slots i _ _ e2, hi.best, ?_⟩
  unfold updateParticle at hupd
  simp only at hupd
  split at hupd
  · cases hupd
  rename_i pos hpos
  cases hupd
  obtain ⟨g1, g2⟩ := mapRows_ok hpos
  refine ⟨by simp, g1, ?_⟩
  intro j x v hx hv
  obtain ⟨om, ch, α, β, hF, ha0, ha, hb0, hb, hform⟩ := newVel_form (w := s.w) (sfit := s.swm.2) (lfit := pl.2.2) (hd g i) hc1 hc2 j x v
    (pl.2.1.getD j 0) (s.swm.1.getD j 0)
  have hxd : pl.1.pos.getD j 0 = x := by rw [List.getD_eq_getElem?_getD, hx]; rfl
  have hvel : (pl.1.vel.mapIdx fun i_1 v => newVel c s.w s.swm.2 pl.2.2 (dr g i) i_1 (pl.1.pos.getD i_1 0) v (pl.2.1.getD i_1 0) (s.swm.1.getD i_1 0))[j]? =
      some (om * v + ch * (α * (pl.2.1.getD j 0 - x) + β * (s.swm.1.getD j 0 - x))) := by
    rw [List.getElem?_mapIdx, hv, Option.map_some, hxd, hform]
  refine ⟨om, ch, α, β, hF, ha0, ha, hb0, hb, hvel, ?_⟩
  intro b ht hbd
  have hjl : j < pos.length := by rw [g1]; exact (List.getElem?_eq_some_iff.1 hx).1
  obtain ⟨x2, hx2, hnp⟩ := g2 j _ (List.getElem?_eq_getElem hjl)
  rw [hx] at hx2; cases hx2
  rw [Nat.zero_add] at hnp
  have hvd : (pl.1.vel.mapIdx fun i_1 v => newVel c s.w s.swm.2 pl.2.2 (dr g i) i_1 (pl.1.pos.getD i_1 0) v (pl.2.1.getD i_1 0) (s.swm.1.getD i_1 0)).getD j 0 =
      om * v + ch * (α * (pl.2.1.getD j 0 - x) + β * (s.swm.1.getD j 0 - x)) := by rw [List.getD_eq_getElem?_getD, hvel]; rfl
  rw [hvd] at hnp
  simp only [newPos, ht, hbd] at hnp
  show pos[j]? = _
  rw [List.getElem?_eq_getElem hjl]
  injection hnp with hnp
  rw [← hnp]
  congr 1
  have hbo := hS.ordered b (List.mem_of_getElem? hbd)
  generalize x + (om * v + ch * (α * (pl.2.1.getD j 0 - x) + β * (s.swm.1.getD j 0 - x))) = y
  unfold clamp
  by_cases h1 : y > b.2
  · rw [if_pos h1, if_neg (not_lt.2 hbo), min_eq_right h1.le, max_eq_right hbo]
  · rw [if_neg h1, min_eq_left (not_lt.1 h1)]
    by_cases h2 : y < b.1
    · rw [if_pos h2, max_eq_left h2.le]
    · rw [if_neg h2, max_eq_right (not_lt.1 h2)]

/-- **C64.** The mechanism `globw` depends on the sign and direction of the fitness.  Minimising a positive fitness, its inertia factor is between 1/10 and 11/10; maximising a
positive fitness, it is at most 1/10 and has no lower bound: every value up to 1/10 is the factor for some positive fitness values. -/
theorem C64_pso_globw {c : Conf K} (hS : c.S.OK) {m : Bool} {userFit : List K → K} (hpos : ∀ x, 0 < userFit x) {dr : ℕ → ℕ → Draw K} {pos0 : List (List K)}
    (hn : pos0.length = c.npar) (hf : ∀ p ∈ pos0, c.S.Feasible p) {g : ℕ} {s : State K} (h : run c (fun x => sgn (!m) (userFit x)) dr pos0 g = .ok s)
    {i : ℕ} {lp : List K} {lfit om ch w : K} (hm : s.mem[i]? = some (lp, lfit)) (hmech : c.mech = .globw) (hF : Factors c w s.swm.2 lfit om ch) :
    (m = true → 1 / 10 ≤ om ∧ om < 11 / 10) ∧ (m = false → om ≤ 1 / 10) := by
  have hi := run_inv hS hn hf h
  obtain ⟨-, b2, -⟩ := hi.best
  have hle := hi.mem_le _ (List.mem_of_getElem? hm)
  obtain ⟨-, e2, -⟩ := hi.slots i _ _ hm
  have p1 := hpos s.swm.1
  have p2 := hpos lp
  simp only at hle
  constructor
  · rintro rfl
    simp only [sgn, Bool.not_true, Bool.false_eq_true, if_false] at b2 e2
    have hne : lfit ≠ 0 := by rw [e2]; exact neg_ne_zero.2 p2.ne'
    rw [(hF.2.2 hmech).2 hne]
    have e : s.swm.2 / lfit = userFit s.swm.1 / userFit lp := by rw [b2, e2, neg_div_neg_eq]
    rw [e]
    have h1 : userFit s.swm.1 / userFit lp ≤ 1 := by rw [div_le_one p2]; rw [b2, e2] at hle; linarith
    have h2 : 0 < userFit s.swm.1 / userFit lp := div_pos p1 p2
    constructor <;> linarith
  · rintro rfl
    simp only [sgn, Bool.not_false, if_true] at b2 e2
    have hne : lfit ≠ 0 := by rw [e2]; exact p2.ne'
    rw [(hF.2.2 hmech).2 hne, b2, e2]
    have h1 : 1 ≤ userFit s.swm.1 / userFit lp := by rw [one_le_div p2]; rw [b2, e2] at hle; linarith
    linarith

/-- **C64 (defect).** For maximisation the `globw` inertia factor is unbounded below, so speeds can grow without limit: for every bound there are positive fitness values (swarm
best above the particle's best) with a factor beyond it. -/
theorem C64_pso_globw_unbounded (c : Conf K) (hmech : c.mech = .globw) (d : Draw K) (i : ℕ) (B v : K) (hv : 0 < v) (x : K) :
    ∃ sfit lfit : K, 0 < lfit ∧ lfit ≤ sfit ∧ newVel c c.w0 sfit lfit d i x v x x < B := by
  refine ⟨max 1 ((11 / 10 * v - B) / v + 1), 1, one_pos, le_max_left _ _, ?_⟩
  simp only [newVel, hmech, one_ne_zero, if_false, sub_self, mul_zero, add_zero, div_one]
  have h1 := le_max_right (1 : K) ((11 / 10 * v - B) / v + 1)
  have h2 : ((11 / 10 * v - B) / v + 1) * v ≤ max 1 ((11 / 10 * v - B) / v + 1) * v := mul_le_mul_of_nonneg_right h1 hv.le
  have h3 : (11 / 10 * v - B) / v * v = 11 / 10 * v - B := div_mul_cancel₀ _ hv.ne'
  have h4 : ((11 / 10 * v - B) / v + 1) * v = 11 / 10 * v - B + v := by rw [add_mul, h3, one_mul]
  have e : (11 / 10 - max 1 ((11 / 10 * v - B) / v + 1)) * v = 11 / 10 * v - max 1 ((11 / 10 * v - B) / v + 1) * v := by ring
  rw [e]; linarith

/-! ### Concrete cases -/

def exSf : Space ℚ := { bounds := [(-5, 5), (0, 3)], types := [.float, .float], method := .nearestInt, expf := fun x => x }
def exCf : Conf ℚ := { exC with S := exSf }
example : ∀ g i, (exDr g i).Unit := by intro g i j; simp only [exDr]; norm_num
example : exSf.OK := Space.ok_of_okB (by decide +kernel)
example : ∀ p ∈ exPos, exSf.Feasible p := Space.feasible_all (by decide +kernel)
/-- First coordinates of the swarm before and after the first generation. -/
example : (match run exCf (fun x => -exFit x) exDr exPos 1 with | .ok s => (s.swarm.map fun p => p.pos.getD 0 0, s.swarm.map fun p => p.vel.getD 0 0) | _ => ([], [])) =
    ([3 + (9 / 10 * (3 / 10) + 2 / 3 * (1 - 3)), -2 + (9 / 10 * (-2 / 10) + 2 / 3 * (1 + 2)), 1 + 9 / 100],
     [9 / 10 * (3 / 10) + 2 / 3 * (1 - 3), 9 / 10 * (-2 / 10) + 2 / 3 * (1 + 2), 9 / 100]) := by decide +kernel

end
end Neorl.PSO

import Verif.SSA

/-!
# Property theorems C18: salp swarm
-/

set_option linter.unusedSectionVars false
set_option linter.unusedVariables false

namespace Neorl.SSA

section
variable {K : Type} [Field K] [LinearOrder K] [IsStrictOrderedRing K] [FloorRing K]

/-- **C18.** As C17: best of everything evaluated, exact histories, `nsalps * (ngen + 1)` evaluations, every evaluated
position feasible, last population with its own fitness. -/
theorem C18_evolute {c : Conf K} (hS : c.S.OK) {m : Bool} {userFit : List K → K} {dr : ℕ → ℕ → Draw K}
    {pos0 : List (List K)} (hf : ∀ p ∈ pos0, c.S.Feasible p) {r : Swarm.Result K}
    (h : evolute c m userFit dr pos0 = .ok r) : Swarm.Contract c.S c.nsalps c.ngen m userFit r :=
  Swarm.evolute_contract (fun k b ps ps' _ hps hn h => move_ok hS dr hps hn h) hf h

/-- **C18.** With `nearest_int`, at least one salp, one generation and `c1` missing, scalar or of length `ngen` the call returns. -/
theorem C18_total {c : Conf K} (hS : c.S.OK) (hm : c.S.method = .nearestInt) {m : Bool} {userFit : List K → K}
    {dr : ℕ → ℕ → Draw K} {pos0 : List (List K)} (hf : ∀ p ∈ pos0, c.S.Feasible p) (hn : pos0.length = c.nsalps)
    (h0 : 0 < c.nsalps) (hg : 0 < c.ngen) (hc : ∀ cs, c.c1 = .list cs → cs.length = c.ngen) :
    ∃ r, evolute c m userFit dr pos0 = .ok r := by
  refine Swarm.evolute_total (fun k b ps ps' _ hps hn h => move_ok hS dr hps hn h) hf hn h0 hg ?_
  intro k b ps hk hb hps hl
  have hC : ∃ a, coefC1 c k = .ok a := by
    unfold coefC1
    cases h : c.c1 with
    | default => exact ⟨_, rfl⟩
    | scalar x => exact ⟨_, rfl⟩
    | list cs =>
      have := hc cs h
      simp only [this, if_true]
      rw [List.getElem?_eq_getElem (by omega)]; exact ⟨_, rfl⟩
  obtain ⟨a, ha⟩ := hC
  unfold move
  simp only [ha]
  exact moveFrom_total hS hm hps (Or.inl ⟨rfl, hl⟩)

/-- **C18.** A list `c1` of the wrong length is always rejected. -/
theorem C18_bad_c1 {c : Conf K} {cs : List K} (hc : c.c1 = .list cs) (hl : cs.length ≠ c.ngen) (dr : ℕ → ℕ → Draw K) (k : ℕ)
    (b : List K) (ps : List (List K)) : move c dr k b ps = .error .assertion := by
  simp [move, coefC1, hc, hl]

theorem disc_float {S : Space K} (hfl : ∀ t ∈ S.types, t = VType.float) {alpha : K} {draw : ℕ → K × ℕ} {v v' : List K}
    (h : S.disc alpha draw v = .ok v') (hS : S.OK) : v' = v := by
  obtain ⟨h1, h2, h3⟩ := ensureDiscrete_spec hS.ordered h
  apply List.ext_getElem?
  intro d
  apply h3
  left
  intro ht
  have := hfl _ (List.mem_of_getElem? ht)
  cases this

theorem follower_inBox {bs : List (K × K)} {p q : List K} (hp : InBox bs p) (hq : InBox bs q) : InBox bs (follower p q) := by
  apply inBox_of_getElem?
  · simp [follower, hp.length_eq, hq.length_eq]
  · intro d x b hx hb
    unfold follower at hx
    rw [List.getElem?_zipWith] at hx
    cases e1 : q[d]? with
    | none => rw [e1] at hx; simp at hx
    | some u =>
      cases e2 : p[d]? with
      | none => rw [e1, e2] at hx; simp at hx
      | some w =>
        rw [e1, e2] at hx
        cases hx
        have h1 := inBox_getElem? hp e2 hb
        have h2 := inBox_getElem? hq e1 hb
        constructor <;> linarith [h1.1, h1.2, h2.1, h2.2]

theorem moveFrom_chain {c : Conf K} (hS : c.S.OK) {k : ℕ} {c1 : K} {dr : ℕ → Draw K} {best : List K} {i : ℕ} {prev : List K}
    {pop pop' : List (List K)} (h : moveFrom c k c1 dr best i prev pop = .ok pop') (hp : ∀ p ∈ pop, c.S.Feasible p)
    (hprev : (i = 0 ∧ pop.length = c.nsalps) ∨ c.S.Feasible prev) (hfl : ∀ t ∈ c.S.types, t = VType.float) :
    ∀ (j : ℕ) (old new before : List K), pop[j]? = some old → pop'[j]? = some new → ¬ 2 * (i + j) < c.nsalps →
      (prev :: pop')[j]? = some before → new = List.zipWith (fun b a => (b + a) / 2) old before := by
  induction pop generalizing i prev pop' with
  | nil => intro j old new before h1; simp at h1
  | cons row rows ih =>
    simp only [moveFrom] at h
    split at h
    · cases h
    · rename_i row' hr
      have hl := (hp row (by simp)).1.length_eq
      have hrow : c.S.Feasible row' := by
        refine Space.disc_feasible hS (c.S.clip_inBox hS ?_) hr
        split_ifs with hc
        · simp [leader, hl]
        · rcases hprev with ⟨h0, h1⟩ | hprev
          · subst h0; simp at hc h1; omega
          · simp [follower, hl, hprev.1.length_eq]
      split at h
      · cases h
      · rename_i rows' hrs
        cases h
        intro j old new before h1 h2 h3 h4
        cases j with
        | zero =>
          simp at h1 h2 h4
          subst h1 h2 h4
          rcases hprev with ⟨h0, h1⟩ | hprev
          · subst h0; simp at h3 h1; omega
          rw [if_neg (by simpa using h3)] at hr
          have e := disc_float hfl hr hS
          rw [Space.clip_of_inBox (follower_inBox hprev.1 (hp row (by simp)).1)] at e
          exact e
        | succ j =>
          simp at h1 h2 h4
          exact ih hrs (fun p hp' => hp p (by simp [hp'])) (Or.inr hrow) j old new before h1 h2
            (by rw [show i + 1 + j = i + (j + 1) by ring]; exact h3) (by simpa using h4)

/-- **C18.** In a continuous space each follower (salp `j` with `j ≥ nsalps/2`) moves exactly to the midpoint of its old position and
its predecessor's new position: clamping never interferes. -/
theorem C18_follower {c : Conf K} (hS : c.S.OK) (hfl : ∀ t ∈ c.S.types, t = VType.float) {dr : ℕ → ℕ → Draw K} {k : ℕ}
    {best : List K} {ps ps' : List (List K)} (hps : ∀ p ∈ ps, c.S.Feasible p) (hn : ps.length = c.nsalps)
    (h : move c dr k best ps = .ok ps') (j : ℕ) (hj : c.nsalps ≤ 2 * (j + 1)) {old new before : List K}
    (h1 : ps[j + 1]? = some old) (h2 : ps'[j + 1]? = some new) (h3 : ps'[j]? = some before) :
    new = List.zipWith (fun b a => (b + a) / 2) old before := by
  unfold move at h
  split at h
  · cases h
  · exact moveFrom_chain hS h hps (Or.inl ⟨rfl, hn⟩) hfl (j + 1) old new before h1 h2 (by omega) (by simpa using h3)

/-! ### A concrete run -/

def exS : Space ℚ := { bounds := [(-5, 5), (0, 3)], types := [.float, .int], method := .nearestInt, expf := fun x => x }
def exC : Conf ℚ := { S := exS, nsalps := 3, ngen := 2, c1 := .default, c1fun := fun l n => 1 / (l + 1) }
def exFit : List ℚ → ℚ := fun x => (x.map (fun v => v * v)).sum
def exPos : List (List ℚ) := [[3, 1], [-2, 2], [-5, 3]]
def exDr : ℕ → ℕ → Draw ℚ := fun g i => { c2 := fun _ => 2 / 3, c3 := fun _ => (g : ℚ), disc := fun _ => (0, 0) }

example : exS.OK := Space.ok_of_okB (by decide +kernel)
example : ∀ p ∈ exPos, exS.Feasible p := Space.feasible_all (by decide +kernel)
example : (match evolute exC true exFit exDr exPos with
    | .ok r => decide (r.log.length = 9 ∧ r.y < 8 ∧ r.y = exFit r.x) | _ => false) = true := by decide +kernel
/-- A continuous space with a follower (`nsalps = 2`, salp 1), so `C18_follower` applies. -/
example : (let c : Conf ℚ := { exC with S := { exS with types := [.float, .float] }, nsalps := 2 }
    match move c exDr 0 [1, 1] [[3, 1], [-2, 2]] with
    | .ok [p, q] => decide (q = [(-2 + p.getD 0 0) / 2, (2 + p.getD 1 0) / 2]) | _ => false) = true := by decide +kernel

end
end Neorl.SSA

import Verif.Moves
import Verif.Props.BAT

/-!
# Property theorems C65: how a bat moves
-/

set_option linter.unusedSectionVars false
set_option linter.unusedVariables false

namespace Neorl.BAT

section
variable {K : Type} [Field K] [LinearOrder K] [IsStrictOrderedRing K] [FloorRing K]

theorem stage_ok' {c : Conf K} {fit : List K → K} {mv : List K → ℕ → List (List K) → List K → Py (List K)} {pos pos' : List (List K)}
    {best b : WithTop K × List K} {s : K × List K} (h : stage c fit mv pos best = .ok (pos', s, b)) :
    sweep (mv best.2) c.nbats pos = .ok pos' ∧ b = accept s best := by
  unfold stage at h
  split at h
  · cases h
  rename_i p hp
  split at h
  · cases h
  cases h
  exact ⟨hp, rfl⟩

theorem stage1_coord {c : Conf K} (hS : c.S.OK) {l : ℕ} {dr : ℕ → Draw K} {xbest : List K} {i j : ℕ} {pop : List (List K)} {row row' : List K} {B : K}
    {b : K × K} (ht : c.S.types[j]? = some VType.float) (hb : c.S.bounds[j]? = some b) (hB : xbest[j]? = some B)
    (h : stage1 c l dr xbest i pop row = .ok row') (hrow : pop[i]? = some row) (hl : ∀ p ∈ pop, p.length = c.S.bounds.length) :
    ∃ p q x z, (if c.levy then pop.set i (row.mapIdx fun j x => x + (dr i).jump j) else pop)[(dr i).b0]? = some p ∧
      (if c.levy then pop.set i (row.mapIdx fun j x => x + (dr i).jump j) else pop)[(dr i).b1]? = some q ∧ p[j]? = some x ∧ q[j]? = some z ∧
      row'[j]? = some (clamp b.1 b.2 (B + ((c.fmin - c.fmax) * (l : K) / (c.ngen : K) + c.fmax) * (dr i).u1 * (x - z))) := by
  unfold stage1 at h
  simp only at h
  split at h
  · rename_i p q hp hq
    have hlen : ∀ p ∈ (if c.levy then pop.set i (row.mapIdx fun j x => x + (dr i).jump j) else pop), p.length = c.S.bounds.length := by
      intro p hp
      split at hp
      · rcases List.mem_or_eq_of_mem_set hp with hp | rfl
        · exact hl p hp
        · rw [List.length_mapIdx]; exact hl row (List.mem_of_getElem? hrow)
      · exact hl p hp
    have hjb : j < c.S.bounds.length := (List.getElem?_eq_some_iff.1 hb).1
    have hpj : p[j]? = some (p[j]'(by rw [hlen p (List.mem_of_getElem? hp)]; exact hjb)) := List.getElem?_eq_getElem _
    have hqj : q[j]? = some (q[j]'(by rw [hlen q (List.mem_of_getElem? hq)]; exact hjb)) := List.getElem?_eq_getElem _
    refine ⟨p, q, _, _, hp, hq, hpj, hqj, ?_⟩
    exact Space.repair_float hS h ht hb (by simp only [List.getElem?_zipWith, hB, hpj, hqj])
  · cases h

theorem stage_spec' {c : Conf K} {fit : List K → K} {mv : List K → ℕ → List (List K) → List K → Py (List K)} (hmv : StageOK c mv)
    {pos : List (List K)} {best : WithTop K × List K} (hn : pos.length = c.nbats) (hp : ∀ p ∈ pos, c.S.Feasible p) (hb : c.S.Feasible best.2)
    {pos' : List (List K)} {s : K × List K} {b : WithTop K × List K} (h : stage c fit mv pos best = .ok (pos', s, b)) :
    pos'.length = c.nbats ∧ (∀ p ∈ pos', c.S.Feasible p) ∧ c.S.Feasible b.2 ∧ (b.2 = best.2 ∨ b.2 ∈ pos') := by
  unfold stage at h
  split at h
  · cases h
  · rename_i q hq
    obtain ⟨h1, h2⟩ := sweep_ok (P := fun p => c.S.Feasible p) (hmv best.2 hb) hn hp hq
    split at h
    · cases h
    · rename_i t ht
      cases h
      have hi := Swarm.select_inc ht
      refine ⟨h1, h2, ?_, ?_⟩
      · unfold accept
        split_ifs
        · exact h2 _ hi.1
        · exact hb
      · unfold accept
        split_ifs
        · exact Or.inr hi.1
        · exact Or.inl rfl

/-- Specification: the bats whose difference drives the first stage: bats of the old or the new population, or the bat itself after its Lévy jump. -/
def Src (c : Conf K) (old new : List (List K)) (jump : ℕ → K) (i : ℕ) (P : List K) : Prop :=
  P ∈ old ++ new ∨ (c.levy = true ∧ ∃ p, old[i]? = some p ∧ P = p.mapIdx fun j x => x + jump j)

/-- **C65.** One generation, every float coordinate of every bat, from any feasible population.  First stage: the bat is put at the incumbent plus `f` times the difference of
two bats, where `f` lies between 0 and the value `fmax + (fmin - fmax) l/ngen` of the falling frequency.  Second stage: it stays, or is put at the incumbent of that moment
plus loudness times the draw.  Third stage: it stays, or is put at the incumbent of that moment plus pulse rate times the draw. -/
theorem C65_bat_move {c : Conf K} (hS : c.S.OK) {fit : List K → K} {l : ℕ} {dr : ℕ → Draw K} (hu : ∀ i, 0 ≤ (dr i).u1 ∧ (dr i).u1 ≤ 1) {s s' : State K}
    (hn : s.pos.length = c.nbats) (hpos : ∀ p ∈ s.pos, c.S.Feasible p) (hbest : c.S.Feasible s.best.2) (h : gen c fit l dr s = .ok s') {i j : ℕ} (hi : i < c.nbats)
    {b : K × K} (ht : c.S.types[j]? = some VType.float) (hb : c.S.bounds[j]? = some b) :
    ∃ (p1 p2 p3 : List (List K)) (B1 B2 q1 q2 q3 P Q : List K) (y1 y2 y3 u : K),
      s'.log = s.log ++ (p1 ++ p2 ++ p3) ∧ s'.pos = p3 ∧ p1.length = c.nbats ∧ p2.length = c.nbats ∧ p3.length = c.nbats ∧
      (B1 = s.best.2 ∨ B1 ∈ p1) ∧ (B2 = B1 ∨ B2 ∈ p2) ∧ p1[i]? = some q1 ∧ p2[i]? = some q2 ∧ p3[i]? = some q3 ∧
      q1[j]? = some y1 ∧ q2[j]? = some y2 ∧ q3[j]? = some y3 ∧ Src c s.pos p1 (dr i).jump i P ∧ Src c s.pos p1 (dr i).jump i Q ∧
      (0 ≤ u ∧ u ≤ 1 ∧ y1 = clamp b.1 b.2 (s.best.2.getD j 0 + (c.fmax + (c.fmin - c.fmax) * ((l : K) / (c.ngen : K))) * u * (P.getD j 0 - Q.getD j 0))) ∧
      (y2 = if s.r < (dr i).t2 then clamp b.1 b.2 (B1.getD j 0 + s.A * (dr i).w2 j) else y1) ∧
      (y3 = if (dr i).t3 < s.A then clamp b.1 b.2 (B2.getD j 0 + s.r * (dr i).w3 j) else y2) := by
  obtain ⟨p1, s1, b1, p2, s2, b2, p3, s3, b3, h1, h2, h3, rfl⟩ := gen_ok h
  have g1 := (stage_ok' h1).1
  have g2 := (stage_ok' h2).1
  have g3 := (stage_ok' h3).1
  obtain ⟨n1, f1, fb1, ob1⟩ := stage_spec' (stage1_ok hS l dr) hn hpos hbest h1
  obtain ⟨n2, f2, fb2, ob2⟩ := stage_spec' (stage2_ok hS l s.A s.r dr) n1 f1 fb1 h2
  obtain ⟨n3, f3, -, -⟩ := stage_spec' (stage3_ok hS l s.A s.r dr) n2 f2 fb2 h3
  obtain ⟨-, -, a3⟩ := sweep_row g1
  obtain ⟨-, -, c3⟩ := sweep_row g2
  obtain ⟨-, -, d3⟩ := sweep_row g3
  obtain ⟨pp, row, q1, e1, e2, e0, e3, e4⟩ := a3 i hi
  obtain ⟨_, q1', q2, k1, k2, _, _, k4⟩ := c3 i hi
  obtain ⟨_, q2', q3, m1, m2, _, _, m4⟩ := d3 i hi
  rw [e2] at k1; cases k1
  rw [k2] at m1; cases m1
  have hjb : j < c.S.bounds.length := (List.getElem?_eq_some_iff.1 hb).1
  have hbo := hS.ordered b (List.mem_of_getElem? hb)
  have coordOf : ∀ v : List K, c.S.Feasible v → v[j]? = some (v.getD j 0) := by
    intro v hv
    have : j < v.length := by rw [hv.1.length_eq]; exact hjb
    rw [List.getD_eq_getElem?_getD, List.getElem?_eq_getElem this]; rfl
  have hmem : ∀ p ∈ pp, p ∈ s.pos ++ p1 := by
    intro p hp
    obtain ⟨k, hk⟩ := List.mem_iff_getElem?.1 hp
    rw [e3 k] at hk
    split at hk
    · exact List.mem_append_right _ (List.mem_of_getElem? hk)
    · exact List.mem_append_left _ (List.mem_of_getElem? hk)
  have hfe : ∀ p ∈ pp, p.length = c.S.bounds.length := by
    intro p hp
    rcases List.mem_append.1 (hmem p hp) with h | h
    · exact (hpos p h).1.length_eq
    · exact (f1 p h).1.length_eq
  have hppi : pp[i]? = some row := by rw [e3 i, if_neg (lt_irrefl i)]; exact e1
  obtain ⟨P, Q, x, z, hP, hQ, hPx, hQz, hy1⟩ := stage1_coord hS ht hb (coordOf _ hbest) e4 hppi hfe
  have hsrc : ∀ (R : List K) (k : ℕ), (if c.levy then pp.set i (row.mapIdx fun j x => x + (dr i).jump j) else pp)[k]? = some R → Src c s.pos p1 (dr i).jump i R := by
    intro R k hk
    have := List.mem_of_getElem? hk
    split at this
    · rename_i hlv
      rcases List.mem_or_eq_of_mem_set this with h | rfl
      · exact Or.inl (hmem _ h)
      · exact Or.inr ⟨hlv, row, e1, rfl⟩
    · exact Or.inl (hmem _ this)
  have hy2 : q2[j]? = some (if s.r < (dr i).t2 then clamp b.1 b.2 (b1.2.getD j 0 + s.A * (dr i).w2 j) else
      clamp b.1 b.2 (s.best.2.getD j 0 + ((c.fmin - c.fmax) * (l : K) / (c.ngen : K) + c.fmax) * (dr i).u1 * (x - z))) := by
    unfold stage2 at k4
    simp only at k4
    by_cases hc : s.r < (dr i).t2
    · rw [if_pos hc] at k4 ⊢
      exact Space.repair_float hS k4 ht hb (by rw [List.getElem?_mapIdx, coordOf _ fb1, Option.map_some])
    · rw [if_neg hc] at k4 ⊢
      rw [Space.repair_float hS k4 ht hb hy1, clamp_idem hbo]
  have hy3 : q3[j]? = some (if (dr i).t3 < s.A then clamp b.1 b.2 (b2.2.getD j 0 + s.r * (dr i).w3 j) else q2.getD j 0) := by
    unfold stage3 at m4
    simp only at m4
    by_cases hc : (dr i).t3 < s.A
    · rw [if_pos hc] at m4 ⊢
      exact Space.repair_float hS m4 ht hb (by rw [List.getElem?_mapIdx, coordOf _ fb2, Option.map_some])
    · rw [if_neg hc] at m4 ⊢
      have hq2 := coordOf q2 (f2 _ (List.mem_of_getElem? k2))
      rw [Space.repair_float hS m4 ht hb hq2]
      congr 1
      have := inBox_getElem? (f2 _ (List.mem_of_getElem? k2)).1 hq2 hb
      unfold clamp
      rw [min_eq_left this.2, max_eq_right this.1]
  have hPd : P.getD j 0 = x := by rw [List.getD_eq_getElem?_getD, hPx]; rfl
  have hQd : Q.getD j 0 = z := by rw [List.getD_eq_getElem?_getD, hQz]; rfl
  refine ⟨p1, p2, p3, b1.2, b2.2, q1, q2, q3, P, Q, _, _, _, (dr i).u1, ?_, rfl, n1, n2, n3, ob1, ob2, e2, k2, m2, hy1, hy2, hy3,
    hsrc P _ hP, hsrc Q _ hQ, ⟨(hu i).1, (hu i).2, ?_⟩, rfl, ?_⟩
  · simp only [Space.map_clip f1, Space.map_clip f2, Space.map_clip f3]
  · rw [hPd, hQd]; congr 1; ring
  · have : ∀ y, q2[j]? = some y → q2.getD j 0 = y := fun y hy => by rw [List.getD_eq_getElem?_getD, hy]; rfl
    rw [this _ hy2]

/-- **C65 (defect).** The Lévy jump is lost: line 277 overwrites the bat that jumped, so unless the bat itself is one of the two sampled, jump and switch have no effect on its new
position. -/
theorem C65_bat_jump_lost {c c' : Conf K} (hc : c' = { c with levy := c'.levy }) {l : ℕ} {dr dr' : ℕ → Draw K} {xbest : List K} {i : ℕ} {pop : List (List K)} {row : List K}
    (hd : dr' i = { dr i with jump := (dr' i).jump }) (h0 : (dr i).b0 ≠ i) (h1 : (dr i).b1 ≠ i) : stage1 c' l dr' xbest i pop row = stage1 c l dr xbest i pop row := by
  have key : ∀ (c : Conf K) (dr : ℕ → Draw K) (k : ℕ), k ≠ i → (if c.levy then pop.set i (row.mapIdx fun j x => x + (dr i).jump j) else pop)[k]? = pop[k]? := by
    intro c dr k hk
    split
    · rw [List.getElem?_set_ne (Ne.symm hk)]
    · rfl
  have e0 : (dr' i).b0 = (dr i).b0 := by rw [hd]
  have e1 : (dr' i).b1 = (dr i).b1 := by rw [hd]
  have e2 : (dr' i).u1 = (dr i).u1 := by rw [hd]
  have e3 : (dr' i).d1 = (dr i).d1 := by rw [hd]
  have f1 : c'.fmin = c.fmin := by rw [hc]
  have f2 : c'.fmax = c.fmax := by rw [hc]
  have f3 : c'.ngen = c.ngen := by rw [hc]
  have f4 : c'.S = c.S := by rw [hc]
  unfold stage1 repair
  simp only [e0, e1, e2, e3, f1, f2, f3, f4]
  rw [key c' dr' _ h0, key c' dr' _ h1, key c dr _ h0, key c dr _ h1]

/-! ### Concrete cases -/

example : ∀ g i, 0 ≤ (exDr g i).u1 ∧ (exDr g i).u1 ≤ 1 := by intro g i; simp [exDr]
/-- In the run of `Props/BAT.lean` no bat samples itself. -/
example : ∀ i < 5, (exDr 0 i).b0 ≠ i ∧ (exDr 0 i).b1 ≠ i := by decide
/-- First coordinates: the incumbent is 0 and the differences are those of two other bats; then every bat is put at the incumbent plus loudness 1/2, then stays. -/
example : (match run exC exFit exDr exPos 1 with | .ok s => s.log.map (fun p => p.getD 0 0) | _ => []) =
    [-3, -4, 4, 5, -5, -5 / 2, -5 / 2, -5 / 2, -5 / 2, -5 / 2, -5 / 2, -5 / 2, -5 / 2, -5 / 2, -5 / 2] := by decide +kernel

end
end Neorl.BAT

import Verif.Props.PESA

/-!
# C66, C67: how PESA's particles move, fresh particles, warmup
-/

set_option linter.unusedSectionVars false
set_option linter.unusedVariables false

namespace Neorl.PESA

open ER (Mem Sample Tag objOf tagged addAll greedyOne)
open ES (Ind)
open PSO (Mech Part)

section
variable {K : Type} [Field K] [LinearOrder K] [IsStrictOrderedRing K] [FloorRing K]

/-- Specification: the new speed of a coordinate at `x` with speed `v`, own best `lp` (fitness `lfit`), swarm best `sp` (fitness `sfit`) and the two
uniform draws `a`, `b`. -/
def Speed (c : Conf K) (w sfit lfit a b x v lp sp u : K) : Prop :=
  (c.mech = .timew → u = w * v + c.c1 * a * (lp - x) + c.c2 * b * (sp - x)) ∧
  (c.mech = .constric → u = w * v + w * (c.c1 * a) * (lp - x) + w * (c.c2 * b) * (sp - x)) ∧
  (c.mech = .globw → sfit ≠ 0 ∧ u = (111 / 100 - lfit / sfit) * v + c.c1 * a * (lp - x) + c.c2 * b * (sp - x))

/-- Specification: the particle `q` is `p` after one move. -/
def Moved (c : Conf K) (w : K) (swm : List K × K) (d : PSO.Draw K) (p : Part K) (l : List K × K) (q : Part K) : Prop :=
  q.vel.length = p.vel.length ∧ q.pos.length = p.pos.length ∧
  ∀ (j : ℕ) (x v lp sp : K), p.pos[j]? = some x → p.vel[j]? = some v → l.1[j]? = some lp → swm.1[j]? = some sp →
    ∃ u, q.vel[j]? = some u ∧ Speed c w swm.2 l.2 (d.r1 j) (d.r2 j) x v lp sp u ∧
      (∀ b, c.S.types[j]? = some VType.float → c.S.bounds[j]? = some b → q.pos[j]? = some (clamp b.1 b.2 (x + u))) ∧
      (c.S.types[j]? = some VType.int → ¬ d.u j < c.sig u → q.pos[j]? = some x)

theorem updateParticle_moved {c : Conf K} (hS : c.S.OK) {w : K} {swm : List K × K} {d : PSO.Draw K} {p q : Part K} {l : List K × K}
    (h : updateParticle c w swm d p l = .ok q) : Moved c w swm d p l q := by
  unfold updateParticle at h
  split at h
  · cases h
  rename_i vel hvel
  split at h
  · cases h
  rename_i pos hpos
  cases h
  obtain ⟨a1, a2⟩ := mapRows_ok hvel
  obtain ⟨b1, b2⟩ := mapRows_ok hpos
  refine ⟨a1, b1, ?_⟩
  intro j x v lp sp hx hv hl hs
  have hjv : j < vel.length := by rw [a1]; exact (List.getElem?_eq_some_iff.1 hv).1
  have hjp : j < pos.length := by rw [b1]; exact (List.getElem?_eq_some_iff.1 hx).1
  obtain ⟨v', hv', hu⟩ := a2 j _ (List.getElem?_eq_getElem hjv)
  obtain ⟨x', hx', hy⟩ := b2 j _ (List.getElem?_eq_getElem hjp)
  rw [hv] at hv'; cases hv'
  rw [hx] at hx'; cases hx'
  rw [Nat.zero_add] at hu hy
  have hvd : vel.getD j 0 = vel[j] := by rw [List.getD_eq_getElem?_getD, List.getElem?_eq_getElem hjv]; rfl
  rw [hvd] at hy
  have e1 : p.pos.getD j 0 = x := by rw [List.getD_eq_getElem?_getD, hx]; rfl
  have e2 : l.1.getD j 0 = lp := by rw [List.getD_eq_getElem?_getD, hl]; rfl
  have e3 : swm.1.getD j 0 = sp := by rw [List.getD_eq_getElem?_getD, hs]; rfl
  rw [e1, e2, e3] at hu
  refine ⟨vel[j], List.getElem?_eq_getElem hjv, ?_, ?_, ?_⟩
  · unfold newVel at hu
    refine ⟨fun hm => ?_, fun hm => ?_, fun hm => ?_⟩
    · rw [hm] at hu; simp only at hu; injection hu with hu; rw [← hu]
    · rw [hm] at hu; simp only at hu; injection hu with hu; rw [← hu]; ring
    · rw [hm] at hu
      simp only at hu
      split_ifs at hu with h0
      injection hu with hu
      exact ⟨h0, hu.symm⟩
  · intro b ht hb
    show pos[j]? = _
    rw [List.getElem?_eq_getElem hjp]
    congr 1
    unfold PSO.newPos at hy
    have ht' : c.pso.S.types[j]? = some VType.float := ht
    have hb' : c.pso.S.bounds[j]? = some b := hb
    rw [ht', hb'] at hy
    simp only at hy
    injection hy with hy
    rw [← hy]
    have hbo := hS.ordered b (List.mem_of_getElem? hb)
    generalize x + vel[j] = y
    unfold clamp
    by_cases h1 : y > b.2
    · rw [if_pos h1, if_neg (not_lt.2 hbo), min_eq_right h1.le, max_eq_right hbo]
    · rw [if_neg h1, min_eq_left (not_lt.1 h1)]
      by_cases h2 : y < b.1
      · rw [if_pos h2, max_eq_left h2.le]
      · rw [if_neg h2, max_eq_right (not_lt.1 h2)]
  · intro ht hn
    show pos[j]? = _
    rw [List.getElem?_eq_getElem hjp]
    congr 1
    unfold PSO.newPos at hy
    have ht' : c.pso.S.types[j]? = some VType.int := ht
    rw [ht'] at hy
    have hn' : ¬ d.u j < c.pso.sig vel[j] := hn
    cases hb : c.pso.S.bounds[j]? with
    | none => rw [hb] at hy; simp at hy
    | some b =>
      rw [hb] at hy
      simp only at hy
      rw [if_neg hn'] at hy
      injection hy with hy
      exact hy.symm

/-- **C67.** One generation of the swarm: every particle moves by the speed rule of its mechanism with two separate draws per coordinate; what survives are `mu` of the moved
particles, none worse than one that is dropped, each with the better of its old and new point as its own best. -/
theorem C67_swarm_move {c : Conf K} (hS : c.S.OK) {fit : List K → K} {w : K} {swm : List K × K} {step0 : ℕ} {dr : ℕ → PSO.Draw K}
    {ps : List (Part K × (List K × K))} {po : PsoOut K} (h : psoStep c fit w swm step0 dr ps = .ok po) :
    ps.length = c.npop ∧ po.log.length = c.npop ∧ po.pars.length = min c.mu c.npop ∧
    (∀ (i : ℕ) p l, ps[i]? = some (p, l) → ∃ q, Moved c w swm (dr i) p l q ∧ po.log[i]? = some q.pos) ∧
    (∀ r ∈ po.pars, ∃ i p l, ps[i]? = some (p, l) ∧ Moved c w swm (dr i) p l r.part ∧ r.fit = fit r.part.pos ∧ po.log[i]? = some r.part.pos ∧
      r.loc = if l.2 < fit r.part.pos then (r.part.pos, fit r.part.pos) else l) ∧
    ∀ x ∈ po.log, (∃ r ∈ po.pars, r.part.pos = x) ∨ ∀ r ∈ po.pars, fit x ≤ r.fit := by
  unfold psoStep at h
  have hl : ps.length = c.npop := by
    by_contra hl
    rw [if_pos hl] at h
    cases h
  rw [if_neg (not_not.2 hl)] at h
  split at h
  · cases h
  rename_i off hoff
  cases h
  obtain ⟨a1, a2⟩ := mapRows_ok hoff
  have hevl : (PSO.evalLoop fit (off.map fun p => p.pos) (ps.map fun p => p.2) swm).1.length = off.length := by
    rw [evalLoop_length, List.length_map, a1]
  have hget : ∀ (i : ℕ) p l, ps[i]? = some (p, l) → ∃ q, off[i]? = some q ∧ Moved c w swm (dr i) p l q := by
    intro i p l hi
    have hlt : i < off.length := by rw [a1]; exact (List.getElem?_eq_some_iff.1 hi).1
    obtain ⟨pl, e1, e2⟩ := a2 i _ (List.getElem?_eq_getElem hlt)
    rw [hi] at e1; cases e1
    rw [Nat.zero_add] at e2
    exact ⟨off[i], List.getElem?_eq_getElem hlt, updateParticle_moved hS e2⟩
  set all : List (Par K) := (off.zip (PSO.evalLoop fit (off.map fun p => p.pos) (ps.map fun p => p.2) swm).1).map
    fun p => ({ part := p.1, fit := fit p.1.pos, loc := p.2 } : Par K) with hall
  have halll : all.length = c.npop := by
    rw [hall, List.length_map, List.length_zip, hevl, min_self, a1, hl]
  have hallm : ∀ r ∈ all, ∃ i p l, ps[i]? = some (p, l) ∧ Moved c w swm (dr i) p l r.part ∧ r.fit = fit r.part.pos ∧
      (off.map fun p => p.pos)[i]? = some r.part.pos ∧ r.loc = if l.2 < fit r.part.pos then (r.part.pos, fit r.part.pos) else l := by
    intro r hr
    obtain ⟨⟨q, lc⟩, hq, rfl⟩ := List.mem_map.1 hr
    obtain ⟨i, hi⟩ := List.mem_iff_getElem?.1 hq
    rw [List.getElem?_zip_eq_some] at hi
    obtain ⟨e1, e2⟩ := hi
    have hlt : i < ps.length := by rw [← a1]; exact (List.getElem?_eq_some_iff.1 e1).1
    have hps : ps[i]? = some (ps[i].1, ps[i].2) := List.getElem?_eq_getElem hlt
    obtain ⟨q', g1, g2⟩ := hget i _ _ hps
    rw [e1] at g1; cases g1
    refine ⟨i, _, _, hps, g2, rfl, by rw [List.getElem?_map, e1]; rfl, ?_⟩
    have := (PSO.evalLoop_mem fit (ps := off.map fun p => p.pos) (ls := ps.map fun p => p.2) (by simp [a1]) swm).2 i q.pos ps[i].2
      (by rw [List.getElem?_map, e1]; rfl) (by rw [List.getElem?_map, hps]; rfl)
    rw [e2] at this
    injection this
  refine ⟨hl, by simp [a1, hl], by rw [List.length_take, (sortDesc_perm _ _).length_eq, halll], ?_, ?_, ?_⟩
  · intro i p l hi
    obtain ⟨q, e1, e2⟩ := hget i p l hi
    exact ⟨q, e2, by show (off.map fun p => p.pos)[i]? = _; rw [List.getElem?_map, e1]; rfl⟩
  · intro r hr
    exact hallm r ((sortDesc_perm _ _).mem_iff.1 (List.mem_of_mem_take hr))
  · intro x hx
    obtain ⟨i, hi⟩ := List.mem_iff_getElem?.1 (show x ∈ off.map fun p => p.pos from hx)
    obtain ⟨q, hq, rfl⟩ := List.mem_map.1 (List.mem_of_getElem? hi)
    obtain ⟨k, hk⟩ := List.mem_iff_getElem?.1 hq
    have hkl := (List.getElem?_eq_some_iff.1 hk).1
    have hz : (q, (PSO.evalLoop fit (off.map fun p => p.pos) (ps.map fun p => p.2) swm).1[k]'(by rw [hevl]; exact hkl)) ∈
        off.zip (PSO.evalLoop fit (off.map fun p => p.pos) (ps.map fun p => p.2) swm).1 :=
      List.mem_of_getElem? (i := k) (by rw [List.getElem?_zip_eq_some]; exact ⟨hk, List.getElem?_eq_getElem _⟩)
    have hmem : ({ part := q, fit := fit q.pos, loc := _ } : Par K) ∈ all := List.mem_map.2 ⟨_, hz, rfl⟩
    have hsm := (sortDesc_perm (fun p : Par K => p.fit) all).mem_iff.2 hmem
    have hpw := sortDesc_sorted (fun p : Par K => p.fit) all
    rw [← List.take_append_drop c.mu (sortDesc (fun p : Par K => p.fit) all)] at hsm hpw
    rcases List.mem_append.1 hsm with hm | hm
    · exact .inl ⟨_, hm, rfl⟩
    · right
      intro r hr
      exact (List.pairwise_append.1 hpw).2.2 r hr _ hm

/-- **C67.** Every particle that does not survive from the generation before — all of them at the start, the last `npop - mu` of the swarm later — starts at an evaluated point
with a tenth of its position as speed and that point as its own best. -/
theorem C67_fresh_particles {c : Conf K} (hmu : c.mu < c.npop) {fit : List K → K} {dr : ℕ → GDraw K} {pop0 : List (List K × List K)} {g : ℕ} {s : State K}
    (h : run c fit dr pop0 g = .ok s) :
    ∀ p ∈ s.swarm.drop (if g = 0 then 0 else c.mu), p.2.1 = p.1.pos ∧ p.1.vel.length = p.1.pos.length ∧ ∀ (j : ℕ) x, p.1.pos[j]? = some x → p.1.vel[j]? = some (x / 10) := by
  have hv : ∀ x : List K, (vel0 x).length = x.length ∧ ∀ (j : ℕ) y, x[j]? = some y → (vel0 x)[j]? = some (y / 10) := by
    intro x
    refine ⟨by simp [vel0], ?_⟩
    intro j y hy
    rw [vel0, List.getElem?_map, hy]
    simp only [Option.map_some]
    congr 1
    ring
  cases g with
  | zero =>
    simp only [run, init] at h
    split at h
    · cases h
    split at h
    · cases h
    cases h
    intro p hp
    simp only [if_true, List.drop_zero] at hp
    obtain ⟨e, he, rfl⟩ := List.mem_map.1 hp
    exact ⟨rfl, hv e.ind⟩
  | succ g =>
    simp only [run] at h
    split at h
    · cases h
    rename_i s0 h0
    unfold gen at h
    split at h
    · cases h
    simp only at h
    split at h
    · cases h
    split at h
    · cases h
    rename_i po hpo
    split at h
    · cases h
    split at h
    · cases h
    rename_i r m pop swarm chains hrs
    split at h
    · cases h
    cases h
    simp only [Nat.add_eq_zero_iff, one_ne_zero, and_false, if_false]
    have hpl : po.pars.length = c.mu := by
      unfold psoStep at hpo
      have hl : s0.swarm.length = c.npop := by
        by_contra hl
        rw [if_pos hl] at hpo
        cases hpo
      rw [if_neg (not_not.2 hl)] at hpo
      split at hpo
      · cases hpo
      rename_i off hoff
      cases hpo
      rw [List.length_take, (sortDesc_perm _ _).length_eq, List.length_map, List.length_zip, evalLoop_length, List.length_map, (mapRows_ok hoff).1, min_self]
      omega
    unfold resample at hrs
    split at hrs
    · cases hrs
    split at hrs
    · cases hrs
    split at hrs
    · cases hrs
    cases hrs
    intro p hp
    rw [List.drop_append_of_le_length (by rw [List.length_map, hpl]), List.drop_of_length_le (by rw [List.length_map, hpl]), List.nil_append] at hp
    obtain ⟨e, he, rfl⟩ := List.mem_map.1 hp
    exact ⟨rfl, hv e.1⟩

/-- **C66 (defect).** Exactly `npop` warmup samples are refused, although the documentation of `evolute` allows them; the same number of given samples is accepted by this check. -/
theorem C66_warmup_strict {c : Conf K} {m : Bool} {userFit : List K → K} {dr : ℕ → GDraw K} {pop0 : List (List K × List K)} (hl : pop0.length = c.npop) :
    evolute c m false userFit dr pop0 = .error .assertion ∧
    (1 ≤ c.mu ∧ c.mu < c.npop → c.cxpb + c.mutpb ≤ 1 → c.ngen = 0 → evolute c m true userFit dr pop0 ≠ .error .assertion) := by
  constructor
  · unfold evolute
    by_cases h1 : 1 ≤ c.mu ∧ c.mu < c.npop
    · rw [if_neg (not_not.2 h1), if_neg (by rintro ⟨h, -⟩; cases h), if_pos ⟨by simp, hl.le⟩]
    · rw [if_pos h1]
  · intro hmu hpb hn
    unfold evolute
    rw [if_neg (not_not.2 hmu), if_neg (by rintro ⟨-, h⟩; omega), if_neg (by rintro ⟨h, -⟩; exact h rfl), if_neg (not_not.2 hpb), hn]
    intro h
    simp only [run, init] at h
    split at h
    · rename_i e he
      split at he
      · rename_i e' he'
        cases he
        cases h
        obtain ⟨mem, hmem⟩ := ER.add_total (m := (ER.new c.cap : Mem (Sample K))) (by
          have : 0 < c.cap := by unfold Conf.cap; split_ifs <;> omega
          simp [ER.new]; omega)
          (tagged .na ((pop0.map fun p => ({ ind := p.1, strat := p.2, fit := sgn (!m) (userFit p.1) } : Ind K)).map fun e => (e.ind, e.fit)))
        rw [hmem] at he'
        cases he'
      · split at he
        · cases he; cases h
        · cases he
    · rename_i s hs
      split at h
      · cases h
      · cases h

end

example : exC.S.OK := Space.ok_of_okB (by decide +kernel)

/-- A particle that moves in both kinds of coordinates. -/
example : (match psoStep exC exFit (9 / 10) ([0, 0], 0) 1 (fun _ => { r1 := fun _ => 1 / 2, r2 := fun _ => 1 / 3, wr := fun _ => 0, u := fun _ => 1, pick := fun _ => 1 })
      (exPop.take 4 |>.map fun p => ({ pos := p.1, vel := vel0 p.1 }, (p.1, exFit p.1))) with
    | .ok po => decide (po.log = [[127 / 100, 1], [-127 / 150, 2], [127 / 300, 1], [127 / 75, 1]] ∧ po.pars.length = 2) | _ => false) = true := by decide +kernel

end Neorl.PESA

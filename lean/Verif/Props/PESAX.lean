import Verif.PESAX
import Verif.Props.PESA
import Verif.Props.PESAMove
import Verif.Props.PESA2
import Verif.Props.DE
import Verif.Props.Seeded
import Verif.Crowd

/-!
# Property theorems C100: PESAX
-/

set_option linter.unusedSectionVars false
set_option linter.unusedVariables false

namespace Neorl.PESAX

open ER (Mem Sample Tag objOf tagged addAll greedyOne)
open ES (Ind)
open PSO (Mech Part)
open PESA (Par PsoOut psoStep vel0 linearAnneal Rec Same MemOK length_tagged mem_tagged select_cover)

section
variable {K : Type} [Field K] [LinearOrder K] [IsStrictOrderedRing K] [FloorRing K]

/-- What one generation of DE hands back. -/
theorem de_method {c : Conf K} (hS : c.S.OK) (hm : c.S.method = .nearestInt) {fit : List K → K} {dr : ℕ → ℕ → DE.Draw K} {pos0 : List (List K)}
    (hl : pos0.length = c.npop) (hf : ∀ p ∈ pos0, c.S.Feasible p) {r : DE.Result K}
    (h : DE.evolute c.de false fit dr (fun _ => []) pos0 = .ok r) :
    r.lastPop.length = c.npop ∧ (∀ p ∈ r.lastPop, Rec c.pesa fit r.log p) ∧ (∀ x ∈ r.log, ∃ p ∈ r.lastPop, fit x ≤ p.2) ∧
    (∀ x ∈ r.log, c.S.Feasible x) ∧ r.log.length = 2 * c.npop := by
  obtain ⟨a1, a2, a3, a4, a5⟩ := DE.C09_last_pop (c := c.de) hS hl (fun x hx => (hf x hx).1) h
  obtain ⟨b1, b2, b3, b4, b5⟩ := DE.C08_best_of_all (c := c.de) hS hm hl hf h
  refine ⟨a1, fun p hp => ⟨a4 _ (a3 p hp).2.1, (a3 p hp).1, (a3 p hp).2.1⟩, ?_, a4, by rw [a5]; simp [Conf.de]⟩
  intro x hx
  exact ⟨_, a2, by simpa [NotWorse] using b3 x hx⟩

theorem mem_select {k : ℕ} {pop : List (List K × K)} {p : List K × K} (h : p ∈ select k pop) : p ∈ pop :=
  mem_sortDesc.1 (List.mem_of_mem_take h)

theorem length_select {k : ℕ} {pop : List (List K × K)} (h : k ≤ pop.length) : (select k pop).length = k := by
  simp [select, h]

theorem resample_ok {c : Conf K} {d : GDraw K} {alpha : K} {mem mem' : Mem (Sample K)} {de : List (List K × K)} {pop pop' : List (Ind K)}
    {pars : List (Par K)} {swarm : List (Part K × (List K × K))} {de' : List (List K)}
    (h : resample c d alpha mem de pop pars = .ok (mem', pop', swarm, de')) :
    Same mem mem' ∧
    (pop'.length = pop.length + c.mu ∧ ∀ e ∈ pop', e ∈ pop ∨ ∃ b ∈ mem.storage, e.ind = b.1 ∧ e.fit = b.2.1 ∧ e.strat.length = c.S.bounds.length) ∧
    (swarm.length = pars.length + (c.npop - c.mu) ∧ ∀ p ∈ swarm, (∃ q ∈ pars, p = (q.part, q.loc)) ∨
      ∃ b ∈ mem.storage, p = ({ pos := b.1, vel := vel0 b.1 }, (b.1, b.2.1))) ∧
    (de'.length = de.length + (c.npop - c.mu) ∧ ∀ x ∈ de', (∃ p ∈ de, p.1 = x) ∨ ∃ b ∈ mem.storage, b.1 = x) := by
  unfold resample at h
  split at h
  · cases h
  rename_i m1 es h1
  split at h
  · cases h
  rename_i m2 ps h2
  split at h
  · cases h
  rename_i m3 ss h3
  cases h
  obtain ⟨a1, a2, a3⟩ := ER.sampleSeeded_ok h1
  obtain ⟨b1, b2, b3⟩ := ER.sampleSeeded_ok h2
  obtain ⟨d1, d2, d3⟩ := ER.sampleSeeded_ok h3
  have s1 : Same mem m1 := by rw [a1]; exact (Same.rfl' mem).sort
  have s2 : Same mem m2 := by rw [b1]; exact s1.sort
  have s3 : Same mem mem' := by rw [d1]; exact s2.sort
  refine ⟨s3, ⟨by simp [a2], ?_⟩, ⟨by simp [b2], ?_⟩, by simp [d2], ?_⟩
  · intro e he
    rcases List.mem_append.1 he with he | he
    · exact Or.inl he
    · obtain ⟨k, hk⟩ := List.mem_iff_getElem?.1 he
      rw [List.getElem?_mapIdx] at hk
      cases hb : es[k]? with
      | none => rw [hb] at hk; cases hk
      | some b =>
        rw [hb] at hk
        simp only [Option.map_some, Option.some.injEq] at hk
        refine Or.inr ⟨b, a3 b (List.mem_of_getElem? hb), ?_, ?_, ?_⟩
        · rw [← hk]
        · rw [← hk]
        · rw [← hk]; simp
  · intro p hp
    rcases List.mem_append.1 hp with hp | hp
    · obtain ⟨q, hq, rfl⟩ := List.mem_map.1 hp
      exact Or.inl ⟨q, hq, rfl⟩
    · obtain ⟨b, hb, rfl⟩ := List.mem_map.1 hp
      exact Or.inr ⟨b, s1.mem.1 (b3 b hb), rfl⟩
  · intro x hx
    rcases List.mem_append.1 hx with hx | hx
    · obtain ⟨p, hp, rfl⟩ := List.mem_map.1 hx
      exact Or.inl ⟨p, hp, rfl⟩
    · obtain ⟨b, hb, rfl⟩ := List.mem_map.1 hx
      exact Or.inr ⟨b, s2.mem.1 (d3 b hb), rfl⟩

/-- What holds after `g` generations with `n0` warmup samples. -/
structure Inv (c : Conf K) (fit : List K → K) (n0 g : ℕ) (s : State K) : Prop where
  size : s.mem.size = c.pesa.cap
  mem : MemOK c.pesa fit s.log s.mem.storage
  ne : s.mem.storage ≠ []
  pop : ∀ e ∈ s.pop, Rec c.pesa fit s.log (e.ind, e.fit) ∧ e.strat.length = c.S.bounds.length
  npop : s.pop.length = if g = 0 then c.npop else 2 * c.mu
  nde : s.de.length = c.npop
  de : ∀ x ∈ s.de, c.S.Feasible x ∧ x ∈ s.log
  nswarm : s.swarm.length = c.npop
  swarm : ∀ p ∈ s.swarm, c.S.Feasible p.1.pos ∧ p.1.vel.length = c.S.bounds.length ∧ Rec c.pesa fit s.log p.2
  swm : Rec c.pesa fit s.log s.swm
  step0 : s.step0 = 1 + g * c.npop
  alpha : s.alpha = if g = 0 then c.alpha0 else linearAnneal (1 + g * c.npop) c.pesa.steps c.alpha0 c.alpha1
  feas : ∀ z ∈ s.log, c.S.Feasible z
  len : s.log.length = n0 + g * (4 * c.npop)
  nhist : s.hist.length = g
  att : ∀ y ∈ s.hist, ∃ z ∈ s.log, fit z = y
  best : g ≠ 0 → ∃ b ∈ s.mem.storage, s.best = some b ∧ s.hist.getLast? = some b.2.1 ∧ ∀ e ∈ s.mem.storage, e.2.1 ≤ b.2.1
  keep : n0 + g * (3 * c.mu) ≤ c.pesa.cap → ER.NW s.mem (n0 + g * (3 * c.mu)) ∧ (∀ z ∈ s.log, ∃ e ∈ s.mem.storage, fit z ≤ e.2.1) ∧
    HistBest false fit n0 (4 * c.npop) s.log s.hist

theorem init_inv {c : Conf K} (hmu : 1 ≤ c.mu ∧ c.mu < c.npop) {fit : List K → K} {pop0 : List (List K × List K)}
    (hlen : c.npop ≤ pop0.length) (hp : ∀ p ∈ pop0, c.S.Feasible p.1 ∧ p.2.length = c.S.bounds.length) {s : State K}
    (h : init c fit pop0 = .ok s) : Inv c fit pop0.length 0 s := by
  unfold init at h
  simp only at h
  split at h
  · cases h
  rename_i mem hmem
  split at h
  · cases h
  rename_i b hb
  cases h
  set all : List (Ind K) := pop0.map fun p => { ind := p.1, strat := p.2, fit := fit p.1 } with hall
  have hall' : ∀ e ∈ all, Rec c.pesa fit (all.map fun e => e.ind) (e.ind, e.fit) ∧ e.strat.length = c.S.bounds.length := by
    intro e he
    obtain ⟨p, hp', rfl⟩ := List.mem_map.1 he
    exact ⟨⟨(hp p hp').1, rfl, List.mem_map.2 ⟨_, he, rfl⟩⟩, (hp p hp').2⟩
  have hs : ∀ {k : ℕ} {e : Ind K}, e ∈ (sortDesc (fun e : Ind K => e.fit) all).take k → e ∈ all :=
    fun he => mem_sortDesc.1 (List.mem_of_mem_take he)
  obtain ⟨m1, m2, m3, m4⟩ := ER.add_ok hmem
  have hal : all.length = pop0.length := by simp [hall]
  refine ⟨m1, ?_, ?_, ?_, ?_, ?_, ?_, ?_, ?_, ?_, by simp, by simp, ?_, ?_, rfl, by simp, by simp, ?_⟩
  · intro e he
    rcases m2 e he with he | he
    · have := mem_tagged he
      obtain ⟨a, ha, e1⟩ := List.mem_map.1 this
      have e2 := (hall' a ha).1
      rw [e1] at e2
      exact e2
    · simp [ER.new] at he
  · apply m3
    left
    intro h0
    have := congrArg List.length h0
    rw [length_tagged] at this
    simp [hal] at this
    rw [this] at hlen
    simp at hlen
    omega
  · intro p hp'
    exact hall' p (hs hp')
  · simp [hal]; omega
  · simp [hal]; omega
  · intro x hx
    obtain ⟨e, he, rfl⟩ := List.mem_map.1 hx
    exact ⟨(hall' e (hs he)).1.1, (hall' e (hs he)).1.2.2⟩
  · simp [hal]; omega
  · intro p hp'
    obtain ⟨e, he, rfl⟩ := List.mem_map.1 hp'
    have := (hall' e (hs he)).1
    exact ⟨this.1, by simp [vel0]; exact this.1.1.length_eq, this⟩
  · exact (hall' b (mem_sortDesc.1 (List.mem_of_mem_head? hb))).1
  · intro z hz
    obtain ⟨e, he, rfl⟩ := List.mem_map.1 hz
    exact (hall' e he).1.1
  · simp [hal]
  · intro hcap
    rw [Nat.zero_mul, Nat.add_zero] at hcap
    have hnw : ER.NW (ER.new c.pesa.cap : Mem (Sample K)) 0 := ⟨by simp [ER.new], by simp [ER.new]⟩
    obtain ⟨k1, k2, k3⟩ := ER.add_keep hnw (by rw [length_tagged]; simp [hal]; exact hcap) hmem
    rw [length_tagged] at k1
    refine ⟨?_, ?_, ?_⟩
    · refine k1.mono ?_
      simp [hal]
    · intro z hz
      obtain ⟨e, he, rfl⟩ := List.mem_map.1 hz
      refine ⟨(e.ind, e.fit, .na), k3 _ ?_, ?_⟩
      · exact List.mem_map.2 ⟨(e.ind, e.fit), List.mem_map.2 ⟨e, he, rfl⟩, rfl⟩
      · exact le_of_eq (hall' e he).1.2.1.symm
    · have := histBest_nil false fit (4 * c.npop) (all.map fun e => e.ind)
      simpa [hal] using this

/-- The parts of a generation. -/
theorem gen_ok {c : Conf K} {fit : List K → K} {d : GDraw K} {s s' : State K} (h : gen c fit d s = .ok s') :
    ∃ (os : List (List K × List K)) (r : DE.Result K) (po : PsoOut K) (m1 m2 : Mem (Sample K)) (b : Sample K),
      ES.genOffspring c.pesa.es d.es s.pop = .ok os ∧ DE.evolute c.de false fit (fun _ => c.deDraw d) (fun _ => []) s.de = .ok r ∧
      psoStep c.pesa fit s.w s.swm s.step0 d.pso s.swarm = .ok po ∧
      memoryUpdate s.mem (select c.mu r.lastPop) (ES.select c.mu (os.map fun o => ({ ind := o.1, strat := o.2, fit := fit o.1 } : Ind K))) po.pars = .ok m1 ∧
      resample c d s.alpha m1 (select c.mu r.lastPop) (ES.select c.mu (os.map fun o => ({ ind := o.1, strat := o.2, fit := fit o.1 } : Ind K))) po.pars =
        .ok (m2, s'.pop, s'.swarm, s'.de) ∧
      greedyOne m2 = .ok (s'.mem, b) ∧ s'.swm = po.swm ∧ s'.w = (if c.pesa.proc then s.w else po.w) ∧ s'.step0 = s.step0 + c.npop ∧
      s'.alpha = linearAnneal (s.step0 + c.npop) c.pesa.steps c.alpha0 c.alpha1 ∧ s'.best = some b ∧ s'.hist = s.hist ++ [b.2.1] ∧
      s'.log = s.log ++ (os.map (fun o => o.1) ++ (r.log ++ po.log)) := by
  unfold gen at h
  split at h
  · cases h
  rename_i os hos
  simp only at h
  split at h
  · cases h
  rename_i r hr
  split at h
  · cases h
  rename_i po hpo
  split at h
  · cases h
  rename_i m1 hm1
  split at h
  · cases h
  rename_i m2 pop2 swarm2 de2 hres
  split at h
  · cases h
  rename_i m3 b hb
  cases h
  exact ⟨os, r, po, m1, m2, b, hos, hr, hpo, hm1, hres, hb, rfl, rfl, rfl, rfl, rfl, rfl, rfl⟩

theorem gen_inv {c : Conf K} (hS : c.S.OK) (hm : c.S.method = .nearestInt) (hn : 2 ≤ c.S.bounds.length) (hmu : 1 ≤ c.mu ∧ c.mu < c.npop)
    {fit : List K → K} {n0 g : ℕ} {d : GDraw K} {s s' : State K} (hi : Inv c fit n0 g s) (h : gen c fit d s = .ok s') : Inv c fit n0 (g + 1) s' := by
  obtain ⟨os, r, po, m1, m2, b, hos, hr, hpo, hm1, hres, hb, q1, q2, q3, q4, q5, q6, q7⟩ := gen_ok h
  have hlens : ES.LenOK c.pesa.es s.pop := fun p hp => ⟨(hi.pop p hp).1.1.1.length_eq, (hi.pop p hp).2⟩
  obtain ⟨e1, e2, e3, e4, e5⟩ := PESA.esStep_inv (c := c.pesa) hS hn hmu (fit := fit) hlens hos
  obtain ⟨d1, d2, d3, d4, d5⟩ := de_method hS hm hi.nde (fun p hp => (hi.de p hp).1) hr
  obtain ⟨p1, p2, p3, p4, p5, p6⟩ := PESA.psoStep_inv (c := c.pesa) hS hmu hi.swarm hi.swm hpo
  have e3 : (ES.select c.mu (os.map fun o => ({ ind := o.1, strat := o.2, fit := fit o.1 } : Ind K))).length = c.mu := e3
  have e4 : ∀ e ∈ ES.select c.mu (os.map fun o => ({ ind := o.1, strat := o.2, fit := fit o.1 } : Ind K)),
      Rec c.pesa fit (os.map fun o => o.1) (e.ind, e.fit) ∧ e.strat.length = c.S.bounds.length := e4
  have e5 : ∀ z ∈ os.map (fun o => o.1), ∃ e ∈ ES.select c.mu (os.map fun o => ({ ind := o.1, strat := o.2, fit := fit o.1 } : Ind K)), fit z ≤ e.fit := e5
  set pop1 := ES.select c.mu (os.map fun o => ({ ind := o.1, strat := o.2, fit := fit o.1 } : Ind K)) with hpop1
  set l1 := os.map (fun o => o.1) with hl1
  set new := l1 ++ (r.log ++ po.log) with hnew
  set de1 := select c.mu r.lastPop with hde1
  have hde1l : de1.length = c.mu := length_select (by rw [d1]; exact hmu.2.le)
  have hnewlen : new.length = 4 * c.npop := by
    have p1 : po.log.length = c.npop := p1
    have e1 : os.length = c.npop := e1
    rw [hnew, List.length_append, List.length_append, d5, p1, hl1, List.length_map, e1]; ring
  have hnewf : ∀ z ∈ new, c.S.Feasible z := by
    intro z hz
    rcases List.mem_append.1 hz with hz | hz
    · exact e2 z hz
    · rcases List.mem_append.1 hz with hz | hz
      · exact d4 z hz
      · exact p2 z hz
  have i1 : ∀ z ∈ l1, z ∈ s.log ++ new := fun z hz => List.mem_append_right _ (List.mem_append_left _ hz)
  have i2 : ∀ z ∈ r.log, z ∈ s.log ++ new := fun z hz => List.mem_append_right _ (List.mem_append_right _ (List.mem_append_left _ hz))
  have i3 : ∀ z ∈ po.log, z ∈ s.log ++ new := fun z hz => List.mem_append_right _ (List.mem_append_right _ (List.mem_append_right _ hz))
  have hold : ∀ z ∈ s.log, z ∈ s.log ++ new := fun z hz => List.mem_append_left _ hz
  have hm1' := hm1
  unfold memoryUpdate at hm1
  obtain ⟨u1, u2, u3, u4⟩ := ER.addAll_ok hm1
  obtain ⟨r1, ⟨r2, r3⟩, ⟨r4, r5⟩, r6, r7⟩ := resample_ok hres
  obtain ⟨b1, b2, b3⟩ := ER.greedyOne_ok hb
  have hsame3 : Same m1 s'.mem := by rw [b1]; exact r1.sort
  have hmem : MemOK c.pesa fit (s.log ++ new) m1.storage := by
    intro e he
    rcases u2 e he with ⟨bl, hbl, he⟩ | he
    · simp only [List.mem_cons, List.not_mem_nil, or_false] at hbl
      rcases hbl with rfl | rfl | rfl
      · exact (d2 _ (mem_select (mem_tagged he))).mono i2
      · obtain ⟨h, hh, e0⟩ := List.mem_map.1 (mem_tagged he)
        have := (e4 h hh).1
        rw [e0] at this
        exact this.mono i1
      · obtain ⟨h, hh, e0⟩ := List.mem_map.1 (mem_tagged he)
        have := (p4 h hh).1
        rw [e0] at this
        exact this.mono i3
    · obtain ⟨f1, f2, f3⟩ := hi.mem e he
      exact ⟨f1, f2, hold _ f3⟩
  have hmem3 : MemOK c.pesa fit (s.log ++ new) s'.mem.storage := fun e he => hmem e (hsame3.mem.1 he)
  have hb1 : b ∈ m1.storage := r1.mem.1 b2
  have hbmax : ∀ e ∈ m1.storage, e.2.1 ≤ b.2.1 := fun e he => b3 e (r1.mem.2 he)
  refine ⟨?_, by rw [q7]; exact hmem3, ?_, ?_, ?_, ?_, ?_, ?_, ?_, ?_, ?_, ?_, ?_, ?_, ?_, ?_, ?_, ?_⟩
  · rw [hsame3.1, u1, hi.size]
  · intro h0
    have := hsame3.mem.2 hb1
    rw [h0] at this
    cases this
  · intro p hp
    rw [q7]
    rcases r3 p hp with hp | ⟨q, hq, w1, w2, w3⟩
    · exact ⟨(e4 p hp).1.mono i1, (e4 p hp).2⟩
    · refine ⟨?_, w3⟩
      rw [w1, w2]
      exact hmem q hq
  · rw [r2, e3, if_neg (by omega)]; ring
  · rw [r6, hde1l]; omega
  · intro x hx
    rw [q7]
    rcases r7 x hx with ⟨p, hp, rfl⟩ | ⟨p, hp, rfl⟩
    · have := (d2 p (mem_select hp)).mono i2
      exact ⟨this.1, this.2.2⟩
    · exact ⟨(hmem p hp).1, (hmem p hp).2.2⟩
  · have p3 : po.pars.length = c.mu := p3
    rw [r4, p3]; omega
  · intro p hp
    rw [q7]
    rcases r5 p hp with ⟨q, hq, rfl⟩ | ⟨q, hq, rfl⟩
    · obtain ⟨w1, w2, w3⟩ := p4 q hq
      refine ⟨w1.1, w2, w3.mono ?_⟩
      intro z hz
      rcases List.mem_append.1 hz with hz | hz
      · exact hold z hz
      · exact i3 z hz
    · exact ⟨(hmem q hq).1, by simp [vel0]; exact (hmem q hq).1.1.length_eq, hmem q hq⟩
  · rw [q1, q7]
    refine p5.mono ?_
    intro z hz
    rcases List.mem_append.1 hz with hz | hz
    · exact hold z hz
    · exact i3 z hz
  · rw [q3, hi.step0]; ring
  · rw [q4, hi.step0, if_neg (by omega), show 1 + g * c.npop + c.npop = 1 + (g + 1) * c.npop by ring]
  · intro z hz
    rw [q7] at hz
    rcases List.mem_append.1 hz with hz | hz
    · exact hi.feas z hz
    · exact hnewf z hz
  · rw [q7, List.length_append, hi.len, hnewlen]; ring
  · rw [q6]; simp [hi.nhist]
  · intro y hy
    rw [q6] at hy
    rw [q7]
    rcases List.mem_append.1 hy with hy | hy
    · obtain ⟨z, hz, e⟩ := hi.att y hy
      exact ⟨z, hold z hz, e⟩
    · rw [List.mem_singleton.1 hy]
      obtain ⟨f1, f2, f3⟩ := hmem b hb1
      exact ⟨b.1, f3, f2.symm⟩
  · intro _
    exact ⟨b, hsame3.mem.2 hb1, q5, by rw [q6]; simp, fun e he => hbmax e (hsame3.mem.1 he)⟩
  · intro hcap
    have hcap' : n0 + g * (3 * c.mu) ≤ c.pesa.cap := by
      refine le_trans ?_ hcap
      have : g * (3 * c.mu) ≤ (g + 1) * (3 * c.mu) := Nat.mul_le_mul_right _ (by omega)
      omega
    obtain ⟨k1, k2, k3⟩ := hi.keep hcap'
    have hsum : ([tagged Tag.na de1, tagged .na (pop1.map fun e => (e.ind, e.fit)), tagged .na (po.pars.map fun p => (p.part.pos, p.fit))].map
        List.length).sum = 3 * c.mu := by
      have p3 : po.pars.length = c.mu := p3
      simp only [List.map_cons, List.map_nil, List.sum_cons, List.sum_nil, length_tagged, List.length_map, hde1l, e3, p3]
      ring
    have hnext : n0 + g * (3 * c.mu) + 3 * c.mu = n0 + (g + 1) * (3 * c.mu) := by ring
    obtain ⟨w1, w2, w3⟩ := ER.addAll_keep k1 (by rw [hsum, hi.size, hnext]; exact hcap) hm1
    rw [hsum, hnext] at w1
    have hcover : ∀ z ∈ s.log ++ new, ∃ e ∈ m1.storage, fit z ≤ e.2.1 := by
      intro z hz
      rcases List.mem_append.1 hz with hz | hz
      · obtain ⟨e, he, hle⟩ := k2 z hz
        exact ⟨e, w2 e he, hle⟩
      rcases List.mem_append.1 hz with hz | hz
      · obtain ⟨e, he, hle⟩ := e5 z hz
        refine ⟨(e.ind, e.fit, .na), w3 (tagged .na (pop1.map fun e => (e.ind, e.fit))) (by simp) _ ?_, hle⟩
        exact List.mem_map.2 ⟨(e.ind, e.fit), List.mem_map.2 ⟨e, he, rfl⟩, rfl⟩
      rcases List.mem_append.1 hz with hz | hz
      · obtain ⟨p, hp, hle⟩ := d3 z hz
        obtain ⟨q, hq, hle'⟩ := select_cover (fun e : List K × K => e.2) (k := c.mu) hmu.1 hp
        exact ⟨(q.1, q.2, .na), w3 (tagged .na de1) (by simp) _ (List.mem_map.2 ⟨q, hq, rfl⟩), hle.trans hle'⟩
      · obtain ⟨q, hq, hle⟩ := p6 z hz
        refine ⟨(q.part.pos, q.fit, .na), w3 (tagged .na (po.pars.map fun p => (p.part.pos, p.fit))) (by simp) _ ?_, hle⟩
        exact List.mem_map.2 ⟨(q.part.pos, q.fit), List.mem_map.2 ⟨q, hq, rfl⟩, rfl⟩
    refine ⟨hsame3.nw w1, ?_, ?_⟩
    · intro z hz
      rw [q7] at hz
      obtain ⟨e, he, hle⟩ := hcover z hz
      exact ⟨e, hsame3.mem.2 he, hle⟩
    · rw [q6, q7]
      refine k3.step hnewlen ⟨⟨b.1, (hmem b hb1).2.2, (hmem b hb1).2.1.symm⟩, ?_⟩
      intro z hz
      obtain ⟨e, he, hle⟩ := hcover z hz
      have := hle.trans (hbmax e he)
      simpa [NotWorse] using this

theorem run_inv {c : Conf K} (hS : c.S.OK) (hm : c.S.method = .nearestInt) (hn : 2 ≤ c.S.bounds.length) (hmu : 1 ≤ c.mu ∧ c.mu < c.npop)
    {fit : List K → K} {dr : ℕ → GDraw K} {pop0 : List (List K × List K)} (hlen : c.npop ≤ pop0.length)
    (hp : ∀ p ∈ pop0, c.S.Feasible p.1 ∧ p.2.length = c.S.bounds.length) (g : ℕ) {s : State K}
    (h : run c fit dr pop0 g = .ok s) : Inv c fit pop0.length g s := by
  induction g generalizing s with
  | zero => exact init_inv hmu hlen hp h
  | succ g ih =>
    simp only [run] at h
    split at h
    · cases h
    · rename_i s0 hs0
      exact gen_inv hS hm hn hmu (ih hs0) h

/-- What `evolute` guarantees before it starts, and the invariant at its end. -/
theorem evolute_ok {c : Conf K} (hS : c.S.OK) (hm : c.S.method = .nearestInt) (hn : 2 ≤ c.S.bounds.length) {m given : Bool} {userFit : List K → K}
    {dr : ℕ → GDraw K} {pop0 : List (List K × List K)} (hp : ∀ p ∈ pop0, c.S.Feasible p.1 ∧ p.2.length = c.S.bounds.length)
    {r : Result K} (h : evolute c m given userFit dr pop0 = .ok r) :
    ∃ s b, Inv c (fun x => sgn (!m) (userFit x)) pop0.length c.ngen s ∧ s.best = some b ∧ c.ngen ≠ 0 ∧
      r = { x := b.1, y := sgn (!m) b.2.1, hist := s.hist.map (sgn (!m)), memSize := s.mem.storage.length, log := s.log } := by
  unfold evolute at h
  split at h
  · cases h
  rename_i hmu
  have hmu := not_not.1 hmu
  split at h
  · cases h
  rename_i hg1
  split at h
  · cases h
  rename_i hg2
  split at h
  · cases h
  split at h
  · cases h
  split at h
  · cases h
  rename_i s hs
  split at h
  · cases h
  rename_i b hb
  cases h
  have hlen : c.npop ≤ pop0.length := by
    cases given
    · simp at hg2; omega
    · simp at hg1; omega
  have hi := run_inv hS hm hn hmu hlen hp c.ngen hs
  refine ⟨s, b, hi, hb, ?_, rfl⟩
  intro h0
  rw [h0] at hs
  simp only [run, init] at hs
  split at hs
  · cases hs
  · split at hs
    · cases hs
    · cases hs
      cases hb

/-- **C100.** When the memory is large enough for the warmup samples and the `3 * mu` samples of each generation, the point PESAX returns is the best of everything it
ever evaluated (warmup included), with its own fitness, and entry `g` of the history is the best of everything evaluated up to generation `g`. -/
theorem C100_best {c : Conf K} (hS : c.S.OK) (hm : c.S.method = .nearestInt) (hn : 2 ≤ c.S.bounds.length) {m given : Bool} {userFit : List K → K}
    {dr : ℕ → GDraw K} {pop0 : List (List K × List K)} (hp : ∀ p ∈ pop0, c.S.Feasible p.1 ∧ p.2.length = c.S.bounds.length)
    (hcap : pop0.length + c.ngen * (3 * c.mu) ≤ c.pesa.cap) {r : Result K} (h : evolute c m given userFit dr pop0 = .ok r) :
    IsBest m userFit r.log r.x r.y ∧ HistBest m userFit pop0.length (4 * c.npop) r.log r.hist ∧ r.hist.Pairwise (NotWorse m) := by
  obtain ⟨s, b, hi, hb, hg, rfl⟩ := evolute_ok hS hm hn hp h
  obtain ⟨k1, k2, k3⟩ := hi.keep hcap
  obtain ⟨b', hb1, hb2, hb3, hb4⟩ := hi.best hg
  rw [hb] at hb2
  cases hb2
  obtain ⟨f1, f2, f3⟩ := hi.mem b hb1
  have hbest : IsBest false (fun x => sgn (!m) (userFit x)) s.log b.1 b.2.1 := by
    refine ⟨f3, f2, ?_⟩
    intro z hz
    obtain ⟨e, he, hle⟩ := k2 z hz
    have := hle.trans (hb4 e he)
    simpa [NotWorse] using this
  exact ⟨hbest.flip, k3.flip, k3.flip.pairwise⟩

/-- **C100.** The default memory is large enough as soon as there are at most `3 * ngen * (npop - mu) + 1` warmup samples. -/
theorem C100_default_memory {c : Conf K} (h0 : c.memSize = 0) (hmu : c.mu < c.npop) (n0 : ℕ) :
    n0 + c.ngen * (3 * c.mu) ≤ c.pesa.cap ↔ n0 ≤ 3 * c.ngen * (c.npop - c.mu) + 1 := by
  have hc : c.pesa.cap = 3 * (c.ngen * c.npop) + 1 := by
    unfold PESA.Conf.cap PESA.Conf.steps
    rw [if_neg (by simp [Conf.pesa, h0])]
    simp only [Conf.pesa]
    ring
  obtain ⟨k, hk⟩ := Nat.exists_eq_add_of_lt hmu
  have e : c.npop - c.mu = k + 1 := by omega
  rw [hc, e, hk]
  have : 3 * (c.ngen * (c.mu + k + 1)) = c.ngen * (3 * c.mu) + 3 * c.ngen * (k + 1) := by ring
  omega

/-- **C100.** Whatever the size of the memory: the returned point was evaluated, is feasible and comes with its own fitness; every entry of the history is the
fitness of an evaluated point; there is one entry per generation, the last one being the returned fitness; every evaluated point is feasible and
there are `warmup + 4 * npop * ngen` evaluations (DE evaluates its targets again). -/
theorem C100_attained {c : Conf K} (hS : c.S.OK) (hm : c.S.method = .nearestInt) (hn : 2 ≤ c.S.bounds.length) {m given : Bool} {userFit : List K → K}
    {dr : ℕ → GDraw K} {pop0 : List (List K × List K)} (hp : ∀ p ∈ pop0, c.S.Feasible p.1 ∧ p.2.length = c.S.bounds.length)
    {r : Result K} (h : evolute c m given userFit dr pop0 = .ok r) :
    (r.x ∈ r.log ∧ c.S.Feasible r.x ∧ r.y = userFit r.x) ∧ (∀ y ∈ r.hist, ∃ z ∈ r.log, userFit z = y) ∧
    (r.hist.length = c.ngen ∧ r.hist.getLast? = some r.y) ∧ (∀ z ∈ r.log, c.S.Feasible z) ∧
    r.log.length = pop0.length + c.ngen * (4 * c.npop) := by
  obtain ⟨s, b, hi, hb, hg, rfl⟩ := evolute_ok hS hm hn hp h
  obtain ⟨b', hb1, hb2, hb3, hb4⟩ := hi.best hg
  rw [hb] at hb2
  cases hb2
  obtain ⟨f1, f2, f3⟩ := hi.mem b hb1
  refine ⟨⟨f3, f1, ?_⟩, ?_, ⟨by simp [hi.nhist], ?_⟩, hi.feas, hi.len⟩
  · show sgn (!m) b.2.1 = _
    rw [f2, sgn_sgn]
  · intro y hy
    obtain ⟨v, hv, rfl⟩ := List.mem_map.1 hy
    obtain ⟨z, hz, e⟩ := hi.att v hv
    exact ⟨z, hz, by rw [← e, sgn_sgn]⟩
  · simp only [List.getLast?_map, hb3, Option.map_some]

/-- **C100 (defect).** `evolute` overwrites the attribute that holds the `memory_size` argument: a second call on the same object works with a memory no larger
than what the first call stored, whatever its own `ngen` and `warmup`. -/
theorem C100_second_call {c : Conf K} (hS : c.S.OK) (hm : c.S.method = .nearestInt) (hn : 2 ≤ c.S.bounds.length) {m given : Bool} {userFit : List K → K}
    {dr : ℕ → GDraw K} {pop0 : List (List K × List K)} (hp : ∀ p ∈ pop0, c.S.Feasible p.1 ∧ p.2.length = c.S.bounds.length)
    (hcap : pop0.length + c.ngen * (3 * c.mu) ≤ c.pesa.cap) {r : Result K} (h : evolute c m given userFit dr pop0 = .ok r) (ngen' : ℕ) :
    ({ c with memSize := r.memSize, ngen := ngen' } : Conf K).pesa.cap = r.memSize ∧ 0 < r.memSize ∧
    r.memSize ≤ pop0.length + c.ngen * (3 * c.mu) := by
  obtain ⟨s, b, hi, hb, hg, rfl⟩ := evolute_ok hS hm hn hp h
  have hpos : 0 < s.mem.storage.length := List.length_pos_of_ne_nil hi.ne
  refine ⟨?_, hpos, (hi.keep hcap).1.1⟩
  unfold PESA.Conf.cap
  rw [if_pos (by simp only [Conf.pesa]; omega)]
  rfl

/-- **C100.** How the next populations are made: the `mu` best of each method survive, and the rest is filled from the memory.  **Defect:** every sample reseeds the
generator, so the three fillings start with the same samples: DE and the swarm get the very same list, and ES and DE agree on their common length. -/
theorem C100_next {c : Conf K} {fit : List K → K} {d : GDraw K} {s s' : State K} (h : gen c fit d s = .ok s') :
    ∃ (os : List (List K × List K)) (r : DE.Result K) (po : PsoOut K) (es ds : List (List K × K)),
      ES.genOffspring c.pesa.es d.es s.pop = .ok os ∧ DE.evolute c.de false fit (fun _ => c.deDraw d) (fun _ => []) s.de = .ok r ∧
      psoStep c.pesa fit s.w s.swm s.step0 d.pso s.swarm = .ok po ∧
      (∀ p, p ∈ es ∨ p ∈ ds → ∃ b ∈ s'.mem.storage, (b.1, b.2.1) = p) ∧
      s'.pop.map (fun e => (e.ind, e.fit)) = ((sortDesc (fun p : List K × K => p.2) (os.map fun o => (o.1, fit o.1))).take c.mu) ++ es ∧
      s'.swarm = po.pars.map (fun p => (p.part, p.loc)) ++ ds.map (fun p => ({ pos := p.1, vel := p.1.map fun v => 1 / 10 * v }, p)) ∧
      s'.de = ((sortDesc (fun p : List K × K => p.2) r.lastPop).take c.mu).map (fun p => p.1) ++ ds.map (fun p => p.1) ∧
      es.length = c.mu ∧ ds.length = c.npop - c.mu ∧ es.take (c.npop - c.mu) = ds.take c.mu := by
  obtain ⟨os, r, po, m1, m2, b, hos, hr, hpo, hm1, hres, hb, q1, q2, q3, q4, q5, q6, q7⟩ := gen_ok h
  obtain ⟨b1, b2, b3⟩ := ER.greedyOne_ok hb
  have hsame : Same m1 s'.mem := by rw [b1]; exact (resample_ok hres).1.sort
  unfold resample at hres
  split at hres
  · cases hres
  rename_i k1 es h1
  split at hres
  · cases hres
  rename_i k2 ps h2
  split at hres
  · cases hres
  rename_i k3 ds h3
  have hsort : ∀ m : Mem (Sample K), ER.sortMem objOf (ER.sortMem objOf m) = ER.sortMem objOf m := by
    intro m; simp [ER.sortMem, PESA2.sortDesc_idem]
  have hsm : ∀ (m : Mem (Sample K)) (k : ℕ), ER.sampleSeeded (c.pow s.alpha) c.stream (ER.sortMem objOf m) k =
      ER.sampleSeeded (c.pow s.alpha) c.stream m k := by
    intro m k
    unfold ER.sampleSeeded ER.samplePrior
    rw [hsort]
    simp only [ER.sortMem, length_sortDesc]
  obtain ⟨a1, a2, a3⟩ := ER.sampleSeeded_ok h1
  rw [a1, hsm] at h2
  obtain ⟨c1, c2, c3⟩ := ER.sampleSeeded_ok h2
  rw [c1, hsm] at h3
  have e23 : ds = ps := by
    have := h3.symm.trans h2
    simp only [Except.ok.injEq, Prod.mk.injEq] at this
    exact this.2
  subst e23
  simp only [Except.ok.injEq, Prod.mk.injEq] at hres
  obtain ⟨-, r2, r3, r4⟩ := hres
  refine ⟨os, r, po, es.map (fun e => (e.1, e.2.1)), ds.map (fun e => (e.1, e.2.1)), hos, hr, hpo, ?_, ?_, ?_, ?_, ?_, ?_, ?_⟩
  · intro p hp
    rcases hp with hp | hp
    · obtain ⟨e, he, rfl⟩ := List.mem_map.1 hp
      exact ⟨e, hsame.mem.2 (a3 e he), rfl⟩
    · obtain ⟨e, he, rfl⟩ := List.mem_map.1 hp
      exact ⟨e, hsame.mem.2 (c3 e he), rfl⟩
  · rw [← r2, List.map_append]
    congr 1
    · unfold ES.select
      rw [List.map_take, ← ND.sortDesc_map (fun p : List K × K => p.2) (fun e : Ind K => (e.ind, e.fit)), List.map_map]
      rfl
    · apply List.ext_getElem?
      intro i
      simp only [List.getElem?_map, List.getElem?_mapIdx]
      cases es[i]? <;> rfl
  · rw [← r3, List.map_map]
    rfl
  · rw [← r4, List.map_map]
    rfl
  · simp [a2]
  · simp [c2]
  · rw [← List.map_take, ← List.map_take]
    congr 1
    rcases le_total c.mu (c.npop - c.mu) with hle | hle
    · have := ER.C39_same_samples hle h1 h2
      rw [List.take_of_length_le (by rw [a2]; exact hle), this]
    · have := ER.C39_same_samples hle h2 h1
      rw [this, List.take_take]
      congr 1
      omega

/-- **C100.** The velocities of the swarm inside PESAX: every particle that survives a generation has moved with `c1` times the first draw towards its own best and `c2` times the
second towards the best of the swarm, and the swarm handed on begins with these survivors. -/
theorem C100_velocity {c : Conf K} (hS : c.S.OK) {fit : List K → K} {d : GDraw K} {s s' : State K} (h : gen c fit d s = .ok s') :
    ∃ n, n = min c.mu c.npop ∧ n ≤ s'.swarm.length ∧ ∀ q ∈ s'.swarm.take n, ∃ i p l, s.swarm[i]? = some (p, l) ∧
      ∀ (j : ℕ) (x v lp sp : K), p.pos[j]? = some x → p.vel[j]? = some v → l.1[j]? = some lp → s.swm.1[j]? = some sp →
        ∃ u, q.1.vel[j]? = some u ∧
          (c.mech = .timew → u = s.w * v + c.c1 * (d.pso i).r1 j * (lp - x) + c.c2 * (d.pso i).r2 j * (sp - x)) ∧
          (c.mech = .constric → u = s.w * (v + c.c1 * (d.pso i).r1 j * (lp - x) + c.c2 * (d.pso i).r2 j * (sp - x))) ∧
          (c.mech = .globw → s.swm.2 ≠ 0 ∧ u = (111 / 100 - l.2 / s.swm.2) * v + c.c1 * (d.pso i).r1 j * (lp - x) + c.c2 * (d.pso i).r2 j * (sp - x)) ∧
          (∀ b, c.S.types[j]? = some VType.float → c.S.bounds[j]? = some b → q.1.pos[j]? = some (clamp b.1 b.2 (x + u))) := by
  obtain ⟨os, r, po, es, ds, a1, a2, a3, a4, a5, a6, a7, a8, a9, a10⟩ := C100_next h
  obtain ⟨b1, b2, b3, b4, b5, b6⟩ := PESA.C67_swarm_move (c := c.pesa) hS a3
  have hl : (po.pars.map (fun p => (p.part, p.loc))).length = min c.mu c.npop := by rw [List.length_map]; exact b3
  refine ⟨_, rfl, by rw [a6, List.length_append, hl]; exact Nat.le_add_right _ _, fun q hq => ?_⟩
  rw [a6, List.take_left' hl] at hq
  obtain ⟨p0, hp0, rfl⟩ := List.mem_map.1 hq
  obtain ⟨i, p, l, c1, c2, -⟩ := b5 p0 hp0
  refine ⟨i, p, l, c1, fun j x v lp sp hx hv hlp hsp => ?_⟩
  obtain ⟨u, d1, ⟨d2, d3, d4⟩, d5, -⟩ := c2.2.2 j x v lp sp hx hv hlp hsp
  refine ⟨u, d1, d2, fun hm => ?_, d4, d5⟩
  rw [d3 hm]
  show s.w * v + s.w * (c.c1 * _) * _ + s.w * (c.c2 * _) * _ = _
  ring

/-- **C100.** Sizes and coherence of the three populations: after each generation ES holds `2 * mu` individuals, DE and the swarm `npop` each; all of them are feasible,
and every individual, DE member, local best, the swarm best and every memory entry is an evaluated point stored with its own fitness. -/
theorem C100_populations {c : Conf K} (hS : c.S.OK) (hm : c.S.method = .nearestInt) (hn : 2 ≤ c.S.bounds.length) (hmu : 1 ≤ c.mu ∧ c.mu < c.npop)
    {fit : List K → K} {dr : ℕ → GDraw K} {pop0 : List (List K × List K)} (hlen : c.npop ≤ pop0.length)
    (hp : ∀ p ∈ pop0, c.S.Feasible p.1 ∧ p.2.length = c.S.bounds.length) {g : ℕ} {s : State K} (h : run c fit dr pop0 (g + 1) = .ok s) :
    s.pop.length = 2 * c.mu ∧ s.swarm.length = c.npop ∧ s.de.length = c.npop ∧
    (∀ e ∈ s.pop, c.S.Feasible e.ind ∧ e.fit = fit e.ind ∧ e.ind ∈ s.log) ∧
    (∀ p ∈ s.swarm, c.S.Feasible p.1.pos ∧ (c.S.Feasible p.2.1 ∧ p.2.2 = fit p.2.1 ∧ p.2.1 ∈ s.log)) ∧
    (c.S.Feasible s.swm.1 ∧ s.swm.2 = fit s.swm.1 ∧ s.swm.1 ∈ s.log) ∧ (∀ x ∈ s.de, c.S.Feasible x ∧ x ∈ s.log) ∧
    ∀ e ∈ s.mem.storage, c.S.Feasible e.1 ∧ e.2.1 = fit e.1 ∧ e.1 ∈ s.log := by
  have hi := run_inv hS hm hn hmu hlen hp (g + 1) h
  exact ⟨by rw [hi.npop, if_neg (by omega)], hi.nswarm, hi.nde, fun e he => (hi.pop e he).1,
    fun p hp' => ⟨(hi.swarm p hp').1, (hi.swarm p hp').2.2⟩, hi.swm, hi.de, hi.mem⟩

/-- **C100.** The prioritisation coefficient starts at `alpha_init`, never decreases, stays between `alpha_init` and `alpha_end`, and is `alpha_end` after
the last generation. -/
theorem C100_alpha {c : Conf K} (hS : c.S.OK) (hm : c.S.method = .nearestInt) (hn : 2 ≤ c.S.bounds.length) (hmu : 1 ≤ c.mu ∧ c.mu < c.npop)
    (ha : c.alpha0 ≤ c.alpha1) {fit : List K → K} {dr : ℕ → GDraw K} {pop0 : List (List K × List K)} (hlen : c.npop ≤ pop0.length)
    (hp : ∀ p ∈ pop0, c.S.Feasible p.1 ∧ p.2.length = c.S.bounds.length) {g g' : ℕ} (hgg : g ≤ g') {s s' : State K}
    (h : run c fit dr pop0 g = .ok s) (h' : run c fit dr pop0 g' = .ok s') :
    (g = 0 → s.alpha = c.alpha0) ∧ (c.alpha0 ≤ s.alpha ∧ s.alpha ≤ s'.alpha ∧ s'.alpha ≤ c.alpha1) ∧
    (0 < g' → g' = c.ngen → s'.alpha = c.alpha1) := by
  have e1 := (run_inv hS hm hn hmu hlen hp g h).alpha
  have e2 := (run_inv hS hm hn hmu hlen hp g' h').alpha
  refine ⟨fun h0 => by rw [e1, if_pos h0], ⟨?_, ?_, ?_⟩, ?_⟩
  · rw [e1]; split_ifs
    · exact le_rfl
    · exact (PESA.linearAnneal_mem ha _ _).1
  · rw [e1, e2]
    split_ifs with h1 h2 h3
    · exact le_rfl
    · exact (PESA.linearAnneal_mem ha _ _).1
    · omega
    · unfold linearAnneal
      have hd : 0 ≤ c.alpha1 - c.alpha0 := sub_nonneg.2 ha
      have : min (((1 + g * c.npop : ℕ) : K) / (c.pesa.steps : K)) 1 ≤ min (((1 + g' * c.npop : ℕ) : K) / (c.pesa.steps : K)) 1 := by
        apply min_le_min_right
        apply div_le_div_of_nonneg_right _ (Nat.cast_nonneg _)
        exact_mod_cast Nat.add_le_add_left (Nat.mul_le_mul_right _ hgg) 1
      nlinarith [mul_le_mul_of_nonneg_right this hd]
  · rw [e2]; split_ifs
    · exact ha
    · exact (PESA.linearAnneal_mem ha _ _).2
  · intro hg0 hg'
    rw [e2, if_neg (by omega)]
    unfold linearAnneal
    have hst : (0 : K) < (c.pesa.steps : K) := by
      have : 0 < c.ngen * c.npop := Nat.mul_pos (by omega) (by omega)
      exact_mod_cast this
    have : 1 ≤ ((1 + g' * c.npop : ℕ) : K) / (c.pesa.steps : K) := by
      rw [le_div_iff₀ hst, one_mul]
      have : c.pesa.steps ≤ 1 + g' * c.npop := by unfold PESA.Conf.steps; simp only [Conf.pesa]; rw [hg']; omega
      exact_mod_cast this
    rw [min_eq_right this]
    ring

/-- **C100 (defect).** With more than three cores the weight of `speed_mech='timew'` never decreases: it is updated in a child process and lost.  (With at
most three cores it is `0.9 - 0.5 * step / steps`, `step` being the first step of the generation just done.) -/
theorem C100_timew {c : Conf K} (hS : c.S.OK) (hm : c.S.method = .nearestInt) (hn : 2 ≤ c.S.bounds.length) (hmu : 1 ≤ c.mu ∧ c.mu < c.npop)
    (hw : c.mech = Mech.timew) {fit : List K → K} {dr : ℕ → GDraw K} {pop0 : List (List K × List K)} (hlen : c.npop ≤ pop0.length)
    (hp : ∀ p ∈ pop0, c.S.Feasible p.1 ∧ p.2.length = c.S.bounds.length) {g : ℕ} {s : State K} (h : run c fit dr pop0 g = .ok s) :
    (3 < c.ncores → s.w = c.w0) ∧
    (c.ncores ≤ 3 → ∀ k, g = k + 1 → s.w = 9 / 10 - 1 / 2 * ((1 + k * c.npop : ℕ) : K) / ((c.ngen * c.npop : ℕ) : K)) := by
  induction g generalizing s with
  | zero =>
    refine ⟨fun _ => ?_, fun _ k hk => by omega⟩
    simp only [run, init] at h
    split at h
    · cases h
    · split at h
      · cases h
      · cases h; rfl
  | succ g ih =>
    simp only [run] at h
    split at h
    · cases h
    · rename_i s0 hs0
      have hi := run_inv hS hm hn hmu hlen hp g hs0
      obtain ⟨os, r, po, m1, m2, b, hos, hr, hpo, hm1, hres, hb, q1, q2, q3, q4, q5, q6, q7⟩ := gen_ok h
      have hpw : po.w = 9 / 10 - 1 / 2 * ((1 + g * c.npop : ℕ) : K) / ((c.ngen * c.npop : ℕ) : K) := by
        unfold psoStep at hpo
        split at hpo
        · cases hpo
        split at hpo
        · cases hpo
        cases hpo
        have hw' : c.pesa.mech = Mech.timew := hw
        simp only [hi.step0, hw', if_true, PESA.Conf.steps]
        simp only [Conf.pesa]
        norm_num
      constructor
      · intro hc
        rw [q2, if_pos (by simp [PESA.Conf.proc, Conf.pesa, hc])]
        exact (ih hs0).1 hc
      · intro hc k hk
        have hk : k = g := by omega
        subst hk
        rw [q2, if_neg (by show ¬ (decide (3 < c.ncores) = true); simpa using hc)]
        exact hpw

/-- **C100 (defect).** With a seed `DEmod.evolute` reseeds at every call, so DE repeats the same draws in every generation: whenever the DE population is the same at
two generations, DE's survivors are the same, whatever the state of the generator, and the run does not depend on it. -/
theorem C100_seeded {c : Conf K} {D : ℕ → DE.Draw K} (hseed : c.seed = some D) {fit : List K → K} {dr dr' : ℕ → GDraw K} {pop0 : List (List K × List K)} :
    (∀ g, (∀ k, (dr k).es = (dr' k).es ∧ (dr k).pso = (dr' k).pso ∧ (dr k).strat = (dr' k).strat) → run c fit dr pop0 g = run c fit dr' pop0 g) ∧
    (c.S.OK → c.S.method = .nearestInt → 2 ≤ c.S.bounds.length → 1 ≤ c.mu ∧ c.mu < c.npop → c.npop ≤ pop0.length →
      (∀ p ∈ pop0, c.S.Feasible p.1 ∧ p.2.length = c.S.bounds.length) → ∀ g g' s t s' t', run c fit dr pop0 g = .ok s → run c fit dr pop0 g' = .ok t →
      run c fit dr pop0 (g + 1) = .ok s' → run c fit dr pop0 (g' + 1) = .ok t' → s.de = t.de → s'.de.take c.mu = t'.de.take c.mu) := by
  constructor
  · intro g hd
    induction g with
    | zero => rfl
    | succ g ih =>
      simp only [run, ih]
      cases run c fit dr' pop0 g with
      | error e => rfl
      | ok s =>
        simp only
        unfold gen
        have : c.deDraw (dr g) = c.deDraw (dr' g) := by simp [Conf.deDraw, hseed]
        rw [(hd g).1, (hd g).2.1, this]
        have hr : ∀ a m d p q, resample c (dr g) a m d p q = resample c (dr' g) a m d p q := by
          intro a m d p q
          unfold resample
          rw [(hd g).2.2]
        simp only [hr]
  · intro hS hm hn hmu hlen hp g g' s t s' t' hs ht hs' ht' he
    have hi := run_inv hS hm hn hmu hlen hp g hs
    simp only [run, hs] at hs'
    simp only [run, ht] at ht'
    obtain ⟨os, r, po, es, ds, a1, a2, a3, a4, a5, a6, a7, a8, a9, a10⟩ := C100_next hs'
    obtain ⟨os', r', po', es', ds', b1, b2, b3, b4, b5, b6, b7, b8, b9, b10⟩ := C100_next ht'
    have hD : ∀ d : GDraw K, c.deDraw d = D := fun d => by simp [Conf.deDraw, hseed]
    simp only [hD] at a2 b2
    rw [← he, a2] at b2
    cases b2
    have hl := (de_method hS hm hi.nde (fun p hp => (hi.de p hp).1) a2).1
    rw [a7, b7, List.take_append_of_le_length (by simp [hl]; omega), List.take_append_of_le_length (by simp [hl]; omega)]

/-- **C100 (defect).** Fewer than five members are refused (by an assertion in DE that the documentation of PESAX does not mention), and so are exactly `npop` warmup
samples, although the documentation of `evolute` allows them. -/
theorem C100_refused {c : Conf K} {m given : Bool} {userFit : List K → K} {dr : ℕ → GDraw K} {pop0 : List (List K × List K)} :
    (c.npop ≤ 4 → evolute c m given userFit dr pop0 = .error .assertion) ∧
    (pop0.length ≤ c.npop → evolute c m false userFit dr pop0 = .error .assertion) := by
  constructor
  · intro h
    unfold evolute
    split_ifs <;> rfl
  · intro h
    unfold evolute
    by_cases h1 : 1 ≤ c.mu ∧ c.mu < c.npop
    · rw [if_neg (not_not.2 h1), if_neg (by rintro ⟨h, -⟩; cases h), if_pos ⟨by simp, h⟩]
    · rw [if_pos h1]

/-- Draws that are in range: of the integer mutations, of the repairs of PSO, and of the three partners of DE. -/
structure GDraw.Good (c : Conf K) (d : GDraw K) : Prop where
  es : ∀ i, ES.PickOK c.S (d.es i).md
  pso : ∀ i, PSO.PickOK c.S (d.pso i)
  de : ∀ j, (c.deDraw d j).i1 < c.npop ∧ (c.deDraw d j).i2 < c.npop ∧ (c.deDraw d j).i3 < c.npop

theorem gen_total {c : Conf K} (hS : c.S.OK) (hm : c.S.method = .nearestInt) (hn : 2 ≤ c.S.bounds.length) (hmu : 1 ≤ c.mu ∧ c.mu < c.npop)
    {fit : List K → K} (hw : c.mech ≠ Mech.globw ∨ ∀ x, fit x ≠ 0) (ha : 0 ≤ c.alpha0 ∧ c.alpha0 ≤ c.alpha1)
    (hpow : ∀ a, 0 ≤ a → (∀ r, 0 < r → 0 < c.pow a r) ∧ ∀ r s, 0 < r → r ≤ s → c.pow a r ≤ c.pow a s) (hs : ∀ i, c.stream i < 1) {n0 g : ℕ}
    (hcap : 0 < c.pesa.cap) {d : GDraw K} (hg : d.Good c) {s : State K} (hi : Inv c fit n0 g s) : ∃ s', gen c fit d s = .ok s' := by
  have hss : c.pesa.es.smin ≤ c.pesa.es.smax := by
    have h2 : (2 : K) ≤ (c.S.bounds.length : K) := by exact_mod_cast hn
    show (1 : K) / (c.S.bounds.length : K) ≤ 1 / 2
    exact one_div_le_one_div_of_le (by norm_num) h2
  have hpl : 2 ≤ s.pop.length := by rw [hi.npop]; split_ifs <;> omega
  have hlens : ES.LenOK c.pesa.es s.pop := fun p hp => ⟨(hi.pop p hp).1.1.1.length_eq, (hi.pop p hp).2⟩
  obtain ⟨os0, hos0⟩ := ES.genLoop_total (c := c.pesa.es) hS hss hg.es (Or.inr hn) c.pesa.es.lam 0 s.pop hlens hpl
  obtain ⟨os, hos⟩ : ∃ os, ES.genOffspring c.pesa.es d.es s.pop = .ok os := by
    unfold ES.genOffspring
    rw [hos0]; exact ⟨_, rfl⟩
  obtain ⟨re, hre⟩ := DE.C07_evolute_total (c := c.de) hS hm (by show 0 < c.npop; omega) (by show 0 < 1; omega) (minMode := false) (userFit := fit)
    (dr := fun _ => c.deDraw d) (rl := fun _ => []) hi.nde (fun p hp => (hi.de p hp).1.1.length_eq) (by simp) (fun _ => hg.de)
  obtain ⟨po, hpo⟩ : ∃ po, psoStep c.pesa fit s.w s.swm s.step0 d.pso s.swarm = .ok po := by
    unfold psoStep
    have hsw : s.swarm.length = c.pesa.npop := hi.nswarm
    rw [if_neg (not_not.2 hsw)]
    obtain ⟨off, hoff⟩ : ∃ off, mapRows (fun i (pl : Part K × (List K × K)) => PESA.updateParticle c.pesa s.w s.swm (d.pso i) pl.1 pl.2) 0 s.swarm = .ok off := by
      refine ES.mapRows_total_idx fun k p hp => ?_
      have hpf := (hi.swarm p (List.mem_of_getElem? hp)).1
      obtain ⟨vel, hvel⟩ : ∃ vel, mapRows (fun i v => PESA.newVel c.pesa s.w s.swm.2 p.2.2 (d.pso (0 + k)) i (p.1.pos.getD i 0) v (p.2.1.getD i 0) (s.swm.1.getD i 0)) 0 p.1.vel
          = .ok vel := by
        refine ES.mapRows_total_idx fun i v hv => PESA.newVel_total ?_ _ _ _ _ _ _
        rcases hw with hw | hw
        · exact Or.inl hw
        · right; rw [hi.swm.2.1]; exact hw _
      obtain ⟨pos, hpos⟩ : ∃ pos, mapRows (fun i x => PSO.newPos c.pesa.pso (d.pso (0 + k)) i x (vel.getD i 0)) 0 p.1.pos = .ok pos := by
        refine ES.mapRows_total_idx fun i x hx => ?_
        exact PSO.newPos_total (c := c.pesa.pso) hS (hg.pso _) (Or.inr rfl) hpf (by rw [Nat.zero_add]; exact hx) _
      refine ⟨{ pos := pos, vel := vel }, ?_⟩
      unfold PESA.updateParticle
      simp only [hvel, hpos]
    rw [hoff]
    exact ⟨_, rfl⟩
  obtain ⟨m0, hm0⟩ : ∃ m0, memoryUpdate s.mem (select c.mu re.lastPop)
      (ES.select c.mu (os.map fun o => ({ ind := o.1, strat := o.2, fit := fit o.1 } : Ind K))) po.pars = .ok m0 :=
    ER.addAll_total (by rw [hi.size]; omega) _
  have hne0 : m0.storage ≠ [] := (ER.addAll_ok hm0).2.2.1 hi.ne
  have halpha : 0 ≤ s.alpha := by
    rw [hi.alpha]
    split_ifs
    · exact ha.1
    · exact ha.1.trans (PESA.linearAnneal_mem ha.2 _ _).1
  obtain ⟨q1, q2⟩ := hpow s.alpha halpha
  obtain ⟨x1, h1, -⟩ := ER.C39_seeded_total q1 q2 hs hne0 c.mu
  obtain ⟨x2, h2, -⟩ := ER.C39_seeded_total q1 q2 hs (PESA2.sortMem_ne hne0) (c.npop - c.mu)
  obtain ⟨x3, h3, -⟩ := ER.C39_seeded_total q1 q2 hs (PESA2.sortMem_ne (PESA2.sortMem_ne hne0)) (c.npop - c.mu)
  obtain ⟨b, hb⟩ := ER.greedyOne_total (PESA2.sortMem_ne (PESA2.sortMem_ne (PESA2.sortMem_ne hne0)))
  unfold gen resample
  simp only [hos, hre, hpo, hm0, h1, h2, h3, hb]
  exact ⟨_, rfl⟩

/-- **C100.** With at least five members, two variables, one generation, enough warmup samples and a swarm weight that never divides by zero, PESAX returns a result. -/
theorem C100_total {c : Conf K} (hS : c.S.OK) (hm : c.S.method = .nearestInt) (hn : 2 ≤ c.S.bounds.length) (hmu : 1 ≤ c.mu ∧ c.mu < c.npop) (h5 : 5 ≤ c.npop)
    (hpb : c.cxpb + c.mutpb ≤ 1) (hg : 1 ≤ c.ngen) {m given : Bool} {userFit : List K → K} (hw : c.mech ≠ Mech.globw ∨ ∀ x, userFit x ≠ 0)
    (ha : 0 ≤ c.alpha0 ∧ c.alpha0 ≤ c.alpha1)
    (hpow : ∀ a, 0 ≤ a → (∀ r, 0 < r → 0 < c.pow a r) ∧ ∀ r s, 0 < r → r ≤ s → c.pow a r ≤ c.pow a s) (hs : ∀ i, c.stream i < 1)
    {dr : ℕ → GDraw K} (hd : ∀ g, (dr g).Good c) {pop0 : List (List K × List K)}
    (hlen : if given then c.npop ≤ pop0.length else c.npop < pop0.length)
    (hp : ∀ p ∈ pop0, c.S.Feasible p.1 ∧ p.2.length = c.S.bounds.length) : ∃ r, evolute c m given userFit dr pop0 = .ok r := by
  have hlen' : c.npop ≤ pop0.length := by split_ifs at hlen <;> omega
  have hcap : 0 < c.pesa.cap := by unfold PESA.Conf.cap; split_ifs <;> omega
  set fit := fun x => sgn (!m) (userFit x) with hfit
  have hw' : c.mech ≠ Mech.globw ∨ ∀ x, fit x ≠ 0 := by
    refine hw.imp id fun h x => ?_
    rw [hfit]
    cases m <;> simp [sgn, h x]
  have hrun : ∀ g, ∃ s, run c fit dr pop0 g = .ok s := by
    intro g
    induction g with
    | zero =>
      simp only [run, init]
      obtain ⟨mem, hmem⟩ := ER.add_total (m := (ER.new c.pesa.cap : Mem (Sample K))) (by simp [ER.new]; omega)
        (tagged .na ((pop0.map fun p => ({ ind := p.1, strat := p.2, fit := fit p.1 } : Ind K)).map fun e => (e.ind, e.fit)))
      rw [hmem]
      simp only
      split
      · rename_i h0
        rw [List.head?_eq_none_iff] at h0
        have := congrArg List.length h0
        simp at this
        rw [this] at hlen'
        simp at hlen'
        omega
      · exact ⟨_, rfl⟩
    | succ g ih =>
      obtain ⟨s, hs'⟩ := ih
      obtain ⟨s', hs''⟩ := gen_total hS hm hn hmu hw' ha hpow hs hcap (hd g) (run_inv hS hm hn hmu hlen' hp g hs')
      exact ⟨s', by simp only [run, hs', hs'']⟩
  obtain ⟨s, hs'⟩ := hrun c.ngen
  have hi := run_inv hS hm hn hmu hlen' hp c.ngen hs'
  obtain ⟨b, hb1, hb2, _⟩ := hi.best (by omega)
  unfold evolute
  rw [if_neg (not_not.2 hmu), if_neg (by cases given <;> simp at hlen ⊢; omega), if_neg (by cases given <;> simp at hlen ⊢; omega),
    if_neg (not_not.2 hpb), if_neg (by omega)]
  simp only [← hfit, hs', hb2]
  exact ⟨_, rfl⟩

end

/-! ### Concrete cases -/

def exS : Space ℚ := { bounds := [(-5, 5), (0, 3)], types := [.float, .int], method := .nearestInt, expf := fun x => x }

/-- Five members, two survivors, two generations, default memory. -/
def exC : Conf ℚ :=
  { S := exS, npop := 5, mu := 2, ncores := 1, ngen := 2, memSize := 0, alpha0 := 1 / 10, alpha1 := 1, F := 1 / 2, CR := 7 / 10,
    cxpb := 6 / 10, mutpb := 3 / 10, c1 := 2, c2 := 2, mech := .timew, w0 := 9 / 10, sig := fun _ => 1 / 2, pow := fun _ r => r
    stream := fun i => ((3 * i + 1) % 7 : ℕ) / 7, seed := none }

def exFit : List ℚ → ℚ := fun x => (x.map (fun v => v * v)).sum

def exPop : List (List ℚ × List ℚ) :=
  [([3, 1], [1 / 2, 1 / 2]), ([-2, 2], [1 / 2, 1 / 2]), ([1, 1], [1 / 2, 1 / 2]), ([4, 1], [1 / 2, 1 / 2]), ([2, 3], [1 / 2, 1 / 2]), ([0, 2], [1 / 2, 1 / 2])]

def exDr : ℕ → GDraw ℚ := fun g =>
  { es := fun i => { rn := if i = 0 then 1 / 10 else if i = 1 then 7 / 10 else 95 / 100, i1 := g, i2 := 1, a := 0, b := 0, u := fun _ => 1 / 2
                     v := fun _ => 1 / 2, md := { e := fun _ => 2, t := fun _ => 1 / 10, pick := fun _ => 1, g := fun _ => 3 } }
    de := fun j => { i1 := (j + 1) % 5, i2 := (j + 2) % 5, i3 := (j + 3) % 5, cross := fun i => if i = 0 then 1 / 10 else 1
                     discT := fun _ => (1 / 2, 0), discV := fun _ => (1 / 2, 0) }
    pso := fun _ => { r1 := fun _ => 1 / 2, r2 := fun _ => 1 / 3, wr := fun _ => 0, u := fun _ => 1 / 4, pick := fun _ => 1 }
    strat := fun _ _ => 1 / 2 }

example : exS.OK := Space.ok_of_okB (by decide +kernel)
theorem exPop_ok : ∀ p ∈ exPop, exS.Feasible p.1 ∧ p.2.length = exS.bounds.length := by
  have h : (exPop.all fun p => exS.feasB p.1 && decide (p.2.length = exS.bounds.length)) = true := by decide +kernel
  intro p hp
  have := List.all_eq_true.1 h p hp
  rw [Bool.and_eq_true] at this
  exact ⟨Space.feasible_of_feasB this.1, of_decide_eq_true this.2⟩
example : exPop.length + exC.ngen * (3 * exC.mu) ≤ exC.pesa.cap ∧ exC.cxpb + exC.mutpb ≤ 1 ∧ exC.npop < exPop.length := by decide +kernel
example : ∀ i, exC.stream i < 1 := by
  intro i
  have h : ((3 * i + 1) % 7 : ℕ) < 7 := Nat.mod_lt _ (by norm_num)
  have h' : (((3 * i + 1) % 7 : ℕ) : ℚ) < 7 := by exact_mod_cast h
  show (((3 * i + 1) % 7 : ℕ) : ℚ) / 7 < 1
  rw [div_lt_one (by norm_num)]
  exact h'
example : ∀ a : ℚ, 0 ≤ a → (∀ r, 0 < r → 0 < exC.pow a r) ∧ ∀ r s, 0 < r → r ≤ s → exC.pow a r ≤ exC.pow a s :=
  fun _ _ => ⟨fun _ h => h, fun _ _ _ h => h⟩
example : ∀ g, (exDr g).Good exC := by
  intro g
  have hpick : ∀ (j : ℕ) (b : ℚ × ℚ), exC.S.types[j]? = some VType.int → exC.S.bounds[j]? = some b → truncZ b.1 ≠ truncZ b.2 →
      ((1 : ℕ) : ℤ) < truncZ b.2 - truncZ b.1 := by
    intro j b ht hb hne
    match j, ht, hb with
    | 1, _, hb =>
      simp [exC, exS] at hb
      subst hb
      norm_num [truncZ]
    | 0, ht, _ => simp [exC, exS] at ht
    | j + 2, ht, _ => simp [exC, exS] at ht
  refine ⟨fun i => hpick, fun i => hpick, ?_⟩
  intro j
  simp only [Conf.deDraw, exC, exDr, Option.getD_none]
  omega

example : (match evolute exC true false exFit exDr exPop with
    | .ok r => decide (r.x = [-9 / 50, 1] ∧ r.y = 2581 / 2500 ∧ r.hist = [2581 / 2500, 2581 / 2500] ∧ r.memSize = 9 ∧ r.log.length = 46)
    | .error _ => false) = true := by decide +kernel

/-- **C100 (defect).** The swarm best is not the best of the local bests: particles that come from the memory do not update it.  Here the swarm is attracted to a point
of fitness 14381/625 although the local best of one of its own particles has fitness 29 (the fitness is maximised). -/
theorem C100_swarm_best : ∃ (c : Conf ℚ) (dr : ℕ → GDraw ℚ) (pop0 : List (List ℚ × List ℚ)) (s : State ℚ), run c exFit dr pop0 1 = .ok s ∧
    s.swm.2 = 14381 / 625 ∧ ∃ p ∈ s.swarm, p.2.2 = 29 := by
  have h : (match run exC exFit exDr exPop 1 with
      | .ok s => decide (s.swm.2 = 14381 / 625) && s.swarm.any (fun p => decide (p.2.2 = 29)) | .error _ => false) = true := by decide +kernel
  cases he : run exC exFit exDr exPop 1 with
  | error e => rw [he] at h; cases h
  | ok s =>
    rw [he] at h
    simp only [Bool.and_eq_true, List.any_eq_true, decide_eq_true_eq] at h
    exact ⟨exC, exDr, exPop, s, he, h.1, h.2⟩

/-- One generation and sixteen warmup samples: the default memory of 16 is full before the first generation. -/
def loC : Conf ℚ := { exC with ngen := 1 }

def loPop : List (List ℚ × List ℚ) := ([1, 0], [1 / 2, 1 / 2]) :: (List.range 15).map (fun i => ([4 - (i : ℚ) / 100, 2], [1 / 2, 1 / 2]))

def loDr : ℕ → GDraw ℚ := fun g =>
  { exDr g with es := fun i => { (exDr g).es i with rn := 7 / 10 } }

/-- **C100 (defect).** With the default memory size the best point can be overwritten although DE still holds it: here the best warmup sample has fitness 1, and the
returned point has fitness 199601/40000 (the fitness is minimised). -/
theorem C100_loses : ∃ (c : Conf ℚ) (dr : ℕ → GDraw ℚ) (pop0 : List (List ℚ × List ℚ)) (r : Result ℚ), c.memSize = 0 ∧ pop0.length = c.pesa.cap ∧
    evolute c true false exFit dr pop0 = .ok r ∧ r.y = 199601 / 40000 ∧ ∃ z ∈ r.log, exFit z = 1 := by
  have h : (match evolute loC true false exFit loDr loPop with
      | .ok r => decide (r.y = 199601 / 40000 ∧ [1, 0] ∈ r.log) | .error _ => false) = true := by decide +kernel
  cases he : evolute loC true false exFit loDr loPop with
  | error e => rw [he] at h; cases h
  | ok r =>
    rw [he] at h
    obtain ⟨h1, h2⟩ := of_decide_eq_true h
    exact ⟨loC, loDr, loPop, r, rfl, by decide +kernel, he, h1, [1, 0], h2, by decide +kernel⟩

/-- A seed, and two generations with the same DE population. -/
def sdC : Conf ℚ := { exC with seed := some (exDr 0).de }

example : (match run sdC exFit exDr exPop 1, run sdC exFit exDr exPop 2 with
    | .ok s, .ok s' => decide (s.de.take 2 = s'.de.take 2) | _, _ => false) = false := by decide +kernel
example : sdC.seed = some (exDr 0).de ∧ exC.npop ≤ exPop.length := ⟨rfl, by decide +kernel⟩

end Neorl.PESAX

import Verif.AEOMembers
import Verif.Props.AEOMigration
import Verif.Props.GWO
import Verif.Props.WOA
import Verif.Props.SSA
import Verif.Props.MFO
import Verif.Props.HHO
import Verif.Props.PSO
import Verif.Props.DE
import Verif.Props.ES
import Verif.Props.JAYA

/-!
# Property theorems C43 (and C41 for real ensembles): the nine algorithms inside the ensemble
-/

set_option linter.unusedSectionVars false
set_option linter.unusedVariables false

namespace Neorl.AEO

section
variable {K : Type} [Field K] [LinearOrder K] [IsStrictOrderedRing K] [FloorRing K]

theorem out_ok {R : Type} {lp : R → List (List K × K)} {lg : R → List (List K)} {x : Py R} {a : List (List K × K)} {b : List (List K)}
    (h : out lp lg x = .ok (a, b)) : ∃ r, x = .ok r ∧ a = lp r ∧ b = lg r := by
  cases x with
  | error e => cases h
  | ok r => cases h; exact ⟨r, rfl, rfl, rfl⟩

/-- What a member needs to behave: a proper space, a correct sorting routine (MFO), `smin <= smax`, at least one parent and starting strategies in
range (ES). -/
def Member.OK : Member K → Prop
  | .mfo c .. => c.S.OK ∧ MFO.SortOK c.srt
  | .es c m dr strat => c.S.OK ∧ c.smin ≤ c.smax ∧ 1 ≤ c.mu ∧ ∀ i, (strat i).length = c.S.bounds.length ∧ ∀ v ∈ strat i, c.smin ≤ v ∧ v ≤ c.smax
  | mem => mem.space.OK

/-- Last block of a log with its fitness. -/
theorem drop_spec {fit : List K → K} {P : List K → Prop} {l : List (List K)} {last : List (List K × K)} {k n : ℕ}
    (hl : last = (l.drop k).map (fun x => (x, fit x))) (hlen : l.length = k + n) :
    last.length = n ∧ ∀ q ∈ last, q.1 ∈ l ∧ q.2 = fit q.1 := by
  subst hl
  refine ⟨by simp [hlen], fun q hq => ?_⟩
  obtain ⟨x, hx, rfl⟩ := List.mem_map.1 hq
  exact ⟨List.mem_of_mem_drop hx, rfl⟩

/-- What one cycle of a member does: as many members as before, each evaluated and with its own fitness, only legal points evaluated, and the number of
evaluations (`cost`). -/
theorem member_spec {fit : List K → K} {g : ℕ} {mem : Member K} (hok : mem.OK) {kw : List (String × List K)} {ms : List (List K)}
    {last : List (List K × K)} {log : List (List K)} (hf : ∀ x ∈ ms, mem.space.Feasible x) (h : mem.ev fit g kw ms = .ok (last, log)) :
    last.length = ms.length ∧ (∀ q ∈ last, q.1 ∈ log ∧ q.2 = fit q.1) ∧ (∀ x ∈ log, mem.space.Feasible x) ∧
    (mem.algo ≠ .woa → mem.algo ≠ .hho → log.length = conv mem.algo g ms.length) ∧
    (mem.algo = .woa → log.length = conv .woa g ms.length + ms.length) ∧
    (mem.algo = .hho → g * ms.length ≤ log.length ∧ log.length ≤ 3 * (g * ms.length)) := by
  cases mem with
  | gwo c m dr =>
    obtain ⟨r, hr, rfl, rfl⟩ := out_ok h
    have hg : g ≠ 0 := by
      rintro rfl
      rw [GWO.C16_no_generation rfl rfl] at hr
      cases hr
    obtain ⟨-, -, -, h4, h5, -, h7⟩ := GWO.C16_evolute (by exact hok) (by exact hf) hr
    dsimp only at h4 h7
    obtain ⟨e1, e2⟩ := drop_spec (P := c.S.Feasible) (n := ms.length) h7 (by rw [h4]; obtain ⟨k, rfl⟩ := Nat.exists_eq_succ_of_ne_zero hg; simp; ring)
    exact ⟨e1, e2, h5, fun _ _ => by rw [h4]; simp [Member.algo, conv, Nat.mul_comm], by simp [Member.algo], by simp [Member.algo]⟩
  | woa c m dr =>
    obtain ⟨r, hr, rfl, rfl⟩ := out_ok h
    have hC := WOA.C17_evolute (by exact hok) (by exact hf) hr
    obtain ⟨e1, e2⟩ := drop_spec (P := c.S.Feasible) (n := ms.length) hC.lastPop (by rw [hC.evals]; dsimp only; ring)
    exact ⟨e1, e2, hC.feas, by simp [Member.algo], fun _ => by rw [hC.evals]; simp only [conv]; ring, by simp [Member.algo]⟩
  | ssa c m dr =>
    obtain ⟨r, hr, rfl, rfl⟩ := out_ok h
    have hC := SSA.C18_evolute (by exact hok) (by exact hf) hr
    obtain ⟨e1, e2⟩ := drop_spec (P := c.S.Feasible) (n := ms.length) hC.lastPop (by rw [hC.evals]; dsimp only; ring)
    exact ⟨e1, e2, hC.feas, fun _ _ => by rw [hC.evals]; simp only [Member.algo, conv]; ring, by simp [Member.algo], by simp [Member.algo]⟩
  | mfo c m dr =>
    obtain ⟨r, hr, rfl, rfl⟩ := out_ok h
    obtain ⟨h0, -, -, -, h4, h5, -, h7⟩ := MFO.C22_evolute (by exact hok.1) (by exact hok.2) (by exact hf) hr
    dsimp only at h4 h7
    have hg : g ≠ 0 := by
      rintro rfl
      rw [Nat.zero_mul] at h4
      have := h0.1
      rw [List.eq_nil_of_length_eq_zero h4] at this
      cases this
    obtain ⟨e1, e2⟩ := drop_spec (P := c.S.Feasible) (n := ms.length) h7 (by rw [h4]; obtain ⟨k, rfl⟩ := Nat.exists_eq_succ_of_ne_zero hg; simp; ring)
    exact ⟨e1, e2, h5, fun _ _ => by rw [h4]; simp [Member.algo, conv, Nat.mul_comm], by simp [Member.algo], by simp [Member.algo]⟩
  | hho c m dr =>
    obtain ⟨r, hr, rfl, rfl⟩ := out_ok h
    obtain ⟨h0, -, -, -, -, -, h4, h5, h6, h7, h8⟩ := HHO.C20_evolute (by exact hok) (by exact hf) hr
    dsimp only at h6 h7 h8
    have hg : g ≠ 0 := by
      rintro rfl
      rw [Nat.zero_mul] at h6
      have := h0.1
      rw [List.eq_nil_of_length_eq_zero h6] at this
      cases this
    obtain ⟨e1, e2⟩ := drop_spec (P := c.S.Feasible) (n := ms.length) (h8 hg) (by rw [h6]; obtain ⟨k, rfl⟩ := Nat.exists_eq_succ_of_ne_zero hg; simp; ring)
    refine ⟨e1, fun q hq => ⟨List.mem_append_left _ (h5.subset (e2 q hq).1), (e2 q hq).2⟩, h4, by simp [Member.algo], by simp [Member.algo], fun _ => ⟨?_, h7⟩⟩
    have := h5.length_le
    rw [List.length_append]
    omega
  | pso c m dr =>
    obtain ⟨r, hr, rfl, rfl⟩ := out_ok h
    obtain ⟨-, -, h3, -, h5, -, -, -, -, -, h11, -⟩ := PSO.C15_evolute (by exact hok) (by exact hf) hr
    dsimp only at h3 h11
    obtain ⟨e1, e2⟩ := drop_spec (P := c.S.Feasible) (fit := fit) (n := ms.length) (k := g * ms.length) rfl (by rw [h3]; ring)
    exact ⟨by rw [h11.length_eq, e1], fun q hq => e2 q (h11.mem_iff.1 hq), h5, fun _ _ => by rw [h3]; simp only [Member.algo, conv]; ring,
      by simp [Member.algo], by simp [Member.algo]⟩
  | de c m dr =>
    obtain ⟨r, hr, rfl, rfl⟩ := out_ok h
    obtain ⟨h1, -, h3, h4, h5⟩ := DE.C09_last_pop (by exact hok) (by rfl) (by exact fun x hx => (hf x hx).1) hr
    exact ⟨h1, fun q hq => ⟨(h3 q hq).2.1, (h3 q hq).1⟩, h4, fun _ _ => by rw [h5]; simp only [Member.algo, conv]; ring,
      by simp [Member.algo], by simp [Member.algo]⟩
  | es c m dr strat =>
    obtain ⟨r, hr, rfl, rfl⟩ := out_ok h
    obtain ⟨hS, hs, hmu, hst⟩ := hok
    obtain ⟨h0, -, h3, h4, -, -, -, -, -, h10⟩ := ES.C14_evolute (c := { c with lam := ms.length, ngen := g }) hS hs (rl := fun _ => []) (by simp)
      (fun _ => hmu) (fun p hp => by
        obtain ⟨i, hi, rfl⟩ := List.mem_mapIdx.1 hp
        exact ⟨(hf _ (List.getElem_mem hi)).1.length_eq, (hst i).1, (hst i).2⟩) hr
    dsimp only at h3 h10
    have hg : g ≠ 0 := by
      rintro rfl
      rw [Nat.mul_zero] at h3
      have := h0.1
      rw [List.eq_nil_of_length_eq_zero h3] at this
      cases this
    obtain ⟨e1, e2⟩ := drop_spec (P := c.S.Feasible) (n := ms.length) h10 (by rw [h3]; obtain ⟨k, rfl⟩ := Nat.exists_eq_succ_of_ne_zero hg; simp; ring)
    refine ⟨e1, fun q hq => ⟨List.mem_append_right _ (e2 q hq).1, (e2 q hq).2⟩, fun x hx => ?_, fun _ _ => ?_, by simp [Member.algo], by simp [Member.algo]⟩
    · rcases List.mem_append.1 hx with hx | hx
      · exact hf x hx
      · exact h4 x hx
    · rw [List.length_append, h3]; simp only [Member.algo, conv]; ring
  | jaya c m dr =>
    obtain ⟨r, hr, rfl, rfl⟩ := out_ok h
    obtain ⟨-, -, -, -, -, -, -, h4, h5, -, h7⟩ := JAYA.C21_evolute (by exact hok) (by exact hf) hr
    dsimp only at h4 h7
    obtain ⟨e1, e2⟩ := drop_spec (P := c.S.Feasible) (n := ms.length) h7 (by rw [h4]; ring)
    exact ⟨e1, e2, h5, fun _ _ => by rw [h4]; simp only [Member.algo, conv]; ring, by simp [Member.algo], by simp [Member.algo]⟩

/-- **C43.** The conversion from generations to evaluations is exact for GWO, MFO, PSO, DE, ES, SSA and JAYA, for every population size, number of
generations, fitness function, draws and keyword arguments. -/
theorem C43_exact {fit : List K → K} {g : ℕ} {mem : Member K} (hok : mem.OK) (h1 : mem.algo ≠ .woa) (h2 : mem.algo ≠ .hho)
    {kw : List (String × List K)} {ms : List (List K)} {last : List (List K × K)} {log : List (List K)} (hf : ∀ x ∈ ms, mem.space.Feasible x)
    (h : mem.ev fit g kw ms = .ok (last, log)) : log.length = conv mem.algo g ms.length :=
  (member_spec hok hf h).2.2.2.1 h1 h2

/-- **C43, defect.** For WOA the formula is always short by one whole population: WOA evaluates its starting population as well. -/
theorem C43_woa {fit : List K → K} {g : ℕ} {mem : Member K} (hok : mem.OK) (h1 : mem.algo = .woa)
    {kw : List (String × List K)} {ms : List (List K)} {last : List (List K × K)} {log : List (List K)} (hf : ∀ x ∈ ms, mem.space.Feasible x)
    (h : mem.ev fit g kw ms = .ok (last, log)) : log.length = conv mem.algo g ms.length + ms.length := by
  rw [h1]; exact (member_spec hok hf h).2.2.2.2.1 h1

/-- **C43.** For HHO the number of evaluations lies between one and three per hawk and generation (the formula says two, announced as an upper bound). -/
theorem C43_hho {fit : List K → K} {g : ℕ} {mem : Member K} (hok : mem.OK) (h1 : mem.algo = .hho)
    {kw : List (String × List K)} {ms : List (List K)} {last : List (List K × K)} {log : List (List K)} (hf : ∀ x ∈ ms, mem.space.Feasible x)
    (h : mem.ev fit g kw ms = .ok (last, log)) : g * ms.length ≤ log.length ∧ log.length ≤ 3 * (g * ms.length) :=
  (member_spec hok hf h).2.2.2.2.2 h1

/-- Every one of the nine algorithms honours what the ensemble relies on. -/
theorem member_evolver {fit : List K → K} {g : ℕ} {mem : Member K} (hok : mem.OK) : EvolverOK fit mem.space.Feasible (mem.ev fit g) :=
  fun kw ms last log hf h => ⟨(member_spec hok hf h).1, (member_spec hok hf h).2.1, (member_spec hok hf h).2.2.1⟩

/-- **C41.** A run of the ensemble over any of the nine algorithms on a common space: the returned pair is the best of everything evaluated by any of
them in any cycle, it is feasible, and no individual is ever lost or duplicated. -/
theorem C41_ensemble {c : Conf K} (hs : c.so.OK) (hr : c.rng.OK) {fit : List K → K} {S : Space K} {mem : ℕ → ℕ → Member K}
    (hm : ∀ j cyc, (mem j cyc).OK ∧ (mem j cyc).space = S) (hev : ∀ j cyc, c.evolver j cyc = (mem j cyc).ev fit c.gpc) {stop : ℕ → Bool}
    {x0 : List (List K × ℕ)} (hx : ∀ p ∈ x0, S.Feasible p.1 ∧ p.2 < c.opts.length) {r : Result K} (h : evolute c fit stop x0 = .ok r) :
    IsBest true fit r.final.log r.x r.y ∧ S.Feasible r.x ∧ (∀ x ∈ r.final.log, S.Feasible x) ∧
    (∀ x ∈ flatMembers r.final.pops, S.Feasible x) ∧ (flatMembers r.final.pops).length = x0.length := by
  obtain ⟨a1, a2, a3, a4, a5, -⟩ := C41_evolute hs hr (P := S.Feasible)
    (fun j cyc => by rw [hev, ← (hm j cyc).2]; exact member_evolver (hm j cyc).1) hx h
  exact ⟨a1, a2, a3, a4, a5⟩

/-! ### Ensembles always return -/

theorem linspace_length (a b : K) (n : ℕ) : (linspace a b n).length = n := by
  unfold linspace
  split_ifs with h
  · simp [h]
  · simp

theorem annealed_length {o : Opt K} {cyc N g : ℕ} {kw : List (String × List K)} (h : annealed o cyc N g = .ok kw) :
    ∀ (key : String) (l : List K), kw.lookup key = some l → l.length = g := by
  unfold annealed at h
  split at h
  · cases h
  rename_i fr hfr
  have hl : fr.length = g := by
    unfold frac at hfr
    dsimp only at hfr
    split_ifs at hfr
    cases hfr
    exact linspace_length _ _ _
  cases h
  intro key l hk
  have key1 : ∀ (k : String) (v : List K), v.length = g → List.lookup key [(k, v)] = some l → l.length = g := by
    intro k v hv h
    simp only [List.lookup_cons, List.lookup_nil] at h
    split at h
    · cases h; exact hv
    · cases h
  cases ha : o.algo <;> rw [ha] at hk <;> dsimp only at hk
  case woa =>
    rw [List.lookup_cons] at hk
    split at hk
    · cases hk; simp [hl]
    · exact key1 _ _ (by simp [hl]) hk
  case pso =>
    split_ifs at hk
    · exact key1 _ _ (by simp [hl]) hk
    · cases hk
  all_goals first | exact key1 _ _ (by simp [hl]) hk | cases hk

/-- What a member needs to always return: the rounding transform `nearest_int`, draws inside their supports; `mu` is the parent count given to the ensemble. -/
def Member.Returns (o : Opt K) : Member K → Prop
  | .pso c m dr => ((∀ i : ℕ, c.S.types[i]? ≠ some VType.int) ∨ c.intArr = true) ∧ ∀ g i, PSO.PickOK c.S (dr g i)
  | .de c m dr => c.S.method = .nearestInt ∧ ∀ n g j, 5 ≤ n → (dr n g j).i1 < n ∧ (dr n g j).i2 < n ∧ (dr n g j).i3 < n
  | .es c m dr strat => o.mu = c.mu ∧ 2 ≤ c.mu ∧ c.cxpb + c.mutpb ≤ 1 ∧ (c.blend = true ∨ 2 ≤ c.S.bounds.length) ∧ ∀ g i, ES.PickOK c.S (dr g i).md
  | mem => mem.space.method = .nearestInt

theorem member_total {fit : List K → K} {g : ℕ} (hg : 1 ≤ g) {o : Opt K} {mem : Member K} (hok : mem.OK) (hr : mem.Returns o)
    (ha : o.algo = mem.algo) : EvolverTotal mem.space.Feasible o g (mem.ev fit g) := by
  intro cyc N kw ms hkw hen hf
  have hlen := annealed_length hkw
  have wrap : ∀ {R : Type} {lp : R → List (List K × K)} {lg : R → List (List K)} {x : Py R}, (∃ r, x = .ok r) → ∃ r, out lp lg x = .ok r := by
    rintro R lp lg x ⟨r, rfl⟩
    exact ⟨_, rfl⟩
  have hpos : mem.algo ≠ .es → 0 < ms.length := by
    intro h
    unfold enough at hen
    rw [ha] at hen
    cases h' : mem.algo <;> rw [h'] at hen h <;> simp at hen h <;> omega
  cases mem with
  | gwo c m dr =>
    exact wrap (GWO.C16_total (by exact hok) (by exact hr) (by exact hf) rfl (hpos (by simp [Member.algo])) hg (fun as h => hlen _ _ h))
  | woa c m dr =>
    refine wrap (WOA.C17_total (by exact hok) (by exact hr) (by exact hf) rfl (hpos (by simp [Member.algo])) hg ?_)
    dsimp only
    have hw : o.algo = .woa := ha
    right
    unfold annealed at hkw
    split at hkw
    · cases hkw
    rename_i fr hfr
    rw [hw] at hkw
    cases hkw
    exact ⟨_, _, rfl, rfl, hlen "a" _ rfl, hlen "fac" _ rfl⟩
  | ssa c m dr =>
    refine wrap (SSA.C18_total (by exact hok) (by exact hr) (by exact hf) rfl (hpos (by simp [Member.algo])) hg ?_)
    dsimp only
    have hw : o.algo = .ssa := ha
    unfold annealed at hkw
    split at hkw
    · cases hkw
    rename_i fr hfr
    rw [hw] at hkw
    cases hkw
    intro cs hcs
    cases hcs
    exact hlen "c1" _ rfl
  | mfo c m dr =>
    exact wrap (MFO.C22_total (by exact hok.1) (by exact hok.2) (by exact hr) (by exact hf) rfl (hpos (by simp [Member.algo])) hg (fun as h => hlen _ _ h))
  | hho c m dr =>
    exact wrap (HHO.C20_total (by exact hok) (by exact hr) (by exact hf) rfl (hpos (by simp [Member.algo])) hg (fun as h => hlen _ _ h))
  | pso c m dr =>
    exact wrap (PSO.C15_total (by exact hok) (by exact hr.1) (fun as h => hlen _ _ h) (by exact hr.2) (by exact hf) rfl
      (hpos (by simp [Member.algo])) hg)
  | de c m dr =>
    have h5 : 5 ≤ ms.length := by
      unfold enough at hen
      rw [ha] at hen
      simpa [Member.algo] using hen
    refine wrap (DE.C07_evolute_total (by exact hok) (by exact hr.1) ?_ (by exact hg) (by rfl) (by exact fun x hx => (hf x hx).1.length_eq) (by simp) ?_)
    · dsimp only; omega
    · exact fun g j => hr.2 _ g j h5
  | es c m dr strat =>
    obtain ⟨hS, hs, hmu, hst⟩ := hok
    obtain ⟨r1, r2, r3, r4, r5⟩ := hr
    have h5 : o.mu ≤ ms.length := by
      unfold enough at hen
      rw [ha] at hen
      simpa [Member.algo] using hen
    refine wrap (ES.C14_total (by exact hS) (by exact hs) ?_ (by exact r2) (by exact r3) (by exact hg) (by exact r4) (by exact r5) (by simp) (by simp) (by simp) ?_)
    · dsimp only; omega
    · intro p hp
      obtain ⟨i, hi, rfl⟩ := List.mem_mapIdx.1 hp
      exact ⟨(hf _ (List.getElem_mem hi)).1.length_eq, (hst i).1, (hst i).2⟩
  | jaya c m dr =>
    exact wrap (JAYA.C21_total (by exact hok) (by exact hr) (by exact hf) rfl (hpos (by simp [Member.algo])) hg)

/-- **C41.** A run of the ensemble over any of the nine algorithms always returns, whatever the draws decide: at least two cycles, at least one generation
per cycle, legal options, big enough starting populations. -/
theorem C41_ensemble_total {c : Conf K} (hs : c.so.OK) (hr : c.rng.OK) (ho : OrderGiven c.wt c.order) (hp : PowOK c.pow) (ha : c.alpha.NonNeg)
    (hb : c.beta.NonNeg) (hq : c.q.Unit) (hN : 2 ≤ c.Ncyc) (hg : 1 ≤ c.gpc) (hne : c.opts ≠ []) (hmu : ∀ o ∈ c.opts, 1 ≤ o.mu)
    {fit : List K → K} {S : Space K} {mem : ℕ → ℕ → Member K} (hm : ∀ j cyc, (mem j cyc).OK ∧ (mem j cyc).space = S)
    (hret : ∀ (j : ℕ) (o : Opt K) (cyc : ℕ), c.opts[j]? = some o → (mem j cyc).Returns o ∧ o.algo = (mem j cyc).algo)
    (hev : ∀ j cyc, c.evolver j cyc = (mem j cyc).ev fit c.gpc) {stop : ℕ → Bool}
    {x0 : List (List K × ℕ)} (hx : ∀ p ∈ x0, S.Feasible p.1 ∧ p.2 < c.opts.length)
    (hsz : ∀ (j : ℕ) (o : Opt K), c.opts[j]? = some o → enough o.algo o.mu (x0.filter (fun p => p.2 = j)).length = true) :
    ∃ r, evolute c fit stop x0 = .ok r := by
  refine C41_total hs hr ho hp ha hb hq hN hg hne hmu (P := S.Feasible) (fun j cyc => ?_) (fun j o cyc hj => ?_) hx hsz
  · rw [hev, ← (hm j cyc).2]; exact member_evolver (hm j cyc).1
  · rw [hev, ← (hm j cyc).2]; exact member_total hg (hm j cyc).1 (hret j o cyc hj).1 (hret j o cyc hj).2

end
end Neorl.AEO

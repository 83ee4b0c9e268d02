import Verif.PESA2
import Verif.Props.PESA
import Verif.Props.GWO
import Verif.Props.WOA
import Verif.Props.DE
import Verif.Props.Seeded

/-!
# Property theorems C68, C69: PESA2
-/

set_option linter.unusedSectionVars false
set_option linter.unusedVariables false

namespace Neorl.PESA2

open ER (Mem Sample Tag objOf tagged addAll greedyOne)
open PESA (Same length_tagged mem_tagged select_cover)

section
variable {K : Type} [Field K] [LinearOrder K] [IsStrictOrderedRing K] [FloorRing K]

/-! ### Specifications -/

/-- Everything evaluated in one generation. -/
def Block.evals (b : Block K) : List (List K) := b.gLog ++ (b.dLog ++ b.wLog)

/-- Everything evaluated by a call. -/
def Result.evals (r : Result K) : List (List K) := r.warm ++ r.runs.flatMap Block.evals

/-- What one generation reports to PESA2: the last population of the wolves, everything differential evolution evaluated, the last population of the
whales; nothing for a method none of whose individuals survives. -/
def reported (c : Conf K) (b : Block K) : List (List K) :=
  (if c.mu c.nwolves = 0 then [] else b.gLog.drop ((c.gIn - 1) * c.nwolves)) ++
  ((if c.mu c.npop = 0 then [] else b.dLog) ++ (if c.mu c.nwhales = 0 then [] else b.wLog.drop (c.wIn * c.nwhales)))

/-- The warmup samples and what the generations report. -/
def Result.stored (c : Conf K) (r : Result K) : List (List K) := r.warm ++ r.runs.flatMap (reported c)

/-- Points reported per generation. -/
def Conf.perGen (c : Conf K) : ℕ :=
  (if c.mu c.nwolves = 0 then 0 else c.nwolves) + ((if c.mu c.npop = 0 then 0 else c.replay * (2 * c.npop)) +
    (if c.mu c.nwhales = 0 then 0 else c.nwhales))

/-- Samples offered to the memory per generation. -/
def Conf.per (c : Conf K) : ℕ := c.mu c.nwolves + (c.mu c.npop + c.mu c.nwhales)

/-! ### The three methods -/

theorem mu_le {c : Conf K} (h : 0 ≤ c.rfrac ∧ c.rfrac ≤ 1) (n : ℕ) : c.mu n ≤ n := by
  unfold Conf.mu
  have h1 : c.rfrac * (n : K) ≤ ((n : ℤ) : K) := by
    rw [Int.cast_natCast]
    calc c.rfrac * (n : K) ≤ 1 * (n : K) := mul_le_mul_of_nonneg_right h.2 (Nat.cast_nonneg n)
      _ = n := one_mul _
  have h2 : ⌊c.rfrac * (n : K)⌋ ≤ (n : ℤ) := by
    have := Int.floor_le_floor h1
    simpa using this
  omega

theorem gwo_prefix {c : GWO.Conf K} (hS : c.S.OK) {m : Bool} {f : List K → K} {dr : ℕ → GWO.Draw K} {pos0 : List (List K)}
    (hf : ∀ p ∈ pos0, c.S.Feasible p) {r : GWO.Result K} (h : GWO.evolute c m f dr pos0 = .ok r) :
    pos0.length = c.nwolves ∧ r.log.take c.nwolves = pos0 := by
  have key : ∀ (g : ℕ) (s : GWO.State K), GWO.run c (fun x => sgn m (f x)) dr pos0 (g + 1) = .ok s → ∃ l, s.log = pos0 ++ l := by
    intro g
    induction g with
    | zero =>
      intro s hs
      simp only [GWO.run, GWO.gen] at hs
      split at hs
      · cases hs
      · split at hs
        · cases hs
        · cases hs
          exact ⟨[], by simp [Space.map_clip hf]⟩
    | succ g ih =>
      intro s hs
      rw [GWO.run] at hs
      split at hs
      · cases hs
      · rename_i s0 hs0
        obtain ⟨l, hl⟩ := ih s0 hs0
        simp only [GWO.gen] at hs
        split at hs
        · cases hs
        · split at hs
          · cases hs
          · cases hs
            exact ⟨l ++ s0.pos.map c.S.clip, by simp [hl]⟩
  unfold GWO.evolute at h
  split at h
  · cases h
  rename_i hn
  have hn := not_not.1 hn
  split at h
  · cases h
  rename_i s hs
  split at h
  · cases h
  rename_i y hy
  cases h
  refine ⟨hn, ?_⟩
  cases hg : c.ngen with
  | zero =>
    rw [hg] at hs
    cases hs
    simp [outScore] at hy
  | succ g =>
    rw [hg] at hs
    obtain ⟨l, hl⟩ := key g s hs
    simp only [hl, ← hn, List.take_left']

theorem swarm_prefix {S : Space K} {n ngen : ℕ} {mv : Swarm.Move K} {m : Bool} {f : List K → K} {pos0 : List (List K)}
    (hf : ∀ p ∈ pos0, S.Feasible p) {r : Swarm.Result K} (h : Swarm.evolute S n ngen mv m f pos0 = .ok r) :
    pos0.length = n ∧ r.log.take n = pos0 := by
  have key : ∀ (g : ℕ) (s : Swarm.State K), Swarm.run S mv (fun x => sgn m (f x)) pos0 g = .ok s → ∃ l, s.log = pos0 ++ l := by
    intro g
    induction g with
    | zero =>
      intro s hs
      simp only [Swarm.run] at hs
      split at hs
      · cases hs
      · cases hs
        exact ⟨[], by simp [Space.map_clip hf]⟩
    | succ g ih =>
      intro s hs
      rw [Swarm.run] at hs
      split at hs
      · cases hs
      · rename_i s0 hs0
        obtain ⟨l, hl⟩ := ih s0 hs0
        simp only [Swarm.gen] at hs
        split at hs
        · cases hs
        · rename_i pos hpos
          split at hs
          · cases hs
          · cases hs
            exact ⟨l ++ pos.map S.clip, by simp [hl]⟩
  unfold Swarm.evolute at h
  split at h
  · cases h
  rename_i hn
  have hn := not_not.1 hn
  split at h
  · cases h
  rename_i s hs
  split at h
  · cases h
  cases h
  obtain ⟨l, hl⟩ := key _ s hs
  exact ⟨hn, by simp only [hl, ← hn, List.take_left']⟩

/-- What PESA2 needs to know about one method: `rep` are the points it reports, `log` those it evaluates, `pop` what it returns. -/
structure Method (S : Space K) (fit : List K → K) (start log rep : List (List K)) (pop : List (List K × K)) (n : ℕ) : Prop where
  nstart : start.length = n
  npop : pop.length = n
  val : ∀ p ∈ pop, p.2 = fit p.1 ∧ p.1 ∈ rep
  cover : ∀ x ∈ rep, ∃ p ∈ pop, fit x ≤ p.2
  sub : ∀ x ∈ rep, x ∈ log
  feas : ∀ x ∈ log, S.Feasible x

theorem gwo_method {c : Conf K} (hS : c.S.OK) (h0 : 0 < c.gIn) {fit : List K → K} {dr : ℕ → GWO.Draw K} {pos0 : List (List K)}
    (hf : ∀ p ∈ pos0, c.S.Feasible p) {r : GWO.Result K} (h : GWO.evolute c.gwo false fit dr pos0 = .ok r) :
    Method c.S fit pos0 r.log (r.log.drop ((c.gIn - 1) * c.nwolves)) r.lastPop c.nwolves ∧ r.log.length = c.gIn * c.nwolves ∧
    r.log.take c.nwolves = pos0 := by
  obtain ⟨a1, a2, a3, a4, a5, a6, a7⟩ := GWO.C16_evolute (c := c.gwo) hS hf h
  obtain ⟨b1, b2⟩ := gwo_prefix (c := c.gwo) hS hf h
  have a4 : r.log.length = c.gIn * c.nwolves := a4
  have a7 : r.lastPop = (r.log.drop ((c.gIn - 1) * c.nwolves)).map (fun x => (x, fit x)) := a7
  refine ⟨⟨b1, ?_, ?_, ?_, ?_, a5⟩, a4, b2⟩
  · rw [a7, List.length_map, List.length_drop, a4, Nat.sub_mul, Nat.one_mul]
    have : c.nwolves ≤ c.gIn * c.nwolves := Nat.le_mul_of_pos_left _ h0
    omega
  · intro p hp
    rw [a7] at hp
    obtain ⟨x, hx, rfl⟩ := List.mem_map.1 hp
    exact ⟨rfl, hx⟩
  · intro x hx
    exact ⟨(x, fit x), by rw [a7]; exact List.mem_map.2 ⟨x, hx, rfl⟩, le_rfl⟩
  · intro x hx
    exact List.mem_of_mem_drop hx

theorem woa_method {c : Conf K} (hS : c.S.OK) {fit : List K → K} {dr : ℕ → ℕ → WOA.Draw K} {pos0 : List (List K)}
    (hf : ∀ p ∈ pos0, c.S.Feasible p) {r : Swarm.Result K} (h : WOA.evolute c.woa false fit dr pos0 = .ok r) :
    Method c.S fit pos0 r.log (r.log.drop (c.wIn * c.nwhales)) r.lastPop c.nwhales ∧ r.log.length = c.nwhales * (c.wIn + 1) ∧
    r.log.take c.nwhales = pos0 := by
  have C := WOA.C17_evolute (c := c.woa) hS hf h
  obtain ⟨b1, b2⟩ := swarm_prefix (S := c.S) hf h
  have a4 : r.log.length = c.nwhales * (c.wIn + 1) := C.evals
  have a7 : r.lastPop = (r.log.drop (c.wIn * c.nwhales)).map (fun x => (x, fit x)) := C.lastPop
  refine ⟨⟨b1, ?_, ?_, ?_, ?_, C.feas⟩, a4, b2⟩
  · rw [a7, List.length_map, List.length_drop, a4, Nat.mul_add, Nat.mul_one, Nat.mul_comm]
    omega
  · intro p hp
    rw [a7] at hp
    obtain ⟨x, hx, rfl⟩ := List.mem_map.1 hp
    exact ⟨rfl, hx⟩
  · intro x hx
    exact ⟨(x, fit x), by rw [a7]; exact List.mem_map.2 ⟨x, hx, rfl⟩, le_rfl⟩
  · intro x hx
    exact List.mem_of_mem_drop hx

theorem de_method {c : Conf K} (hS : c.S.OK) (hm : c.S.method = .nearestInt) {fit : List K → K} {dr : ℕ → ℕ → DE.Draw K} {pos0 : List (List K)}
    (hl : pos0.length = c.npop) (hf : ∀ p ∈ pos0, c.S.Feasible p) {r : DE.Result K}
    (h : DE.evolute c.de false fit dr (fun _ => []) pos0 = .ok r) :
    Method c.S fit pos0 r.log r.log r.lastPop c.npop ∧ r.log.length = c.replay * (2 * c.npop) := by
  obtain ⟨a1, a2, a3, a4, a5⟩ := DE.C09_last_pop (c := c.de) hS hl (fun x hx => (hf x hx).1) h
  obtain ⟨b1, b2, b3, b4, b5⟩ := DE.C08_best_of_all (c := c.de) hS hm hl hf h
  refine ⟨⟨hl, a1, fun p hp => ⟨(a3 p hp).1, (a3 p hp).2.1⟩, ?_, fun x hx => hx, a4⟩, a5⟩
  intro x hx
  exact ⟨_, a2, by simpa [NotWorse] using b3 x hx⟩

theorem mem_select {k : ℕ} {pop : List (List K × K)} {p : List K × K} (h : p ∈ select k pop) : p ∈ pop :=
  mem_sortDesc.1 (List.mem_of_mem_take h)

theorem length_select {k : ℕ} {pop : List (List K × K)} (h : k ≤ pop.length) : (select k pop).length = k := by
  simp [select, h]

theorem fill_ok {c : Conf K} {alpha : K} {k : ℕ} {mem mem' : Mem (Sample K)} {pop : List (List K × K)} {l : List (List K)}
    (h : fill c alpha k mem pop = .ok (mem', l)) :
    Same mem mem' ∧ l.length = pop.length + k ∧ ∀ x ∈ l, (∃ p ∈ pop, p.1 = x) ∨ ∃ e ∈ mem.storage, e.1 = x := by
  unfold fill at h
  split at h
  · cases h
  rename_i m es hes
  cases h
  obtain ⟨rfl, a2, a3⟩ := ER.sampleSeeded_ok hes
  refine ⟨(Same.rfl' _).sort, by simp [a2], ?_⟩
  intro x hx
  rcases List.mem_append.1 hx with hx | hx
  · obtain ⟨p, hp, rfl⟩ := List.mem_map.1 hx
    exact Or.inl ⟨p, hp, rfl⟩
  · obtain ⟨e, he, rfl⟩ := List.mem_map.1 hx
    exact Or.inr ⟨e, a3 e he, rfl⟩

/-! ### The invariant -/

/-- What holds after `g` generations. -/
structure Inv (c : Conf K) (fit : List K → K) (warm : List (List K)) (g : ℕ) (s : State K) : Prop where
  size : s.mem.size = c.cap
  mem : ∀ e ∈ s.mem.storage, c.S.Feasible e.1 ∧ e.2.1 = fit e.1 ∧ e.1 ∈ warm ++ s.runs.flatMap (reported c)
  ne : s.mem.storage ≠ []
  starts : ∀ x, x ∈ s.gwo ∨ x ∈ s.de ∨ x ∈ s.woa → c.S.Feasible x ∧ x ∈ warm ++ s.runs.flatMap (reported c)
  nde : s.de.length = c.npop
  npops : g ≠ 0 → s.gwo.length = c.nwolves ∧ s.woa.length = c.nwhales
  step0 : s.step0 = 1 + g * c.npop
  alpha : s.alpha = if g = 0 then c.alpha0 else PESA.linearAnneal (1 + g * c.npop) c.steps c.alpha0 c.alpha1
  nruns : s.runs.length = g
  lens : ∀ b ∈ s.runs, b.gLog.length = c.gIn * c.nwolves ∧ b.dLog.length = c.replay * (2 * c.npop) ∧
    b.wLog.length = c.nwhales * (c.wIn + 1) ∧ b.gStart.length = c.nwolves ∧ b.dStart.length = c.npop ∧ b.wStart.length = c.nwhales
  prefixes : ∀ b ∈ s.runs, b.gLog.take c.nwolves = b.gStart ∧ b.wLog.take c.nwhales = b.wStart
  feas : ∀ b ∈ s.runs, ∀ x ∈ b.evals, c.S.Feasible x
  from_ : ∀ b ∈ s.runs, ∀ x, x ∈ b.gStart ∨ x ∈ b.dStart ∨ x ∈ b.wStart → x ∈ warm ++ s.runs.flatMap (reported c)
  nhist : s.hist.length = g
  att : ∀ y ∈ s.hist, ∃ z ∈ warm ++ s.runs.flatMap (reported c), fit z = y
  best : g ≠ 0 → ∃ b ∈ s.mem.storage, s.best = some b ∧ s.hist.getLast? = some b.2.1 ∧ ∀ e ∈ s.mem.storage, e.2.1 ≤ b.2.1
  keep : warm.length + g * c.per ≤ c.cap → ER.NW s.mem (warm.length + g * c.per) ∧
    (∀ z ∈ warm ++ s.runs.flatMap (reported c), ∃ e ∈ s.mem.storage, fit z ≤ e.2.1) ∧
    HistBest false fit warm.length c.perGen (warm ++ s.runs.flatMap (reported c)) s.hist

theorem init_inv {c : Conf K} (h4 : 0 < c.npop) {fit : List K → K} {pop0 : List (List K)} (hlen : c.npop ≤ pop0.length)
    (hp : ∀ p ∈ pop0, c.S.Feasible p) {s : State K} (h : init c fit pop0 = .ok s) : Inv c fit pop0 0 s := by
  unfold init at h
  simp only at h
  split at h
  · cases h
  rename_i mem hmem
  cases h
  set all : List (List K × K) := pop0.map fun x => (x, fit x) with hall
  have hs : ∀ {k : ℕ} {x : List K}, x ∈ ((sortDesc (fun e : List K × K => e.2) all).map fun e => e.1).take k → x ∈ pop0 := by
    intro k x hx
    obtain ⟨e, he, rfl⟩ := List.mem_map.1 (List.mem_of_mem_take hx)
    obtain ⟨y, hy, rfl⟩ := List.mem_map.1 (mem_sortDesc.1 he)
    exact hy
  obtain ⟨m1, m2, m3, m4⟩ := ER.add_ok hmem
  have hal : all.length = pop0.length := by simp [hall]
  refine ⟨m1, ?_, ?_, ?_, ?_, by simp, by simp, by simp, by simp, by simp, by simp, by simp, by simp, by simp, by simp, by simp, ?_⟩
  · intro e he
    rcases m2 e he with he | he
    · obtain ⟨x, hx, e1⟩ := List.mem_map.1 (mem_tagged he)
      have e2 := congrArg Prod.fst e1
      have e3 := congrArg Prod.snd e1
      simp only at e2 e3
      rw [← e2, ← e3]
      exact ⟨hp _ hx, rfl, by simpa using hx⟩
    · simp [ER.new] at he
  · apply m3
    left
    intro h0
    have := congrArg List.length h0
    rw [length_tagged, hal] at this
    simp at this
    rw [this] at hlen
    simp at hlen
    omega
  · intro x hx
    have : x ∈ pop0 := by rcases hx with hx | hx | hx <;> exact hs hx
    exact ⟨hp x this, by simpa using this⟩
  · simp [hal]; exact hlen
  · intro hcap
    rw [Nat.zero_mul, Nat.add_zero] at hcap
    have hnw : ER.NW (ER.new c.cap : Mem (Sample K)) 0 := ⟨by simp [ER.new], by simp [ER.new]⟩
    obtain ⟨k1, k2, k3⟩ := ER.add_keep hnw (by rw [length_tagged, hal]; simpa [ER.new] using hcap) hmem
    rw [length_tagged, hal] at k1
    refine ⟨k1.mono (by omega), ?_, ?_⟩
    · intro z hz
      have hz : z ∈ pop0 := by simpa using hz
      refine ⟨(z, fit z, .na), k3 _ ?_, le_rfl⟩
      exact List.mem_map.2 ⟨(z, fit z), List.mem_map.2 ⟨z, hz, rfl⟩, rfl⟩
    · simpa using histBest_nil false fit c.perGen pop0

/-- The pieces of one generation. -/
theorem gen_ok {c : Conf K} {fit : List K → K} {d : GDraw K} {s s' : State K} (h : gen c fit d s = .ok s') :
    ∃ (g : GWO.Result K) (e : DE.Result K) (w : Swarm.Result K) (m0 m1 m2 m3 m4 : Mem (Sample K)) (b : Sample K),
      GWO.evolute c.gwo false fit d.gwo s.gwo = .ok g ∧ DE.evolute c.de false fit d.de (fun _ => []) s.de = .ok e ∧
      WOA.evolute c.woa false fit d.woa s.woa = .ok w ∧
      memoryUpdate s.mem (select (c.mu c.nwolves) g.lastPop) (select (c.mu c.npop) e.lastPop) (select (c.mu c.nwhales) w.lastPop) = .ok m0 ∧
      fill c s.alpha (c.nwolves - c.mu c.nwolves) m0 (select (c.mu c.nwolves) g.lastPop) = .ok (m1, s'.gwo) ∧
      fill c s.alpha (c.npop - c.mu c.npop) m1 (select (c.mu c.npop) e.lastPop) = .ok (m2, s'.de) ∧
      fill c s.alpha (c.nwhales - c.mu c.nwhales) m2 (select (c.mu c.nwhales) w.lastPop) = .ok (m3, s'.woa) ∧
      greedyOne m3 = .ok (m4, b) ∧ s'.mem = m4 ∧ s'.step0 = s.step0 + c.npop ∧
      s'.alpha = PESA.linearAnneal (s.step0 + c.npop) c.steps c.alpha0 c.alpha1 ∧ s'.best = some b ∧ s'.hist = s.hist ++ [b.2.1] ∧
      s'.runs = s.runs ++ [{ gStart := s.gwo, dStart := s.de, wStart := s.woa, gLog := g.log, dLog := e.log, wLog := w.log }] := by
  unfold gen at h
  split at h
  · cases h
  rename_i g hg
  split at h
  · cases h
  rename_i e he
  split at h
  · cases h
  rename_i w hw
  simp only at h
  split at h
  · cases h
  rename_i m0 hm0
  split at h
  · cases h
  rename_i m1 g' hm1
  split at h
  · cases h
  rename_i m2 e' hm2
  split at h
  · cases h
  rename_i m3 w' hm3
  split at h
  · cases h
  rename_i m4 b hm4
  cases h
  exact ⟨g, e, w, m0, m1, m2, m3, m4, b, hg, he, hw, hm0, hm1, hm2, hm3, hm4, rfl, rfl, rfl, rfl, rfl, rfl⟩

theorem gIn_pos {c : Conf K} (h : c.replay ≠ 0) : 0 < c.gIn := Nat.mul_pos (by omega) (by omega)

theorem gen_inv {c : Conf K} (hS : c.S.OK) (hm : c.S.method = .nearestInt) (hR : 0 ≤ c.rfrac ∧ c.rfrac ≤ 1) (hr : c.replay ≠ 0)
    {fit : List K → K} {warm : List (List K)} {g : ℕ} {d : GDraw K} {s s' : State K} (hi : Inv c fit warm g s) (h : gen c fit d s = .ok s') :
    Inv c fit warm (g + 1) s' := by
  obtain ⟨rg, re, rw_, m0, m1, m2, m3, m4, b, hg, he, hw, hm0, hm1, hm2, hm3, hm4, q1, q2, q3, q4, q5, q6⟩ := gen_ok h
  obtain ⟨G, G1, G2⟩ := gwo_method hS (gIn_pos hr) (fun p hp => (hi.starts p (Or.inl hp)).1) hg
  obtain ⟨D, D1⟩ := de_method hS hm hi.nde (fun p hp => (hi.starts p (Or.inr (Or.inl hp))).1) he
  obtain ⟨W, W1, W2⟩ := woa_method hS (fun p hp => (hi.starts p (Or.inr (Or.inr hp))).1) hw
  set blk : Block K := { gStart := s.gwo, dStart := s.de, wStart := s.woa, gLog := rg.log, dLog := re.log, wLog := rw_.log } with hblk
  have hruns : warm ++ s'.runs.flatMap (reported c) = (warm ++ s.runs.flatMap (reported c)) ++ reported c blk := by
    rw [q6]; simp
  have hold : ∀ z ∈ warm ++ s.runs.flatMap (reported c), z ∈ warm ++ s'.runs.flatMap (reported c) := by
    intro z hz; rw [hruns]; exact List.mem_append_left _ hz
  -- survivors
  have gsel : ∀ p ∈ select (c.mu c.nwolves) rg.lastPop, c.S.Feasible p.1 ∧ p.2 = fit p.1 ∧ p.1 ∈ reported c blk := by
    intro p hp
    obtain ⟨e1, e2⟩ := G.val p (mem_select hp)
    refine ⟨G.feas _ (G.sub _ e2), e1, ?_⟩
    have : c.mu c.nwolves ≠ 0 := by intro h0; rw [h0] at hp; simp [select] at hp
    simp only [reported, if_neg this]
    exact List.mem_append_left _ e2
  have esel : ∀ p ∈ select (c.mu c.npop) re.lastPop, c.S.Feasible p.1 ∧ p.2 = fit p.1 ∧ p.1 ∈ reported c blk := by
    intro p hp
    obtain ⟨e1, e2⟩ := D.val p (mem_select hp)
    refine ⟨D.feas _ (D.sub _ e2), e1, ?_⟩
    have : c.mu c.npop ≠ 0 := by intro h0; rw [h0] at hp; simp [select] at hp
    simp only [reported, if_neg this]
    exact List.mem_append_right _ (List.mem_append_left _ e2)
  have wsel : ∀ p ∈ select (c.mu c.nwhales) rw_.lastPop, c.S.Feasible p.1 ∧ p.2 = fit p.1 ∧ p.1 ∈ reported c blk := by
    intro p hp
    obtain ⟨e1, e2⟩ := W.val p (mem_select hp)
    refine ⟨W.feas _ (W.sub _ e2), e1, ?_⟩
    have : c.mu c.nwhales ≠ 0 := by intro h0; rw [h0] at hp; simp [select] at hp
    simp only [reported, if_neg this]
    exact List.mem_append_right _ (List.mem_append_right _ e2)
  obtain ⟨u1, u2, u3, u4⟩ := ER.addAll_ok hm0
  have hmem0 : ∀ e ∈ m0.storage, c.S.Feasible e.1 ∧ e.2.1 = fit e.1 ∧ e.1 ∈ warm ++ s'.runs.flatMap (reported c) := by
    intro e he'
    rcases u2 e he' with ⟨bl, hbl, hin⟩ | hin
    · rw [hruns]
      simp only [List.mem_cons, List.not_mem_nil, or_false] at hbl
      rcases hbl with rfl | rfl | rfl
      · obtain ⟨f1, f2, f3⟩ := gsel _ (mem_tagged hin)
        exact ⟨f1, f2, List.mem_append_right _ f3⟩
      · obtain ⟨f1, f2, f3⟩ := esel _ (mem_tagged hin)
        exact ⟨f1, f2, List.mem_append_right _ f3⟩
      · obtain ⟨f1, f2, f3⟩ := wsel _ (mem_tagged hin)
        exact ⟨f1, f2, List.mem_append_right _ f3⟩
    · obtain ⟨f1, f2, f3⟩ := hi.mem e hin
      exact ⟨f1, f2, hold _ f3⟩
  have hne0 := u3 hi.ne
  obtain ⟨s1, l1, x1⟩ := fill_ok hm1
  obtain ⟨s2, l2, x2⟩ := fill_ok hm2
  obtain ⟨s3, l3, x3⟩ := fill_ok hm3
  obtain ⟨z1, z2, z3⟩ := ER.greedyOne_ok hm4
  have hs03 : Same m0 m3 := (s1.trans s2).trans s3
  have hs04 : Same m0 s'.mem := by rw [q1, z1]; exact hs03.sort
  have hmem : ∀ e ∈ s'.mem.storage, c.S.Feasible e.1 ∧ e.2.1 = fit e.1 ∧ e.1 ∈ warm ++ s'.runs.flatMap (reported c) :=
    fun e he' => hmem0 e (hs04.mem.1 he')
  have hb1 : b ∈ s'.mem.storage := hs04.mem.2 (hs03.mem.1 z2)
  have hbmax : ∀ e ∈ s'.mem.storage, e.2.1 ≤ b.2.1 := fun e he' => z3 e (hs03.mem.2 (hs04.mem.1 he'))
  have hlg : (select (c.mu c.nwolves) rg.lastPop).length = c.mu c.nwolves := length_select (by rw [G.npop]; exact mu_le hR _)
  have hle : (select (c.mu c.npop) re.lastPop).length = c.mu c.npop := length_select (by rw [D.npop]; exact mu_le hR _)
  have hlw : (select (c.mu c.nwhales) rw_.lastPop).length = c.mu c.nwhales := length_select (by rw [W.npop]; exact mu_le hR _)
  have hlast : ∀ bb ∈ s'.runs, bb ∈ s.runs ∨ bb = blk := by
    intro bb hbb; rw [q6] at hbb; simpa using hbb
  refine ⟨?_, hmem, ?_, ?_, ?_, ?_, ?_, ?_, ?_, ?_, ?_, ?_, ?_, ?_, ?_, ?_, ?_⟩
  · rw [hs04.1, u1, hi.size]
  · exact List.ne_nil_of_mem hb1
  · intro x hx
    have hS1 : ∀ {e : Sample K}, e ∈ m0.storage → c.S.Feasible e.1 ∧ e.1 ∈ warm ++ s'.runs.flatMap (reported c) :=
      fun h => ⟨(hmem0 _ h).1, (hmem0 _ h).2.2⟩
    rcases hx with hx | hx | hx
    · rcases x1 x hx with ⟨p, hp, rfl⟩ | ⟨e, hin, rfl⟩
      · obtain ⟨f1, f2, f3⟩ := gsel p hp
        exact ⟨f1, by rw [hruns]; exact List.mem_append_right _ f3⟩
      · exact hS1 hin
    · rcases x2 x hx with ⟨p, hp, rfl⟩ | ⟨e, hin, rfl⟩
      · obtain ⟨f1, f2, f3⟩ := esel p hp
        exact ⟨f1, by rw [hruns]; exact List.mem_append_right _ f3⟩
      · exact hS1 (s1.mem.1 hin)
    · rcases x3 x hx with ⟨p, hp, rfl⟩ | ⟨e, hin, rfl⟩
      · obtain ⟨f1, f2, f3⟩ := wsel p hp
        exact ⟨f1, by rw [hruns]; exact List.mem_append_right _ f3⟩
      · exact hS1 ((s1.trans s2).mem.1 hin)
  · rw [l2, hle]
    have := mu_le hR c.npop
    omega
  · intro _
    have h1 := mu_le hR c.nwolves
    have h2 := mu_le hR c.nwhales
    exact ⟨by rw [l1, hlg]; omega, by rw [l3, hlw]; omega⟩
  · rw [q2, hi.step0]; ring
  · rw [q3, hi.step0, if_neg (by omega)]
    congr 1
    ring
  · rw [q6]; simp [hi.nruns]
  · intro bb hbb
    rcases hlast bb hbb with hbb | rfl
    · exact hi.lens bb hbb
    · exact ⟨G1, D1, W1, G.nstart, D.nstart, W.nstart⟩
  · intro bb hbb
    rcases hlast bb hbb with hbb | rfl
    · exact hi.prefixes bb hbb
    · exact ⟨G2, W2⟩
  · intro bb hbb
    rcases hlast bb hbb with hbb | rfl
    · exact hi.feas bb hbb
    · intro x hx
      rcases List.mem_append.1 hx with hx | hx
      · exact G.feas x hx
      rcases List.mem_append.1 hx with hx | hx
      · exact D.feas x hx
      · exact W.feas x hx
  · intro bb hbb
    rcases hlast bb hbb with hbb | rfl
    · intro x hx; exact hold _ (hi.from_ bb hbb x hx)
    · intro x hx; exact hold _ (hi.starts x hx).2
  · rw [q5]; simp [hi.nhist]
  · intro y hy
    rw [q5] at hy
    rcases List.mem_append.1 hy with hy | hy
    · obtain ⟨z, hz, e⟩ := hi.att y hy
      exact ⟨z, hold z hz, e⟩
    · rw [List.mem_singleton.1 hy]
      obtain ⟨f1, f2, f3⟩ := hmem b hb1
      exact ⟨b.1, f3, f2.symm⟩
  · intro _
    exact ⟨b, hb1, q4, by rw [q5]; simp, hbmax⟩
  · intro hcap
    have hcap' : warm.length + g * c.per ≤ c.cap := by
      refine le_trans ?_ hcap
      have : g * c.per ≤ (g + 1) * c.per := Nat.mul_le_mul_right _ (by omega)
      omega
    obtain ⟨k1, k2, k3⟩ := hi.keep hcap'
    have hsum : ([tagged Tag.gwo (select (c.mu c.nwolves) rg.lastPop), tagged .de (select (c.mu c.npop) re.lastPop),
        tagged .woa (select (c.mu c.nwhales) rw_.lastPop)].map List.length).sum = c.per := by
      simp only [List.map_cons, List.map_nil, List.sum_cons, List.sum_nil, length_tagged, hlg, hle, hlw, Conf.per]
      omega
    have hnext : warm.length + g * c.per + c.per = warm.length + (g + 1) * c.per := by ring
    obtain ⟨w1, w2, w3⟩ := ER.addAll_keep k1 (by rw [hsum, hi.size, hnext]; exact hcap) hm0
    rw [hsum, hnext] at w1
    have hcover : ∀ z ∈ warm ++ s'.runs.flatMap (reported c), ∃ e ∈ m0.storage, fit z ≤ e.2.1 := by
      intro z hz
      rw [hruns] at hz
      rcases List.mem_append.1 hz with hz | hz
      · obtain ⟨e, he', hle⟩ := k2 z hz
        exact ⟨e, w2 e he', hle⟩
      simp only [reported] at hz
      rcases List.mem_append.1 hz with hz | hz
      · split_ifs at hz with h0
        · cases hz
        obtain ⟨p, hp, hle⟩ := G.cover z hz
        obtain ⟨q, hq, hle'⟩ := select_cover (fun e : List K × K => e.2) (k := c.mu c.nwolves) (by omega) hp
        exact ⟨(q.1, q.2, .gwo), w3 (tagged .gwo (select (c.mu c.nwolves) rg.lastPop)) (by simp) _ (List.mem_map.2 ⟨q, hq, rfl⟩), hle.trans hle'⟩
      rcases List.mem_append.1 hz with hz | hz
      · split_ifs at hz with h0
        · cases hz
        obtain ⟨p, hp, hle⟩ := D.cover z hz
        obtain ⟨q, hq, hle'⟩ := select_cover (fun e : List K × K => e.2) (k := c.mu c.npop) (by omega) hp
        exact ⟨(q.1, q.2, .de), w3 (tagged .de (select (c.mu c.npop) re.lastPop)) (by simp) _ (List.mem_map.2 ⟨q, hq, rfl⟩), hle.trans hle'⟩
      · split_ifs at hz with h0
        · cases hz
        obtain ⟨p, hp, hle⟩ := W.cover z hz
        obtain ⟨q, hq, hle'⟩ := select_cover (fun e : List K × K => e.2) (k := c.mu c.nwhales) (by omega) hp
        exact ⟨(q.1, q.2, .woa), w3 (tagged .woa (select (c.mu c.nwhales) rw_.lastPop)) (by simp) _ (List.mem_map.2 ⟨q, hq, rfl⟩), hle.trans hle'⟩
    refine ⟨hs04.nw w1, ?_, ?_⟩
    · intro z hz
      obtain ⟨e, he', hle⟩ := hcover z hz
      exact ⟨e, hs04.mem.2 he', hle⟩
    · have hbest : BestOn false fit (warm ++ s'.runs.flatMap (reported c)) b.2.1 := by
        refine ⟨⟨b.1, (hmem b hb1).2.2, (hmem b hb1).2.1.symm⟩, ?_⟩
        intro z hz
        obtain ⟨e, he', hle⟩ := hcover z hz
        have := hle.trans (hbmax e (hs04.mem.2 he'))
        simpa [NotWorse] using this
      rw [q5]
      rw [hruns] at hbest ⊢
      refine k3.step ?_ hbest
      simp only [reported, List.length_append, Conf.perGen]
      congr 1
      · split_ifs
        · rfl
        · show (rg.log.drop _).length = _
          rw [List.length_drop, G1, Nat.sub_mul, Nat.one_mul]
          have : c.nwolves ≤ c.gIn * c.nwolves := Nat.le_mul_of_pos_left _ (gIn_pos hr)
          omega
      · congr 1
        · split_ifs
          · rfl
          · exact D1
        · split_ifs
          · rfl
          · show (rw_.log.drop _).length = _
            rw [List.length_drop, W1, Nat.mul_add, Nat.mul_one, Nat.mul_comm]
            omega

theorem run_inv {c : Conf K} (hS : c.S.OK) (hm : c.S.method = .nearestInt) (hR : 0 ≤ c.rfrac ∧ c.rfrac ≤ 1) (hr : c.replay ≠ 0)
    (h4 : 0 < c.npop) {fit : List K → K} {dr : ℕ → GDraw K} {pop0 : List (List K)} (hlen : c.npop ≤ pop0.length)
    (hp : ∀ p ∈ pop0, c.S.Feasible p) (g : ℕ) {s : State K} (h : run c fit dr pop0 g = .ok s) : Inv c fit pop0 g s := by
  induction g generalizing s with
  | zero => exact init_inv h4 hlen hp h
  | succ g ih =>
    simp only [run] at h
    split at h
    · cases h
    · rename_i s0 hs0
      exact gen_inv hS hm hR hr (ih hs0) h

/-- What `evolute` guarantees before it starts, and the invariant at its end. -/
theorem evolute_ok {c : Conf K} (hS : c.S.OK) (hm : c.S.method = .nearestInt) {m : Bool} {userFit : List K → K} {dr : ℕ → GDraw K}
    {pop0 : List (List K)} (hp : ∀ p ∈ pop0, c.S.Feasible p) {r : Result K} (h : evolute c m userFit dr pop0 = .ok r) :
    (0 ≤ c.rfrac ∧ c.rfrac ≤ 1) ∧ c.replay ≠ 0 ∧ 4 < c.npop ∧ c.ngen ≠ 0 ∧ 0 < c.nwolves ∧ 0 < c.nwhales ∧ c.npop ≤ pop0.length ∧
    ∃ s b, run c (fun x => sgn (!m) (userFit x)) dr pop0 c.ngen = .ok s ∧ Inv c (fun x => sgn (!m) (userFit x)) pop0 c.ngen s ∧ s.best = some b ∧
      r = { x := b.1, y := sgn (!m) b.2.1, hist := s.hist.map (sgn (!m)), memSize := s.mem.storage.length, warm := pop0, runs := s.runs } := by
  unfold evolute at h
  split at h
  · cases h
  rename_i hc
  have hcheck : (0 < c.nwolves ∧ 0 < c.nwhales) ∧ 0 ≤ c.rfrac ∧ c.rfrac ≤ 1 := by
    unfold checkArgs at hc
    split_ifs at hc
    all_goals first
      | (exfalso; cases hc; done)
      | (rename_i h1 h2; exact ⟨by omega, h2⟩)
  split at h
  · cases h
  split at h
  · cases h
  rename_i hr
  split at h
  · cases h
  rename_i hl
  split at h
  · cases h
  rename_i hn
  split at h
  · cases h
  rename_i s hs
  split at h
  · cases h
  rename_i b hb
  cases h
  have hi := run_inv hS hm hcheck.2 hr (by omega) (not_lt.1 hl) hp c.ngen hs
  refine ⟨hcheck.2, hr, by omega, ?_, hcheck.1.1, hcheck.1.2, by omega, s, b, hs, hi, hb, rfl⟩
  intro h0
  rw [h0] at hs
  simp only [run, init] at hs
  split at hs
  · cases hs
  · cases hs
    cases hb

theorem reported_sub {c : Conf K} {b : Block K} {x : List K} (h : x ∈ reported c b) : x ∈ b.evals := by
  simp only [reported] at h
  simp only [Block.evals]
  rcases List.mem_append.1 h with h | h
  · split_ifs at h
    · cases h
    · exact List.mem_append_left _ (List.mem_of_mem_drop h)
  refine List.mem_append_right _ ?_
  rcases List.mem_append.1 h with h | h
  · split_ifs at h
    · cases h
    · exact List.mem_append_left _ h
  · split_ifs at h
    · cases h
    · exact List.mem_append_right _ (List.mem_of_mem_drop h)

theorem stored_sub {c : Conf K} {warm : List (List K)} {runs : List (Block K)} {x : List K} (h : x ∈ warm ++ runs.flatMap (reported c)) :
    x ∈ warm ++ runs.flatMap Block.evals := by
  rcases List.mem_append.1 h with h | h
  · exact List.mem_append_left _ h
  · obtain ⟨b, hb, hx⟩ := List.mem_flatMap.1 h
    exact List.mem_append_right _ (List.mem_flatMap.2 ⟨b, hb, reported_sub hx⟩)

/-! ### C68 -/

/-- **C68.** When the memory is large enough for the warmup samples and the survivors of every generation, the point PESA2 returns is the best of the
warmup samples and of everything the three methods reported, with its own fitness; entry `g` of the history is the best of what was reported up to
generation `g`. -/
theorem C68_best {c : Conf K} (hS : c.S.OK) (hm : c.S.method = .nearestInt) {m : Bool} {userFit : List K → K} {dr : ℕ → GDraw K}
    {pop0 : List (List K)} (hp : ∀ p ∈ pop0, c.S.Feasible p)
    (hcap : pop0.length + c.ngen * (c.mu c.nwolves + (c.mu c.npop + c.mu c.nwhales)) ≤ c.cap) {r : Result K}
    (h : evolute c m userFit dr pop0 = .ok r) :
    IsBest m userFit (r.stored c) r.x r.y ∧ HistBest m userFit pop0.length c.perGen (r.stored c) r.hist ∧ r.hist.Pairwise (NotWorse m) := by
  obtain ⟨_, _, _, hg, _, _, _, s, b, _, hi, hb, rfl⟩ := evolute_ok hS hm hp h
  obtain ⟨k1, k2, k3⟩ := hi.keep hcap
  obtain ⟨b', hb1, hb2, hb3, hb4⟩ := hi.best hg
  rw [hb] at hb2
  cases hb2
  obtain ⟨f1, f2, f3⟩ := hi.mem b hb1
  have hbest : IsBest false (fun x => sgn (!m) (userFit x)) (pop0 ++ s.runs.flatMap (reported c)) b.1 b.2.1 := by
    refine ⟨f3, f2, ?_⟩
    intro z hz
    obtain ⟨e, he, hle⟩ := k2 z hz
    have := hle.trans (hb4 e he)
    simpa [NotWorse] using this
  exact ⟨hbest.flip, k3.flip, k3.flip.pairwise⟩

/-- **C68.** Whatever the size of the memory: the returned point was evaluated, is feasible and comes with its own fitness; every entry of the history
is the fitness of an evaluated point; there is one entry per generation, the last one being the returned fitness; every evaluated point is feasible,
and there are exactly so many evaluations. -/
theorem C68_attained {c : Conf K} (hS : c.S.OK) (hm : c.S.method = .nearestInt) {m : Bool} {userFit : List K → K} {dr : ℕ → GDraw K}
    {pop0 : List (List K)} (hp : ∀ p ∈ pop0, c.S.Feasible p) {r : Result K} (h : evolute c m userFit dr pop0 = .ok r) :
    (r.x ∈ r.evals ∧ c.S.Feasible r.x ∧ r.y = userFit r.x) ∧ (∀ y ∈ r.hist, ∃ z ∈ r.evals, userFit z = y) ∧
    (r.hist.length = c.ngenArg / c.replay ∧ r.hist.getLast? = some r.y) ∧ (∀ z ∈ r.evals, c.S.Feasible z) ∧
    r.evals.length = pop0.length + c.ngenArg / c.replay * (c.gIn * c.nwolves + (2 * c.npop * c.replay + (c.wIn + 1) * c.nwhales)) := by
  obtain ⟨_, _, _, hg, _, _, _, s, b, _, hi, hb, rfl⟩ := evolute_ok hS hm hp h
  obtain ⟨b', hb1, hb2, hb3, hb4⟩ := hi.best hg
  rw [hb] at hb2
  cases hb2
  obtain ⟨f1, f2, f3⟩ := hi.mem b hb1
  refine ⟨⟨stored_sub f3, f1, ?_⟩, ?_, ⟨by simp [hi.nhist, Conf.ngen], ?_⟩, ?_, ?_⟩
  · show sgn (!m) b.2.1 = _
    rw [f2, sgn_sgn]
  · intro y hy
    obtain ⟨v, hv, rfl⟩ := List.mem_map.1 hy
    obtain ⟨z, hz, e⟩ := hi.att v hv
    exact ⟨z, stored_sub hz, by rw [← e, sgn_sgn]⟩
  · simp only [List.getLast?_map, hb3, Option.map_some]
  · intro z hz
    rcases List.mem_append.1 hz with hz | hz
    · exact hp z hz
    · obtain ⟨bb, hbb, hz⟩ := List.mem_flatMap.1 hz
      exact hi.feas bb hbb z hz
  · show (pop0 ++ s.runs.flatMap Block.evals).length = _
    rw [List.length_append, PESA.flatMap_length (q := c.gIn * c.nwolves + (2 * c.npop * c.replay + (c.wIn + 1) * c.nwhales)), hi.nruns, Conf.ngen]
    intro bb hbb
    obtain ⟨l1, l2, l3, _⟩ := hi.lens bb hbb
    simp only [Block.evals, List.length_append, l1, l2, l3]
    ring

/-- **C68.** If the wolves move at most twice and the whales once per generation (`replay_every = 1`, `npop < 3 * nwolves`, `npop < 2 * nwhales`) and an
individual of every method survives, nothing is lost: the returned point is the best of everything ever evaluated. -/
theorem C68_best_of_all {c : Conf K} (hS : c.S.OK) (hm : c.S.method = .nearestInt) {m : Bool} {userFit : List K → K} {dr : ℕ → GDraw K}
    {pop0 : List (List K)} (hp : ∀ p ∈ pop0, c.S.Feasible p)
    (hcap : pop0.length + c.ngen * (c.mu c.nwolves + (c.mu c.npop + c.mu c.nwhales)) ≤ c.cap)
    (hmu : 0 < c.mu c.nwolves ∧ 0 < c.mu c.npop ∧ 0 < c.mu c.nwhales) (hrep : c.replay = 1) (hG : c.npop < 3 * c.nwolves)
    (hW : c.npop < 2 * c.nwhales) {r : Result K} (h : evolute c m userFit dr pop0 = .ok r) : IsBest m userFit r.evals r.x r.y := by
  have hbest := (C68_best hS hm hp hcap h).1
  obtain ⟨_, _, _, hg, hw0, hh0, _, s, b, _, hi, hb, rfl⟩ := evolute_ok hS hm hp h
  have hsub : ∀ z ∈ pop0 ++ s.runs.flatMap Block.evals, z ∈ pop0 ++ s.runs.flatMap (reported c) := by
    intro z hz
    rcases List.mem_append.1 hz with hz | hz
    · exact List.mem_append_left _ hz
    obtain ⟨bb, hbb, hz⟩ := List.mem_flatMap.1 hz
    have hrep' : ∀ {y : List K}, y ∈ reported c bb → y ∈ pop0 ++ s.runs.flatMap (reported c) :=
      fun hy => List.mem_append_right _ (List.mem_flatMap.2 ⟨bb, hbb, hy⟩)
    obtain ⟨l1, l2, l3, _⟩ := hi.lens bb hbb
    obtain ⟨p1, p2⟩ := hi.prefixes bb hbb
    have hgIn : c.gIn ≤ 2 := by
      unfold Conf.gIn
      rw [hrep, Nat.mul_one]
      have : c.npop / c.nwolves < 3 := (Nat.div_lt_iff_lt_mul hw0).2 hG
      omega
    have hwIn : c.wIn = 1 := by
      unfold Conf.wIn
      rw [hrep, Nat.mul_one]
      have : c.npop / c.nwhales < 2 := (Nat.div_lt_iff_lt_mul hh0).2 hW
      omega
    rcases List.mem_append.1 hz with hz | hz
    · rw [← List.take_append_drop c.nwolves bb.gLog, p1] at hz
      rcases List.mem_append.1 hz with hz | hz
      · exact hi.from_ bb hbb z (Or.inl hz)
      · apply hrep'
        simp only [reported]
        rw [if_neg (by omega)]
        refine List.mem_append_left _ ?_
        have hle : (c.gIn - 1) * c.nwolves ≤ c.nwolves := by
          calc (c.gIn - 1) * c.nwolves ≤ 1 * c.nwolves := Nat.mul_le_mul_right _ (by omega)
            _ = c.nwolves := Nat.one_mul _
        have := List.drop_drop (i := c.nwolves - (c.gIn - 1) * c.nwolves) (j := (c.gIn - 1) * c.nwolves) (l := bb.gLog)
        rw [Nat.add_sub_cancel' hle] at this
        rw [← this] at hz
        exact List.mem_of_mem_drop hz
    rcases List.mem_append.1 hz with hz | hz
    · apply hrep'
      simp only [reported]
      refine List.mem_append_right _ (List.mem_append_left _ ?_)
      rw [if_neg (by omega)]
      exact hz
    · rw [← List.take_append_drop c.nwhales bb.wLog, p2] at hz
      rcases List.mem_append.1 hz with hz | hz
      · exact hi.from_ bb hbb z (Or.inr (Or.inr hz))
      · apply hrep'
        simp only [reported]
        refine List.mem_append_right _ (List.mem_append_right _ ?_)
        rw [if_neg (by omega), hwIn, Nat.one_mul]
        exact hz
  obtain ⟨h1, h2, h3⟩ := hbest
  exact ⟨stored_sub h1, h2, fun z hz => h3 z (hsub z hz)⟩

/-- **C68.** The default memory (three times the number of steps plus one) is large enough for at most `npop` wolves and whales as soon as the warmup fits
into what the survivors leave free. -/
theorem C68_default_memory {c : Conf K} (h0 : c.memSize = 0) (hR : 0 ≤ c.rfrac ∧ c.rfrac ≤ 1) (hw : c.nwolves ≤ c.npop) (hh : c.nwhales ≤ c.npop) (n0 : ℕ) :
    (n0 ≤ 1 → n0 + c.ngen * (c.mu c.nwolves + (c.mu c.npop + c.mu c.nwhales)) ≤ c.cap) ∧
    (n0 + c.ngen * (c.mu c.nwolves + (c.mu c.npop + c.mu c.nwhales)) ≤ c.cap ↔
      n0 ≤ c.ngen * (3 * c.npop - (c.mu c.nwolves + (c.mu c.npop + c.mu c.nwhales))) + 1) := by
  have hc : c.cap = c.ngen * (3 * c.npop) + 1 := by
    unfold Conf.cap Conf.steps
    rw [if_neg (by omega)]
    ring
  have h1 := mu_le hR c.nwolves
  have h2 := mu_le hR c.npop
  have h3 := mu_le hR c.nwhales
  have hle : c.mu c.nwolves + (c.mu c.npop + c.mu c.nwhales) ≤ 3 * c.npop := by omega
  have h4 : c.ngen * (c.mu c.nwolves + (c.mu c.npop + c.mu c.nwhales)) ≤ c.ngen * (3 * c.npop) := Nat.mul_le_mul_left _ hle
  rw [hc, Nat.mul_sub]
  constructor
  · intro h; omega
  · omega

/-- **C68 (defect).** If `R_frac` is so small that no individual survives (`int(R_frac * n) = 0` for all three methods; `R_frac = 0` is allowed), nothing the
methods find is ever stored: the result is the best of the warmup samples, whatever the search evaluates. -/
theorem C68_no_survivors {c : Conf K} (hS : c.S.OK) (hm : c.S.method = .nearestInt) {m : Bool} {userFit : List K → K} {dr : ℕ → GDraw K}
    {pop0 : List (List K)} (hp : ∀ p ∈ pop0, c.S.Feasible p) (hcap : pop0.length ≤ c.cap)
    (h0 : c.rfrac * (max c.npop (max c.nwolves c.nwhales) : ℕ) < 1) {r : Result K}
    (h : evolute c m userFit dr pop0 = .ok r) :
    IsBest m userFit pop0 r.x r.y ∧ ∀ y ∈ r.hist, y = r.y := by
  obtain ⟨hR, _, _, hg, _, _, _, _⟩ := evolute_ok hS hm hp h
  have hz : ∀ n, n ≤ max c.npop (max c.nwolves c.nwhales) → c.mu n = 0 := by
    intro n hn
    unfold Conf.mu
    have : c.rfrac * (n : K) < 1 := by
      refine lt_of_le_of_lt (mul_le_mul_of_nonneg_left ?_ hR.1) h0
      exact_mod_cast hn
    have : ⌊c.rfrac * (n : K)⌋ < 1 := by
      rw [Int.floor_lt]; simpa using this
    omega
  have e1 := hz c.nwolves (by omega)
  have e2 := hz c.npop (by omega)
  have e3 := hz c.nwhales (by omega)
  obtain ⟨k1, k2, _⟩ := C68_best hS hm hp (by rw [e1, e2, e3]; simpa using hcap) h
  have hst : r.stored c = pop0 := by
    obtain ⟨_, _, _, _, _, _, _, s, b, _, _, _, rfl⟩ := evolute_ok hS hm hp h
    have : ∀ b : Block K, reported c b = [] := by intro b; simp [reported, e1, e2, e3]
    simp [Result.stored, this]
  rw [hst] at k1 k2
  refine ⟨k1, ?_⟩
  intro y hy
  obtain ⟨k, hk⟩ := List.mem_iff_getElem?.1 hy
  have := k2.2 k y hk
  rw [List.take_of_length_le (by omega)] at this
  have hb : BestOn m userFit pop0 r.y := ⟨⟨r.x, k1.1, k1.2.1.symm⟩, k1.2.2⟩
  exact this.unique hb

/-- **C68 (defect).** `evolute` overwrites the attribute that holds the `memory_size` argument.  A second call on the same object therefore works with a
memory no larger than what the first call stored, at most the warmup plus the survivors, whatever its own `ngen` and `warmup`. -/
theorem C68_second_call {c : Conf K} (hS : c.S.OK) (hm : c.S.method = .nearestInt) {m : Bool} {userFit : List K → K} {dr : ℕ → GDraw K}
    {pop0 : List (List K)} (hp : ∀ p ∈ pop0, c.S.Feasible p)
    (hcap : pop0.length + c.ngen * (c.mu c.nwolves + (c.mu c.npop + c.mu c.nwhales)) ≤ c.cap) {r : Result K}
    (h : evolute c m userFit dr pop0 = .ok r) (ngen' : ℕ) :
    ({ c with memSize := r.memSize, ngenArg := ngen' } : Conf K).cap = r.memSize ∧ 0 < r.memSize ∧
    r.memSize ≤ pop0.length + c.ngen * (c.mu c.nwolves + (c.mu c.npop + c.mu c.nwhales)) := by
  obtain ⟨_, _, _, hg, _, _, _, s, b, _, hi, hb, rfl⟩ := evolute_ok hS hm hp h
  have hpos : 0 < s.mem.storage.length := List.length_pos_of_ne_nil hi.ne
  refine ⟨?_, hpos, (hi.keep hcap).1.1⟩
  unfold Conf.cap
  rw [if_pos (by simp only; omega)]

/-! ### C69 -/

/-- **C69.** Every starting point of every method in every generation is a warmup sample or a point reported in an earlier generation (points the methods
saw but did not report never return), and all starting populations have the sizes the methods ask for. -/
theorem C69_starts {c : Conf K} (hS : c.S.OK) (hm : c.S.method = .nearestInt) {m : Bool} {userFit : List K → K} {dr : ℕ → GDraw K}
    {pop0 : List (List K)} (hp : ∀ p ∈ pop0, c.S.Feasible p) {r : Result K} (h : evolute c m userFit dr pop0 = .ok r) {k : ℕ} {b : Block K}
    (hb : r.runs[k]? = some b) :
    (b.gStart.length = c.nwolves ∧ b.dStart.length = c.npop ∧ b.wStart.length = c.nwhales) ∧
    ∀ x, x ∈ b.gStart ∨ x ∈ b.dStart ∨ x ∈ b.wStart → x ∈ pop0 ++ (r.runs.take k).flatMap (reported c) := by
  obtain ⟨hR, hr, h4, hg, _, _, hl, s, bb, hs, hi, _, rfl⟩ := evolute_ok hS hm hp h
  obtain ⟨_, _, _, l4, l5, l6⟩ := hi.lens b (List.mem_of_getElem? hb)
  refine ⟨⟨l4, l5, l6⟩, ?_⟩
  have key : ∀ (g : ℕ) (s : State K), run c (fun x => sgn (!m) (userFit x)) dr pop0 g = .ok s → ∀ (k : ℕ) (b : Block K), s.runs[k]? = some b →
      ∀ x, x ∈ b.gStart ∨ x ∈ b.dStart ∨ x ∈ b.wStart → x ∈ pop0 ++ (s.runs.take k).flatMap (reported c) := by
    intro g
    induction g with
    | zero =>
      intro s hs k b hb
      have hi := run_inv hS hm hR hr (by omega) hl hp 0 hs
      rw [List.length_eq_zero_iff.1 hi.nruns] at hb
      simp at hb
    | succ g ih =>
      intro s hs k b hb
      simp only [run] at hs
      split at hs
      · cases hs
      rename_i s0 hs0
      have hi0 := run_inv hS hm hR hr (by omega) hl hp g hs0
      obtain ⟨_, _, _, _, _, _, _, _, _, _, _, _, _, _, _, _, _, _, _, _, _, _, q6⟩ := gen_ok hs
      rw [q6] at hb ⊢
      by_cases hk : k < s0.runs.length
      · rw [List.getElem?_append_left hk] at hb
        rw [List.take_append_of_le_length (by omega)]
        exact ih s0 hs0 k b hb
      · have hk' : k = s0.runs.length := by
          have := (List.getElem?_eq_some_iff.1 hb).1
          simp at this
          omega
        subst hk'
        simp at hb
        subst hb
        rw [List.take_append_of_le_length le_rfl, List.take_length]
        intro x hx
        exact (hi0.starts x hx).2
  exact key _ s hs k b hb

/-- **C69 (defect).** With at least as many wolves as `npop / 2 + 1` and `replay_every = 1` the wolves make a single inner generation, and what a wolf pack
evaluates in it is the population it was given: the grey wolf optimiser never evaluates a new point. -/
theorem C69_gwo_idle {c : Conf K} (hS : c.S.OK) (hm : c.S.method = .nearestInt) {m : Bool} {userFit : List K → K} {dr : ℕ → GDraw K}
    {pop0 : List (List K)} (hp : ∀ p ∈ pop0, c.S.Feasible p) (hrep : c.replay = 1) (hG : c.npop < 2 * c.nwolves) {r : Result K}
    (h : evolute c m userFit dr pop0 = .ok r) : ∀ b ∈ r.runs, b.gLog = b.gStart := by
  obtain ⟨hR, hr, h4, hg, hw0, _, hl, s, bb, hs, hi, _, rfl⟩ := evolute_ok hS hm hp h
  intro b hb
  obtain ⟨l1, _⟩ := hi.lens b hb
  have hgIn : c.gIn = 1 := by
    unfold Conf.gIn
    rw [hrep, Nat.mul_one]
    have : c.npop / c.nwolves < 2 := (Nat.div_lt_iff_lt_mul hw0).2 hG
    omega
  rw [hgIn, Nat.one_mul] at l1
  have := (hi.prefixes b hb).1
  rwa [List.take_of_length_le (by omega)] at this

theorem sortDesc_idem {β : Type} (key : β → K) (l : List β) : sortDesc key (sortDesc key l) = sortDesc key l := by
  unfold sortDesc
  exact List.Pairwise.insertionSort_eq (sortDesc_sorted key l)

/-- **C69.** How the next populations are made: the survivors are the `mu` best of the last population a method returns, best first, and the rest is filled
with samples of the memory.  **Defect:** since every draw reseeds the generator, the three fillings are prefixes of one and the same list of samples. -/
theorem C69_next {c : Conf K} {fit : List K → K} {d : GDraw K} {s s' : State K} (h : gen c fit d s = .ok s') :
    ∃ (g : GWO.Result K) (e : DE.Result K) (w : Swarm.Result K) (drawn : List (List K)),
      GWO.evolute c.gwo false fit d.gwo s.gwo = .ok g ∧ DE.evolute c.de false fit d.de (fun _ => []) s.de = .ok e ∧
      WOA.evolute c.woa false fit d.woa s.woa = .ok w ∧
      (∀ x ∈ drawn, ∃ b ∈ s'.mem.storage, b.1 = x) ∧
      s'.gwo = ((sortDesc (fun p : List K × K => p.2) g.lastPop).take (c.mu c.nwolves)).map (fun p => p.1) ++ drawn.take (c.nwolves - c.mu c.nwolves) ∧
      s'.de = ((sortDesc (fun p : List K × K => p.2) e.lastPop).take (c.mu c.npop)).map (fun p => p.1) ++ drawn.take (c.npop - c.mu c.npop) ∧
      s'.woa = ((sortDesc (fun p : List K × K => p.2) w.lastPop).take (c.mu c.nwhales)).map (fun p => p.1) ++
        drawn.take (c.nwhales - c.mu c.nwhales) := by
  obtain ⟨rg, re, rw_, m0, m1, m2, m3, m4, b, hg, he, hw, hm0, hm1, hm2, hm3, hm4, q1, q2, q3, q4, q5, q6⟩ := gen_ok h
  obtain ⟨z1, z2, z3⟩ := ER.greedyOne_ok hm4
  have hs03 : Same m0 m3 := ((fill_ok hm1).1.trans (fill_ok hm2).1).trans (fill_ok hm3).1
  have hs04 : Same m0 s'.mem := by rw [q1, z1]; exact hs03.sort
  have split : ∀ {k : ℕ} {mem mem' : Mem (Sample K)} {pop : List (List K × K)} {l : List (List K)},
      fill c s.alpha k mem pop = .ok (mem', l) → ∃ xs, ER.sampleSeeded (c.pow s.alpha) c.stream mem k = .ok (mem', xs) ∧
        mem' = ER.sortMem objOf mem ∧ l = pop.map (fun p => p.1) ++ xs.map (fun e => e.1) := by
    intro k mem mem' pop l hf
    unfold fill at hf
    split at hf
    · cases hf
    rename_i m es hes
    cases hf
    exact ⟨es, hes, (ER.sampleSeeded_ok hes).1, rfl⟩
  obtain ⟨xs, a1, a2, a3⟩ := split hm1
  obtain ⟨ys, b1, b2, b3⟩ := split hm2
  obtain ⟨zs, c1, c2, c3⟩ := split hm3
  have hsort : ∀ m : Mem (Sample K), ER.sortMem objOf (ER.sortMem objOf m) = ER.sortMem objOf m := by
    intro m; simp [ER.sortMem, sortDesc_idem]
  -- a sample of the sorted memory is a sample of the memory
  have hsame : ∀ (m : Mem (Sample K)) (k : ℕ), ER.sampleSeeded (c.pow s.alpha) c.stream (ER.sortMem objOf m) k =
      ER.sampleSeeded (c.pow s.alpha) c.stream m k := by
    intro m k
    unfold ER.sampleSeeded ER.samplePrior
    rw [hsort]
    simp only [ER.sortMem, length_sortDesc]
  have e2 : m2 = m1 := by rw [b2, a2, hsort]
  rw [a2, hsame] at b1
  rw [e2, a2, hsame] at c1
  have cx : xs.length = c.nwolves - c.mu c.nwolves := (ER.sampleSeeded_ok a1).2.1
  have cy : ys.length = c.npop - c.mu c.npop := (ER.sampleSeeded_ok b1).2.1
  have cz : zs.length = c.nwhales - c.mu c.nwhales := (ER.sampleSeeded_ok c1).2.1
  have hpre : ∀ {a b : ℕ} {ma mb : Mem (Sample K)} {us vs : List (Sample K)}, a ≤ b →
      ER.sampleSeeded (c.pow s.alpha) c.stream m0 a = .ok (ma, us) → ER.sampleSeeded (c.pow s.alpha) c.stream m0 b = .ok (mb, vs) →
      us = vs.take a := fun hab h1 h2 => ER.C39_same_samples hab h1 h2
  have fin : ∃ ds : List (Sample K), (∀ x ∈ ds, x ∈ m0.storage) ∧ xs = ds.take (c.nwolves - c.mu c.nwolves) ∧ ys = ds.take (c.npop - c.mu c.npop) ∧
      zs = ds.take (c.nwhales - c.mu c.nwhales) := by
    have mx := (ER.sampleSeeded_ok a1).2.2
    have my := (ER.sampleSeeded_ok b1).2.2
    have mz := (ER.sampleSeeded_ok c1).2.2
    rcases le_total (c.nwolves - c.mu c.nwolves) (c.npop - c.mu c.npop) with h1 | h1
    · rcases le_total (c.npop - c.mu c.npop) (c.nwhales - c.mu c.nwhales) with h2 | h2
      · exact ⟨zs, mz, hpre (h1.trans h2) a1 c1, hpre h2 b1 c1, hpre le_rfl c1 c1⟩
      · exact ⟨ys, my, hpre h1 a1 b1, hpre le_rfl b1 b1, hpre h2 c1 b1⟩
    · rcases le_total (c.nwolves - c.mu c.nwolves) (c.nwhales - c.mu c.nwhales) with h2 | h2
      · exact ⟨zs, mz, hpre h2 a1 c1, hpre (h1.trans h2) b1 c1, hpre le_rfl c1 c1⟩
      · exact ⟨xs, mx, hpre le_rfl a1 a1, hpre h1 b1 a1, hpre h2 c1 a1⟩
  obtain ⟨ds, f1, f2, f3, f4⟩ := fin
  refine ⟨rg, re, rw_, ds.map (fun e => e.1), hg, he, hw, ?_, ?_, ?_, ?_⟩
  · intro x hx
    obtain ⟨e, he', rfl⟩ := List.mem_map.1 hx
    exact ⟨e, hs04.mem.2 (f1 e he'), rfl⟩
  · rw [a3, f2, List.map_take]; rfl
  · rw [b3, f3, List.map_take]; rfl
  · rw [c3, f4, List.map_take]; rfl

/-- **C69.** The prioritisation coefficient starts at `alpha_init`, never decreases, stays between `alpha_init` and `alpha_end`, and is `alpha_end` after
the last generation. -/
theorem C69_alpha {c : Conf K} (hS : c.S.OK) (hm : c.S.method = .nearestInt) (hR : 0 ≤ c.rfrac ∧ c.rfrac ≤ 1) (hr : c.replay ≠ 0)
    (h4 : 0 < c.npop) (ha : c.alpha0 ≤ c.alpha1) {fit : List K → K} {dr : ℕ → GDraw K} {pop0 : List (List K)} (hlen : c.npop ≤ pop0.length)
    (hp : ∀ p ∈ pop0, c.S.Feasible p) {g g' : ℕ} (hgg : g ≤ g') {s s' : State K}
    (h : run c fit dr pop0 g = .ok s) (h' : run c fit dr pop0 g' = .ok s') :
    (g = 0 → s.alpha = c.alpha0) ∧ (c.alpha0 ≤ s.alpha ∧ s.alpha ≤ s'.alpha ∧ s'.alpha ≤ c.alpha1) ∧
    (0 < g' → g' = c.ngen → s'.alpha = c.alpha1) := by
  have e1 := (run_inv hS hm hR hr h4 hlen hp g h).alpha
  have e2 := (run_inv hS hm hR hr h4 hlen hp g' h').alpha
  refine ⟨fun h0 => by rw [e1, if_pos h0], ⟨?_, ?_, ?_⟩, ?_⟩
  · rw [e1]; split_ifs
    · exact le_rfl
    · exact (PESA.linearAnneal_mem ha _ _).1
  · rw [e1, e2]
    split_ifs with h1 h2 h3
    · exact le_rfl
    · exact (PESA.linearAnneal_mem ha _ _).1
    · omega
    · unfold PESA.linearAnneal
      have hd : 0 ≤ c.alpha1 - c.alpha0 := sub_nonneg.2 ha
      have : min (((1 + g * c.npop : ℕ) : K) / (c.steps : K)) 1 ≤ min (((1 + g' * c.npop : ℕ) : K) / (c.steps : K)) 1 := by
        apply min_le_min_right
        apply div_le_div_of_nonneg_right _ (Nat.cast_nonneg _)
        exact_mod_cast Nat.add_le_add_left (Nat.mul_le_mul_right _ hgg) 1
      nlinarith [mul_le_mul_of_nonneg_right this hd]
  · rw [e2]; split_ifs
    · exact ha
    · exact (PESA.linearAnneal_mem ha _ _).2
  · intro hg0 hg'
    rw [e2, if_neg (by omega)]
    unfold PESA.linearAnneal
    have hst : (0 : K) < (c.steps : K) := by
      have : 0 < c.ngen * c.npop := Nat.mul_pos (by omega) (by omega)
      exact_mod_cast this
    have : 1 ≤ ((1 + g' * c.npop : ℕ) : K) / (c.steps : K) := by
      rw [le_div_iff₀ hst, one_mul]
      have : c.steps ≤ 1 + g' * c.npop := by unfold Conf.steps; rw [hg']; omega
      exact_mod_cast this
    rw [min_eq_right this]
    ring

/-- **C69.** With `nearest_int` the in-place repair of DE's targets writes nothing new: objects shared with the memory keep their values, so treating
lists as values is exact. -/
theorem C69_shared_unchanged {S : Space K} (hS : S.OK) (hm : S.method = .nearestInt) {ngen : ℕ} {dr : ℕ → ℕ → K × ℕ} {j : ℕ} {refs : List ℕ}
    {heap : List (List K)} (hr : ∀ r ∈ refs, r < heap.length) (hf : ∀ x ∈ heap, S.Feasible x) :
    targetsInPlace S ngen dr j refs heap = .ok heap := by
  induction refs generalizing j with
  | nil => rfl
  | cons r rs ih =>
    have h1 : r < heap.length := hr r (by simp)
    have hx : heap[r]? = some heap[r] := List.getElem?_eq_getElem h1
    have hfx := hf _ (List.getElem_mem h1)
    have hd : S.disc (1 - (j : K) * (1 / (ngen : K))) (dr j) heap[r] = .ok heap[r] := Space.disc_nearest_id hS hm hfx
    simp only [targetsInPlace, hx, hd, List.set_getElem_self]
    exact ih (fun r hr' => hr r (by simp [hr']))

theorem sortMem_ne {m : Mem (Sample K)} (h : m.storage ≠ []) : (ER.sortMem objOf m).storage ≠ [] := by
  intro h0
  have := congrArg List.length h0
  simp [ER.sortMem] at this
  exact h this

theorem fill_total {c : Conf K} {alpha : K} (hpos : ∀ r, 0 < r → 0 < c.pow alpha r) (hmono : ∀ r s, 0 < r → r ≤ s → c.pow alpha r ≤ c.pow alpha s)
    (hs : ∀ i, c.stream i < 1) (k : ℕ) {mem : Mem (Sample K)} (hne : mem.storage ≠ []) (pop : List (List K × K)) :
    ∃ l, fill c alpha k mem pop = .ok (ER.sortMem objOf mem, l) := by
  obtain ⟨xs, h, _⟩ := ER.C39_seeded_total hpos hmono hs hne k
  unfold fill
  rw [h]
  exact ⟨_, rfl⟩

theorem gen_total {c : Conf K} (hS : c.S.OK) (hm : c.S.method = .nearestInt) (hR : 0 ≤ c.rfrac ∧ c.rfrac ≤ 1) (hr : c.replay ≠ 0)
    (hn : 0 < c.npop) (hw : 0 < c.nwolves) (hh : 0 < c.nwhales) (hcap : 0 < c.cap) (ha : 0 ≤ c.alpha0 ∧ c.alpha0 ≤ c.alpha1)
    (hpow : ∀ a, 0 ≤ a → (∀ r, 0 < r → 0 < c.pow a r) ∧ ∀ r s, 0 < r → r ≤ s → c.pow a r ≤ c.pow a s) (hs : ∀ i, c.stream i < 1)
    {fit : List K → K} {warm : List (List K)} {g : ℕ} {d : GDraw K}
    (hd : ∀ g j, (d.de g j).i1 < c.npop ∧ (d.de g j).i2 < c.npop ∧ (d.de g j).i3 < c.npop) {s : State K} (hi : Inv c fit warm g s)
    (hl : s.gwo.length = c.nwolves ∧ s.woa.length = c.nwhales) : ∃ s', gen c fit d s = .ok s' := by
  have hf : ∀ x, x ∈ s.gwo ∨ x ∈ s.de ∨ x ∈ s.woa → c.S.Feasible x := fun x hx => (hi.starts x hx).1
  obtain ⟨rg, hg⟩ := GWO.C16_total (c := c.gwo) hS hm (m := false) (userFit := fit) (dr := d.gwo) (fun p hp => hf p (Or.inl hp)) hl.1 hw
    (gIn_pos hr) (fun as h => by simp [Conf.gwo] at h)
  obtain ⟨re, he⟩ := DE.C07_evolute_total (c := c.de) hS hm hn (Nat.pos_of_ne_zero hr) (minMode := false) (userFit := fit) (dr := d.de)
    (rl := fun _ => []) hi.nde (fun p hp => (hf p (Or.inr (Or.inl hp))).1.length_eq) (by simp) hd
  obtain ⟨rw_, hw'⟩ := WOA.C17_total (c := c.woa) hS hm (m := false) (userFit := fit) (dr := d.woa) (fun p hp => hf p (Or.inr (Or.inr hp))) hl.2 hh
    (show 0 < c.wIn from Nat.mul_pos (by omega) (by omega)) (Or.inl ⟨rfl, rfl⟩)
  obtain ⟨m0, hm0⟩ : ∃ m0, memoryUpdate s.mem (select (c.mu c.nwolves) rg.lastPop) (select (c.mu c.npop) re.lastPop)
      (select (c.mu c.nwhales) rw_.lastPop) = .ok m0 := ER.addAll_total (by rw [hi.size]; omega) _
  have hne0 : m0.storage ≠ [] := (ER.addAll_ok hm0).2.2.1 hi.ne
  have halpha : 0 ≤ s.alpha := by
    rw [hi.alpha]
    split_ifs
    · exact ha.1
    · exact ha.1.trans (PESA.linearAnneal_mem ha.2 _ _).1
  obtain ⟨q1, q2⟩ := hpow s.alpha halpha
  obtain ⟨l1, h1⟩ := fill_total q1 q2 hs (c.nwolves - c.mu c.nwolves) hne0 (select (c.mu c.nwolves) rg.lastPop)
  obtain ⟨l2, h2⟩ := fill_total q1 q2 hs (c.npop - c.mu c.npop) (sortMem_ne hne0) (select (c.mu c.npop) re.lastPop)
  obtain ⟨l3, h3⟩ := fill_total q1 q2 hs (c.nwhales - c.mu c.nwhales) (sortMem_ne (sortMem_ne hne0)) (select (c.mu c.nwhales) rw_.lastPop)
  obtain ⟨b, hb⟩ := ER.greedyOne_total (sortMem_ne (sortMem_ne (sortMem_ne hne0)))
  unfold gen
  simp only [hg, he, hw', hm0, h1, h2, h3, hb]
  exact ⟨_, rfl⟩

/-- **C68.** The number of wolves and of whales: with one core as given; with several cores at most `npop`, and a divisor of it. -/
theorem C68_wolves_whales {c : Conf K} (h : checkArgs c = .ok ()) :
    (c.ncores ≤ 1 → c.nwolves = c.wolvesArg ∧ c.nwhales = c.whalesArg) ∧
    (1 < c.ncores → c.nwolves = min c.wolvesArg c.npop ∧ c.nwhales = min c.whalesArg c.npop ∧ c.nwolves ∣ c.npop ∧ c.nwhales ∣ c.npop) := by
  unfold checkArgs at h
  split_ifs at h with h1 h2 h3 h4 h5
  refine ⟨fun hc => ?_, fun hc => ?_⟩
  · unfold Conf.nwolves Conf.nwhales
    rw [if_neg (by omega), if_neg (by omega)]
    exact ⟨rfl, rfl⟩
  · have hw : c.nwolves = min c.wolvesArg c.npop := by
      unfold Conf.nwolves; split_ifs with hh
      · rw [min_eq_right hh.2]
      · rw [min_eq_left]; by_contra hcon; exact hh ⟨hc, by omega⟩
    have hh : c.nwhales = min c.whalesArg c.npop := by
      unfold Conf.nwhales; split_ifs with hh
      · rw [min_eq_right hh.2]
      · rw [min_eq_left]; by_contra hcon; exact hh ⟨hc, by omega⟩
    refine ⟨hw, hh, ?_, ?_⟩
    · rw [hw]
      rcases le_or_gt c.npop c.wolvesArg with hle | hlt
      · rw [min_eq_right hle]
      · rw [min_eq_left hlt.le]
        by_contra hcon
        exact h1 ⟨hc, hlt, .inr hcon⟩
    · rw [hh]
      rcases le_or_gt c.npop c.whalesArg with hle | hlt
      · rw [min_eq_right hle]
      · rw [min_eq_left hlt.le]
        by_contra hcon
        first | exact h2 ⟨hc, hlt, .inr hcon⟩ | exact h3 ⟨hc, hlt, .inr hcon⟩

/-- The constructor accepts the arguments. -/
def Conf.ArgsOK (c : Conf K) : Prop :=
  0 < c.wolvesArg ∧ 0 < c.whalesArg ∧ (0 ≤ c.rfrac ∧ c.rfrac ≤ 1) ∧ 4 < c.npop ∧
  (1 < c.ncores → (c.npop ≤ c.wolvesArg ∨ c.wolvesArg ∣ c.npop) ∧ (c.npop ≤ c.whalesArg ∨ c.whalesArg ∣ c.npop))

theorem ArgsOK.pos {c : Conf K} (h : c.ArgsOK) : 0 < c.nwolves ∧ 0 < c.nwhales := by
  obtain ⟨h1, h2, _, h3, _⟩ := h
  unfold Conf.nwolves Conf.nwhales
  split_ifs <;> omega

theorem checkArgs_ok {c : Conf K} (h : c.ArgsOK) : checkArgs c = .ok () := by
  obtain ⟨p1, p2⟩ := ArgsOK.pos h
  obtain ⟨h1, h2, h3, h4, h5⟩ := h
  unfold checkArgs
  rw [if_neg, if_neg, if_neg (by omega), if_neg (not_not.2 h3)]
  · rintro ⟨a, b, c'⟩
    rcases (h5 a).2 with h | h
    · omega
    · rcases c' with c' | c'
      · omega
      · exact c' h
  · rintro ⟨a, b, c'⟩
    rcases (h5 a).1 with h | h
    · omega
    · rcases c' with c' | c'
      · omega
      · exact c' h

/-- **C68.** With accepted arguments, at least two generations of which one is left after dividing by `replay_every`, `nearest_int` and at least as many warmup samples
as wolves, whales and members, PESA2 returns a result. -/
theorem C68_total {c : Conf K} (hS : c.S.OK) (hm : c.S.method = .nearestInt) (hargs : c.ArgsOK) (hg : 2 ≤ c.ngenArg) (hr : 0 < c.replay)
    (hrg : c.replay ≤ c.ngenArg) (ha : 0 ≤ c.alpha0 ∧ c.alpha0 ≤ c.alpha1)
    (hpow : ∀ a, 0 ≤ a → (∀ r, 0 < r → 0 < c.pow a r) ∧ ∀ r s, 0 < r → r ≤ s → c.pow a r ≤ c.pow a s) (hs : ∀ i, c.stream i < 1)
    {m : Bool} {userFit : List K → K} {dr : ℕ → GDraw K}
    (hd : ∀ k g j, ((dr k).de g j).i1 < c.npop ∧ ((dr k).de g j).i2 < c.npop ∧ ((dr k).de g j).i3 < c.npop) {pop0 : List (List K)}
    (hp : ∀ p ∈ pop0, c.S.Feasible p) (hlen : c.npop ≤ pop0.length ∧ c.nwolves ≤ pop0.length ∧ c.nwhales ≤ pop0.length) :
    ∃ r, evolute c m userFit dr pop0 = .ok r := by
  obtain ⟨p1, p2⟩ := ArgsOK.pos hargs
  have h4 := hargs.2.2.2.1
  have hR := hargs.2.2.1
  have hcap : 0 < c.cap := by unfold Conf.cap; split_ifs <;> omega
  set fit := fun x => sgn (!m) (userFit x) with hfit
  have hrun : ∀ g, ∃ s, run c fit dr pop0 g = .ok s ∧ s.gwo.length = c.nwolves ∧ s.woa.length = c.nwhales := by
    intro g
    induction g with
    | zero =>
      obtain ⟨mem, hmem⟩ := ER.add_total (m := (ER.new c.cap : Mem (Sample K))) (by show c.cap ≠ 0; omega) (tagged .na (pop0.map fun x => (x, fit x)))
      refine ⟨_, by simp only [run, init, hmem]; rfl, ?_, ?_⟩
      · simp; omega
      · simp; omega
    | succ g ih =>
      obtain ⟨s, hs', hl⟩ := ih
      have hi := run_inv hS hm hR (by omega) (by omega) hlen.1 hp g hs'
      obtain ⟨s2, h2⟩ := gen_total hS hm hR (by omega) (by omega) p1 p2 hcap ha hpow hs (hd g) hi hl
      have h2' : run c fit dr pop0 (g + 1) = .ok s2 := by simp only [run, hs', h2]
      exact ⟨s2, h2', (run_inv hS hm hR (by omega) (by omega) hlen.1 hp (g + 1) h2').npops (by omega)⟩
  obtain ⟨s, hs', _⟩ := hrun c.ngen
  have hi := run_inv hS hm hR (by omega) (by omega) hlen.1 hp c.ngen hs'
  have hng : c.ngen ≠ 0 := Nat.pos_iff_ne_zero.1 (Nat.div_pos hrg hr)
  obtain ⟨b, _, hb, _⟩ := hi.best hng
  unfold evolute
  rw [checkArgs_ok hargs]
  simp only
  rw [if_neg (by omega), if_neg (by omega), if_neg (by omega), if_neg (by omega), hs']
  simp only [hb]
  exact ⟨_, rfl⟩

/-- **C68 (defect).** More wolves than warmup samples: only `warmup >= npop` is checked, so the call dies on an assertion inside the grey wolf optimiser. -/
theorem C68_too_many_wolves {c : Conf K} (hargs : c.ArgsOK) (hg : 2 ≤ c.ngenArg) (hr : 0 < c.replay) (hrg : c.replay ≤ c.ngenArg)
    {m : Bool} {userFit : List K → K} {dr : ℕ → GDraw K} {pop0 : List (List K)} (hlen : c.npop ≤ pop0.length) (hfew : pop0.length < c.nwolves) :
    evolute c m userFit dr pop0 = .error .assertion := by
  have h4 := hargs.2.2.2.1
  have hcap : 0 < c.cap := by unfold Conf.cap; split_ifs <;> omega
  have hng : c.ngen ≠ 0 := Nat.pos_iff_ne_zero.1 (Nat.div_pos hrg hr)
  obtain ⟨n, hn⟩ := Nat.exists_eq_succ_of_ne_zero hng
  set fit := fun x => sgn (!m) (userFit x) with hfit
  have hrun : ∀ g, run c fit dr pop0 (g + 1) = .error .assertion := by
    intro g
    induction g with
    | zero =>
      obtain ⟨mem, hmem⟩ := ER.add_total (m := (ER.new c.cap : Mem (Sample K))) (by show c.cap ≠ 0; omega) (tagged .na (pop0.map fun x => (x, fit x)))
      simp only [run, init, hmem, gen, GWO.evolute]
      rw [if_pos]
      simp [Conf.gwo]
      omega
    | succ g ih => rw [run, ih]
  unfold evolute
  rw [checkArgs_ok hargs]
  simp only
  rw [if_neg (by omega), if_neg (by omega), if_neg (by omega), if_neg (by omega), hn, hrun n]

/-- **C68 (defect).** `replay_every` larger than `ngen` leaves no generation at all: the warmup is evaluated, then the call raises. -/
theorem C68_no_generation {c : Conf K} (hargs : c.ArgsOK) (hg : 2 ≤ c.ngenArg) (hrg : c.ngenArg < c.replay)
    {m : Bool} {userFit : List K → K} {dr : ℕ → GDraw K} {pop0 : List (List K)} (hlen : c.npop ≤ pop0.length) :
    evolute c m userFit dr pop0 = .error .attributeError := by
  have h4 := hargs.2.2.2.1
  have hcap : 0 < c.cap := by unfold Conf.cap; split_ifs <;> omega
  have hng : c.ngen = 0 := Nat.div_eq_of_lt hrg
  obtain ⟨mem, hmem⟩ := ER.add_total (m := (ER.new c.cap : Mem (Sample K))) (by show c.cap ≠ 0; omega)
    (tagged .na (pop0.map fun x => (x, sgn (!m) (userFit x))))
  unfold evolute
  rw [checkArgs_ok hargs]
  simp only
  rw [if_neg (by omega), if_neg (by omega), if_neg (by omega), if_neg (by omega), hng]
  simp only [run, init, hmem]

end

/-! ### Concrete cases -/

def exS : Space ℚ := { bounds := [(-5, 5), (0, 3)], types := [.float, .int], method := .nearestInt, expf := fun x => x }

/-- Five members, two wolves, two whales, two generations, default memory. -/
def exC : Conf ℚ :=
  { S := exS, npop := 5, wolvesArg := 2, whalesArg := 2, rfrac := 1 / 2, F := 1 / 2, CR := 3 / 10, ncores := 1, ngenArg := 2, replay := 1
    memSize := 0, alpha0 := 1 / 10, alpha1 := 1, spiral := fun l => l / 2, pow := fun _ r => r, stream := fun i => ((3 * i + 1) % 7 : ℕ) / 7 }

def exPop : List (List ℚ) := [[3, 1], [-2, 2], [1, 1], [4, 1], [2, 3], [0, 2]]

def exDr : ℕ → GDraw ℚ := fun g =>
  { gwo := fun k => { r := fun i j t => ((i + 2 * j + t + k + g) % 5 : ℕ) / 5, disc := fun _ _ => (1 / 2, 0) }
    de := fun _ j => { i1 := (j + 1) % 5, i2 := (j + 2) % 5, i3 := (j + 3) % 5, cross := fun i => if i = 0 then 1 / 10 else 1
                       discT := fun _ => (1 / 2, 0), discV := fun _ => (1 / 2, 0) }
    woa := fun k j => { r1 := if k = 0 then 9 / 10 else 3 / 4, r2 := 1 / 4, rl := 1 / 2, p := if j = 0 then 1 / 4 else 3 / 4, pick := fun _ => 1
                        disc := fun _ => (1 / 2, 0) } }

def exFit : List ℚ → ℚ := fun x => (x.map (fun v => v * v)).sum

example : exS.OK := Space.ok_of_okB (by decide +kernel)
example : ∀ p ∈ exPop, exC.S.Feasible p := by
  have h : (exPop.all fun p => exS.feasB p) = true := by decide +kernel
  exact fun p hp => Space.feasible_of_feasB (List.all_eq_true.1 h p hp)
example : exC.ArgsOK := by
  refine ⟨by decide, by decide, by norm_num [exC], by decide, fun h => absurd h (by decide)⟩
example : ∀ k g j, ((exDr k).de g j).i1 < exC.npop ∧ ((exDr k).de g j).i2 < exC.npop ∧ ((exDr k).de g j).i3 < exC.npop := by
  intro k g j
  simp only [exDr, exC]
  omega
example : ∀ i, exC.stream i < 1 := by
  intro i
  have h : ((3 * i + 1) % 7 : ℕ) < 7 := Nat.mod_lt _ (by norm_num)
  have h' : (((3 * i + 1) % 7 : ℕ) : ℚ) < 7 := by exact_mod_cast h
  show (((3 * i + 1) % 7 : ℕ) : ℚ) / 7 < 1
  rw [div_lt_one (by norm_num)]
  exact h'
example : exC.npop ≤ exPop.length ∧ exC.nwolves ≤ exPop.length ∧ exC.nwhales ≤ exPop.length ∧ 2 ≤ exC.ngenArg ∧ exC.replay ≤ exC.ngenArg := by decide
example : exC.mu exC.nwolves = 1 ∧ exC.mu exC.npop = 2 ∧ exC.cap = 31 ∧ exC.ngen = 2 ∧ exC.gIn = 2 := by decide +kernel
example : (match evolute exC true exFit exDr exPop with
    | .ok r => decide (r.x = [-1 / 20, 0] ∧ r.y = 1 / 400 ∧ r.hist = [1 / 400, 1 / 400] ∧ r.memSize = 12 ∧ r.runs.length = 2)
    | .error _ => false) = true := by decide +kernel

/-- A spike at a point that only a whale in the middle of its run visits. -/
def loFit : List ℚ → ℚ := fun x => if x = [-8 / 5, 2] then -1 else exFit x

/-- **C68 (defect).** PESA2 is not the best of all its evaluations: the whale and wolf generations inside a generation are evaluated, but only the last
one reaches the memory.  Here a whale visits the minimiser, of fitness -1, and PESA2 returns 441/15625. -/
theorem C68_loses : ∃ r : Result ℚ, evolute exC true loFit exDr exPop = .ok r ∧ r.y = 441 / 15625 ∧
    ∃ b ∈ r.runs, ∃ z ∈ b.wLog, loFit z < r.y := by
  have h : (match evolute exC true loFit exDr exPop with
      | .ok r => decide (r.y = 441 / 15625 ∧ (r.runs.any fun b => b.wLog.any fun z => decide (loFit z < r.y)) = true) | .error _ => false) = true := by
    decide +kernel
  cases he : evolute exC true loFit exDr exPop with
  | error e => rw [he] at h; cases h
  | ok r =>
    rw [he] at h
    obtain ⟨h1, h2⟩ := of_decide_eq_true h
    obtain ⟨b, hb, h3⟩ := List.any_eq_true.1 h2
    obtain ⟨z, hz, h4⟩ := List.any_eq_true.1 h3
    exact ⟨r, rfl, h1, b, hb, z, hz, of_decide_eq_true h4⟩

/-- The same space with the `sigmoid` transformation. -/
def sgS : Space ℚ := { exS with method := .sigmoid }

/-- **C69 (defect).** With `sigmoid` (and likewise `minmax`) the in-place repair of a DE target changes an object the memory also holds: the memory
entry then pairs a point with the fitness of another point. -/
theorem C69_shared_corrupted : ∃ (S : Space ℚ) (x x' : List ℚ) (dr : ℕ → ℕ → ℚ × ℕ) (heap : List (List ℚ)), S.OK ∧ S.method = .sigmoid ∧ S.Feasible x ∧
    readEntry [x] (0, exFit x) = some (x, exFit x) ∧ targetsInPlace S 2 dr 0 [0] [x] = .ok heap ∧
    readEntry heap (0, exFit x) = some (x', exFit x) ∧ exFit x' ≠ exFit x := by
  refine ⟨sgS, [3, 0], [3, 1], fun _ _ => (0, 0), [[3, 1]], Space.ok_of_okB (by decide +kernel), rfl, Space.feasible_of_feasB (by decide +kernel), rfl, ?_, rfl,
    by decide +kernel⟩
  have h : (match targetsInPlace sgS 2 (fun _ _ => (0, 0)) 0 [0] [[3, 0]] with | .ok l => decide (l = [[3, 1]]) | .error _ => false) = true := by
    decide +kernel
  cases he : targetsInPlace sgS 2 (fun _ _ => (0, 0)) 0 [0] [[3, 0]] with
  | error e => rw [he] at h; cases h
  | ok l => rw [he] at h; rw [of_decide_eq_true h]

/-- Seven wolves and six warmup samples. -/
example : ({ exC with wolvesArg := 7 } : Conf ℚ).ArgsOK ∧ exPop.length < ({ exC with wolvesArg := 7 } : Conf ℚ).nwolves :=
  ⟨⟨by decide, by decide, by norm_num [exC], by decide, fun h => absurd h (by decide)⟩, by decide⟩

example : checkArgs { exC with ncores := 4, npop := 6, wolvesArg := 3, whalesArg := 9 } = .ok () := by decide +kernel

end Neorl.PESA2

import Verif.Particles
import Verif.EDEV
import Mathlib.Tactic.Linarith

/-!
# HCLPSO (`neorl/evolu/hclpso.py`)

Simplifications: exact arithmetic; `Pc` (lines 249-254, an exponential ramp from 0 to 0.25) is a parameter `pc`; grid variables as integers (C05);
`ncores > 1` evaluates the same rows.
-/

set_option linter.unusedSectionVars false
set_option linter.unusedVariables false

namespace Neorl.HCLPSO
open Particles
open EDEV (repair worker repair_feasible repair_rows repair_total)

section
variable {K : Type} [Field K] [LinearOrder K] [IsStrictOrderedRing K] [FloorRing K]

/-- `v_max`, line 269. -/
def vmax (S : Space K) (j : ℕ) : K := ((S.bounds.getD j (0, 0)).2 - (S.bounds.getD j (0, 0)).1) * (1 / 5)

/-- Line 255. -/
def weight (ngen k : ℕ) : K := 99 / 100 - (k : K) * (79 / 100) / (ngen : K)
/-- Line 256. -/
def constr (ngen k : ℕ) : K := 3 - (k : K) * (3 / 2) / (ngen : K)
/-- Line 257. -/
def cog (ngen k : ℕ) : K := 5 / 2 - (k : K) * 2 / (ngen : K)
/-- Line 258. -/
def soc (ngen k : ℕ) : K := 1 / 2 + (k : K) * 2 / (ngen : K)

/-- Random numbers before the loop: positions (271), velocities (272), discrete repair (277), first exemplars. -/
structure Draws0 (K : Type) where
  u : ℕ → ℕ → K
  v : ℕ → ℕ → K
  d : ℕ → ℕ → K × ℕ
  fr : ℕ → FDraw K

/-- Random numbers of one generation. -/
structure Draws (K : Type) where
  u1 : ℕ → ℕ → K
  u2 : ℕ → ℕ → K
  d : ℕ → ℕ → K × ℕ
  fr : ℕ → FDraw K

/-- State between generations; `log0`, `log` are the points handed to `fit` before and in the loop. -/
structure State (K : Type) where
  pos : List (List K)
  vel : List (List K)
  fri : List (List K)
  mem : Mem K
  best : Option (K × List K)
  log0 : List (List K)
  log : List (List K)
  hG : List K
  hL : List K

/-- Exemplars of all particles, lines 290-293: group 1 picks friends among the first `g1`, group 2 among all. -/
def firstFri (dim g1 g : ℕ) (pc : ℕ → K) (pb : List (Indv K)) (fr : ℕ → FDraw K) : List (List K) :=
  (List.range g).map (fun i => exemplar dim (if i < g1 then g1 else g) (pc i) pb (fr i) i)

/-- Lines 260-293.  `x0` has been stored in `Positions` (lines 236-247) and is overwritten here. -/
def start (S : Space K) (g1 g2 : ℕ) (pc : ℕ → K) (f : List K → K) (D : Draws0 K) : Py (State K) :=
  let g := g1 + g2
  let dim := S.bounds.length
  let raw := (List.range g).map (fun i => (List.range dim).map (fun j =>
    (S.bounds.getD j (0, 0)).1 + ((S.bounds.getD j (0, 0)).2 - (S.bounds.getD j (0, 0)).1) * D.u i j))
  let vel := (List.range g).map (fun i => (List.range dim).map (fun j => -vmax S j + (vmax S j - -vmax S j) * D.v i j))
  match mapRows (repair S 1 D.d) 0 raw with
  | .error e => .error e
  | .ok pos =>
    match Swarm.select f pos with
    | .error e => .error e
    | .ok b =>
      let pb := pos.map (fun x => (x, f x))
      .ok { pos := pos, vel := vel, fri := firstFri dim g1 g pc pb D.fr, mem := ⟨pb, List.replicate g 0, b.1, .copy b.2⟩, best := none,
            log0 := pos.map S.clip, log := [], hG := [], hL := [] }

/-- New velocity of particle `i`, lines 303-320. -/
def velRow (S : Space K) (g1 ngen k : ℕ) (D : Draws K) (s : State K) (gb : List K) (i : ℕ) : List K :=
  (List.range S.bounds.length).map (fun j =>
    let x := at2 s.pos i j
    let delta := if i < g1 then constr ngen k * D.u1 i j * (at2 s.fri i j - x)
      else cog ngen k * D.u1 i j * (at2 s.fri i j - x) + soc ngen k * D.u2 i j * (gb.getD j 0 - x)
    limit (-vmax S j) (vmax S j) (weight ngen k * at2 s.vel i j + delta))

/-- `if fits < self.best_fitness`, lines 336-338 (`best_fitness` starts at infinity). -/
def bestOf (f : List K → K) (b : Option (K × List K)) : List (List K) → Option (K × List K)
  | [] => b
  | p :: ps => match b with
    | none => some (Swarm.better f (f p, p) ps)
    | some b => some (Swarm.better f b (p :: ps))

/-- Failure counter, lines 340-345. -/
def slopeRule (result old _new : K) (s : ℕ) : ℕ := if result < old then 0 else s + 1

/-- `UpdateParticles` for both groups with `check_slope=True`, lines 351-355: group 2 asks for a friend among the first `g - 1`. -/
def refreshAll (dim g1 g : ℕ) (pc : ℕ → K) (fr : ℕ → FDraw K) (m : Mem K) (fri : List (List K)) : List (List K × ℕ) :=
  (List.range g).map (fun i => refresh dim (if i < g1 then g1 else g - 1) (pc i) m.pb (fr i) i (fri.getD i []) (m.slope.getD i 0))

/-- One generation, lines 295-373. -/
def gen (S : Space K) (g1 g2 ngen : ℕ) (pc : ℕ → K) (f : List K → K) (D : Draws K) (k : ℕ) (s : State K) : Py (State K) :=
  let g := g1 + g2
  let gb := s.mem.gref.get s.mem.pb
  let vel := (List.range g).map (velRow S g1 ngen k D s gb)
  let raw := (List.range g).map (fun i => (List.range S.bounds.length).map (fun j => at2 s.pos i j + at2 vel i j))
  match mapRows (repair S (1 - (k : K) * (1 / (ngen : K))) D.d) 0 raw with
  | .error e => .error e
  | .ok pos =>
    match Swarm.select f pos with
    | .error e => .error e
    | .ok l =>
      let mem := notes (fun _ => false) (fun _ => slopeRule) f s.mem 0 pos
      let rf := refreshAll S.bounds.length g1 g pc D.fr mem s.fri
      let best := bestOf f s.best pos
      .ok { pos := pos, vel := vel, fri := rf.map Prod.fst, mem := { mem with slope := rf.map Prod.snd }, best := best, log0 := s.log0,
            log := s.log ++ pos.map S.clip, hG := s.hG ++ (best.map Prod.fst).toList, hL := s.hL ++ [l.1] }

/-- The loop, line 295. -/
def run (S : Space K) (g1 g2 ngen : ℕ) (pc : ℕ → K) (f : List K → K) (D : ℕ → Draws K) (s0 : State K) : ℕ → Py (State K)
  | 0 => .ok s0
  | k + 1 =>
    match run S g1 g2 ngen pc f D s0 k with
    | .error e => .error e
    | .ok s => gen S g1 g2 ngen pc f (D k) k s

/-- What `evolute` returns, with the memory and the evaluated points. -/
structure Result (K : Type) where
  x : List K
  y : K
  global : List K
  locals : List K
  c1 : List K
  c2 : List K
  kappa : List K
  lastPop : List (List K × K)
  mem : Mem K
  log0 : List (List K)
  log : List (List K)

/-- `evolute`, lines 226-411.  Without a generation `best_position` does not exist. -/
def evolute (S : Space K) (g1 g2 ngen : ℕ) (pc : ℕ → K) (m : Bool) (userFit : List K → K) (x0 : Option (List (List K))) (D0 : Draws0 K) (D : ℕ → Draws K) :
    Py (Result K) :=
  if (match x0 with | some l => decide (l.length ≠ g1 + g2) | none => false) then .error .assertion else
  let f := worker S m userFit
  match start S g1 g2 pc f D0 with
  | .error e => .error e
  | .ok s0 =>
    match run S g1 g2 ngen pc f D s0 ngen with
    | .error e => .error e
    | .ok s =>
      match s.best with
      | none => .error .unboundLocal
      | some b =>
        .ok { x := b.2, y := sgn m b.1, global := s.hG.map (sgn m), locals := s.hL.map (sgn m), c1 := (List.range ngen).map (cog ngen),
              c2 := (List.range ngen).map (soc ngen), kappa := (List.range ngen).map (constr ngen), lastPop := s.pos.map (fun p => (p, sgn m (f p))),
              mem := s.mem, log0 := s.log0, log := s.log }

/-! ### Lemmas -/

/-- Everything known after `G` generations. -/
structure Inv (S : Space K) (g ngen : ℕ) (f : List K → K) (G : ℕ) (s : State K) : Prop where
  npos : s.pos.length = g
  feas : ∀ p ∈ s.pos, S.Feasible p
  feas0 : ∀ p ∈ s.log0, S.Feasible p
  flog : ∀ p ∈ s.log, S.Feasible p
  len0 : s.log0.length = g
  mem : s.mem.OK f g (s.log0 ++ s.log)
  slots : ∀ (i : ℕ) (p : Indv K), s.mem.pb[i]? = some p → SlotBest true f g (G + 1) (s.log0 ++ s.log) i p.1 p.2
  best : (G = 0 ∧ s.best = none) ∨ ∃ b, s.best = some b ∧ Swarm.Inc f s.log b
  hist : HistMin f 0 g s.log s.hG
  lens : s.hG.length = G ∧ s.hL.length = G
  locals : BlockBest true f 0 g s.log s.hL
  last : s.pos = (s.log0 ++ s.log).drop (G * g)
  nvel : s.vel.length = g ∧ ∀ v ∈ s.vel, v.length = S.bounds.length
  vel : ∀ (i j : ℕ), i < g → j < S.bounds.length → -vmax S j ≤ at2 s.vel i j ∧ at2 s.vel i j ≤ vmax S j
  slope : ∀ n ∈ s.mem.slope, n ≤ 5
  endG : G ≠ 0 → s.hG.getLast? = s.best.map Prod.fst

theorem bestOf_inc {f : List K → K} {log ps : List (List K)} {b : K × List K} (h : Swarm.Inc f log b) :
    ∃ b', bestOf f (some b) ps = some b' ∧ Swarm.Inc f (log ++ ps) b' := by
  cases ps with
  | nil => exact ⟨b, rfl, by simpa using h⟩
  | cons p ps => exact ⟨_, rfl, h.better _⟩

theorem bestOf_none {f : List K → K} {ps : List (List K)} (hp : ps ≠ []) : ∃ b', bestOf f none ps = some b' ∧ Swarm.Inc f ps b' := by
  cases ps with
  | nil => exact absurd rfl hp
  | cons p ps => exact ⟨_, rfl, Swarm.select_inc (ps := p :: ps) rfl⟩

theorem vmax_nonneg {S : Space K} (hS : S.OK) (j : ℕ) : 0 ≤ vmax S j := by
  unfold vmax
  rw [List.getD_eq_getElem?_getD]
  cases h : S.bounds[j]? with
  | none => simp
  | some b =>
    have hb := hS.ordered b (List.mem_of_getElem? h)
    simp only [Option.getD_some]
    have : 0 ≤ b.2 - b.1 := sub_nonneg.2 hb
    positivity

theorem at2_range {F : ℕ → ℕ → K} {n m i j : ℕ} (hi : i < n) (hj : j < m) :
    at2 ((List.range n).map (fun i => (List.range m).map (F i))) i j = F i j := by
  unfold at2
  simp [List.getD_eq_getElem?_getD, hi, hj]

theorem select_best {f : List K → K} {ps : List (List K)} {b : K × List K} (h : Swarm.select f ps = .ok b) : BestOn true f ps b.1 := by
  obtain ⟨h1, h2, h3⟩ := Swarm.select_inc h
  exact ⟨⟨b.2, h1, h2.symm⟩, fun z hz => by simpa [NotWorse] using h3 z hz⟩

/-- The draws of the start lie in [0,1]. -/
def Draws0.OK (D : Draws0 K) : Prop := ∀ i j, 0 ≤ D.v i j ∧ D.v i j ≤ 1

theorem start_inv {S : Space K} (hS : S.OK) {g1 g2 ngen : ℕ} {pc : ℕ → K} {f : List K → K} {D : Draws0 K} (hD : D.OK) {s : State K}
    (h : start S g1 g2 pc f D = .ok s) : Inv S (g1 + g2) ngen f 0 s := by
  unfold start at h
  dsimp only at h
  split at h
  · cases h
  rename_i pos hpos
  split at h
  · cases h
  rename_i b hb
  simp only [Except.ok.injEq] at h
  subst h
  obtain ⟨u1, u2, u3⟩ := repair_rows hS (by intro r hr; simp at hr; obtain ⟨i, _, rfl⟩ := hr; simp) hpos
  have hl : pos.length = g1 + g2 := by rw [u1]; simp
  have hinc := Swarm.select_inc hb
  refine ⟨hl, u2, by dsimp only; rw [u3]; exact u2, by simp, by dsimp only; rw [u3]; exact hl, ?_, ?_, Or.inl ⟨rfl, rfl⟩, ?_, ⟨rfl, rfl⟩, blockBest_nil _ _ _ _ _, ?_, ?_, ?_, ?_, ?_⟩
  · dsimp only; rw [u3, List.append_nil]
    refine ⟨by simp [hl], by simp, ?_, ?_, hinc, by intro i hi; cases hi⟩
    · intro p hp; obtain ⟨x, _, rfl⟩ := List.mem_map.1 hp; rfl
    · intro p hp; obtain ⟨x, hx, rfl⟩ := List.mem_map.1 hp; exact hx
  · intro i p hp
    dsimp only at hp ⊢
    rw [List.getElem?_map] at hp
    cases e : pos[i]? with
    | none => rw [e] at hp; cases hp
    | some x =>
      rw [e] at hp; cases hp
      rw [u3, List.append_nil]
      exact slotBest_init e
  · exact histMin_nil f _ []
  · simp [u3]
  · dsimp only
    refine ⟨by simp, ?_⟩
    intro v hv; simp at hv; obtain ⟨i, _, rfl⟩ := hv; simp
  · intro i j hi hj
    dsimp only
    rw [at2_range (F := fun i j => -vmax S j + (vmax S j - -vmax S j) * D.v i j) hi hj]
    have := vmax_nonneg hS j
    have := hD i j
    constructor <;> nlinarith
  · intro n hn
    have := List.eq_of_mem_replicate hn
    omega
  · intro hc; exact absurd rfl hc

theorem refresh_slope (dim n : ℕ) (pc : K) (pb : List (Indv K)) (D : FDraw K) (i : ℕ) (fri : List K) (slope : ℕ) :
    (refresh dim n pc pb D i fri slope).2 ≤ 5 := by
  unfold refresh; split_ifs
  · simp
  · simp; omega

theorem gen_inv {S : Space K} (hS : S.OK) {g1 g2 ngen : ℕ} (hg : 0 < g1 + g2) {pc : ℕ → K} {f : List K → K} {D : Draws K} {G k : ℕ} {s s' : State K}
    (hi : Inv S (g1 + g2) ngen f G s) (h : gen S g1 g2 ngen pc f D k s = .ok s') : Inv S (g1 + g2) ngen f (G + 1) s' := by
  unfold gen at h
  dsimp only at h
  split at h
  · cases h
  rename_i pos hpos
  split at h
  · cases h
  rename_i l hl
  simp only [Except.ok.injEq] at h
  subst h
  obtain ⟨u1, u2, u3⟩ := repair_rows hS (by intro r hr; simp at hr; obtain ⟨i, _, rfl⟩ := hr; simp) hpos
  have hlen : pos.length = g1 + g2 := by rw [u1]; simp
  have hne : pos ≠ [] := by intro h; rw [h] at hlen; simp at hlen; omega
  obtain ⟨b', hb', inc'⟩ : ∃ b', bestOf f s.best pos = some b' ∧ Swarm.Inc f (s.log ++ pos) b' := by
    rcases hi.best with ⟨h0, hn⟩ | ⟨b, hb, hinc⟩
    · rw [hn]
      have hlog : s.log = [] := by
        have := hi.hist.1
        rw [hi.lens.1, h0] at this
        exact List.eq_nil_of_length_eq_zero (by simpa using this)
      rw [hlog]
      exact bestOf_none hne
    · rw [hb]; exact bestOf_inc hinc
  have hlog : s.log.length = G * (g1 + g2) := by have := hi.hist.1; rw [hi.lens.1] at this; simpa using this
  have hmem := hi.mem.notes (view := fun _ => false) (rule := fun _ => slopeRule) pos 0 (by omega)
  refine ⟨hlen, u2, hi.feas0, ?_, hi.len0, ?_, ?_, Or.inr ⟨b', hb', ?_⟩, ?_, ?_, ?_, ?_, ?_, ?_, ?_, ?_⟩
  · dsimp only; rw [u3]
    intro p hp
    rcases List.mem_append.1 hp with hp | hp
    · exact hi.flog p hp
    · exact u2 p hp
  · dsimp only; rw [u3, ← List.append_assoc]
    exact ⟨hmem.size, by simp [refreshAll], hmem.own, hmem.seen, hmem.inc, hmem.shown⟩
  · dsimp only; rw [u3, ← List.append_assoc]
    intro i p' hp'
    have hip : i < s.mem.pb.length := by
      have := (List.getElem?_eq_some_iff.1 hp').1
      rw [hmem.size] at this; rw [hi.mem.size]; exact this
    have hix : i < pos.length := by rw [hi.mem.size] at hip; omega
    have e1 := List.getElem?_eq_getElem hip
    have e2 := List.getElem?_eq_getElem hix
    have e3 := notes_pb (view := fun _ => false) (rule := fun _ => slopeRule) (f := f) pos s.mem 0 i _ e1
    rw [e3] at hp'
    simp only [Nat.zero_le, if_true, Nat.sub_zero, e2, Option.some.injEq, touch] at hp'
    have hL : (s.log0 ++ s.log).length = (G + 1) * (g1 + g2) := by rw [List.length_append, hi.len0, hlog]; ring
    refine (hi.slots i _ e1).step hL hlen e2 ?_
    rw [← hp']
    split_ifs with hc
    · exact Or.inl ⟨rfl, rfl, by simpa [NotWorse] using hc.le⟩
    · exact Or.inr ⟨rfl, rfl, by simpa [NotWorse] using not_lt.1 hc⟩
  · dsimp only; rw [u3]; exact inc'
  · dsimp only; rw [u3, hb']
    exact hi.hist.step hlen inc'.minOn
  · dsimp only; rw [hb']; simp [hi.lens.1, hi.lens.2]
  · dsimp only; rw [u3]
    refine hi.locals.step ?_ hlen (select_best hl)
    rw [hi.lens.2, hlog]; simp
  · dsimp only; rw [u3, ← List.append_assoc, List.drop_append_of_le_length, List.drop_of_length_le]
    · simp
    · rw [List.length_append, hi.len0, hlog]; apply le_of_eq; ring
    · rw [List.length_append, hi.len0, hlog]; apply le_of_eq; ring
  · dsimp only
    refine ⟨by simp, ?_⟩
    intro v hv; simp at hv; obtain ⟨i, _, rfl⟩ := hv; simp [velRow]
  · intro i j h1 h2
    dsimp only
    have e : at2 ((List.range (g1 + g2)).map (velRow S g1 ngen k D s (s.mem.gref.get s.mem.pb))) i j =
        (velRow S g1 ngen k D s (s.mem.gref.get s.mem.pb) i).getD j 0 := by
      unfold at2; simp [List.getD_eq_getElem?_getD, h1]
    rw [e]
    unfold velRow
    simp only [List.getD_eq_getElem?_getD, List.getElem?_map, List.getElem?_range h2, Option.map_some, Option.getD_some]
    exact limit_le (vmax_nonneg hS j) _
  · intro n hn
    simp only [refreshAll, List.mem_map] at hn
    obtain ⟨q, ⟨i, _, rfl⟩, rfl⟩ := hn
    exact refresh_slope _ _ _ _ _ _ _ _
  · intro _; dsimp only; rw [hb']; simp

theorem run_inv {S : Space K} (hS : S.OK) {g1 g2 ngen : ℕ} (hg : 0 < g1 + g2) {pc : ℕ → K} {f : List K → K} {D : ℕ → Draws K} {s0 : State K}
    (h0 : Inv S (g1 + g2) ngen f 0 s0) {G : ℕ} {s : State K} (h : run S g1 g2 ngen pc f D s0 G = .ok s) :
    Inv S (g1 + g2) ngen f G s ∧ s.log0 = s0.log0 := by
  induction G generalizing s with
  | zero => cases h; exact ⟨h0, rfl⟩
  | succ G ih =>
    simp only [run] at h
    split at h
    · cases h
    rename_i t ht
    refine ⟨gen_inv hS hg (ih ht).1 h, ?_⟩
    rw [← (ih ht).2]
    unfold gen at h
    dsimp only at h
    split at h
    · cases h
    split at h
    · cases h
    simp only [Except.ok.injEq] at h
    subst h
    rfl

end
end Neorl.HCLPSO

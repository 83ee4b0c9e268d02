import Verif.Swarm
import Mathlib.Tactic.Linarith
import Mathlib.Data.List.GetD

/-!
# Particles with exemplars

Shared by `neorl/evolu/hclpso.py` and `neorl/hybrid/epso.py`: exemplar construction (`UpdateParticles`), velocity limits, personal and global bests.
In `epso.py` the global best position is sometimes a numpy *view* of a row of `pbest_pos` (lines 510, 653) which later assignments to that row change; the
model keeps that distinction (`Ref`).
-/

set_option linter.unusedSectionVars false
set_option linter.unusedVariables false

namespace Neorl

/-! Specifications only look at the fitness of evaluated points. -/
section
variable {K X : Type} [Field K] [LinearOrder K] [IsStrictOrderedRing K]

theorem BestOn.congr {m : Bool} {f f' : X → K} {l : List X} {y : K} (h : BestOn m f l y) (e : ∀ z ∈ l, f z = f' z) : BestOn m f' l y := by
  obtain ⟨⟨z, hz, ez⟩, h2⟩ := h
  exact ⟨⟨z, hz, by rw [← e z hz, ez]⟩, fun w hw => by rw [← e w hw]; exact h2 w hw⟩

theorem IsBest.congr {m : Bool} {f f' : X → K} {l : List X} {x : X} {y : K} (h : IsBest m f l x y) (e : ∀ z ∈ l, f z = f' z) : IsBest m f' l x y := by
  obtain ⟨h1, h2, h3⟩ := h
  exact ⟨h1, by rw [h2, e x h1], fun w hw => by rw [← e w hw]; exact h3 w hw⟩

theorem HistBest.congr {m : Bool} {f f' : X → K} {off n : ℕ} {log : List X} {hist : List K} (h : HistBest m f off n log hist)
    (e : ∀ z ∈ log, f z = f' z) : HistBest m f' off n log hist :=
  ⟨h.1, fun k y hy => (h.2 k y hy).congr (fun z hz => e z (List.mem_of_mem_take hz))⟩

theorem BlockBest.congr {m : Bool} {f f' : X → K} {off n : ℕ} {log : List X} {l : List K} (h : BlockBest m f off n log l)
    (e : ∀ z ∈ log, f z = f' z) : BlockBest m f' off n log l :=
  fun k y hy => (h k y hy).congr (fun z hz => e z (List.mem_of_mem_drop (List.mem_of_mem_take hz)))

theorem SlotBest.congr {m : Bool} {f f' : X → K} {n G : ℕ} {log : List X} {i : ℕ} {x : X} {y : K} (h : SlotBest m f n G log i x y)
    (e : ∀ z ∈ log, f z = f' z) : SlotBest m f' n G log i x y := by
  obtain ⟨⟨k, hk, h1⟩, h2, h3⟩ := h
  exact ⟨⟨k, hk, h1⟩, by rw [h2, e x (List.mem_of_getElem? h1)], fun k hk z hz => by rw [← e z (List.mem_of_getElem? hz)]; exact h3 k hk z hz⟩

theorem BlockBest.ofMin {m : Bool} {f : X → K} {off n : ℕ} {log : List X} {l : List K}
    (h : BlockBest true (fun x => sgn m (f x)) off n log l) : BlockBest m f off n log (l.map (sgn m)) := by
  intro k y hy
  rw [List.getElem?_map] at hy
  cases hk : l[k]? with
  | none => rw [hk] at hy; cases hy
  | some v => rw [hk] at hy; cases hy; exact (h k v hk).ofMin

theorem SlotBest.ofMin {m : Bool} {f : X → K} {n G : ℕ} {log : List X} {i : ℕ} {x : X} {y : K}
    (h : SlotBest true (fun x => sgn m (f x)) n G log i x y) : SlotBest m f n G log i x (sgn m y) := by
  obtain ⟨h1, h2, h3⟩ := h
  refine ⟨h1, by rw [h2, sgn_sgn], fun k hk z hz => ?_⟩
  rw [notWorse_iff, sgn_sgn]
  simpa [NotWorse] using h3 k hk z hz

end
end Neorl

namespace Neorl.Particles

section
variable {K : Type} [Field K] [LinearOrder K] [IsStrictOrderedRing K] [FloorRing K]

/-- A remembered position with its value. -/
abbrev Indv (K : Type) := List K × K

/-- Coordinate `j` of row `i`. -/
def at2 (rows : List (List K)) (i j : ℕ) : K := (rows.getD i []).getD j 0

/-- Row `z` of the personal bests, negative numbers counting from the end (numpy indexing). -/
def pbAt (pb : List (Indv K)) (z : ℤ) : Indv K := pb.getD (if z < 0 then (pb.length : ℤ) + z else z).toNat ([], 0)

/-- Velocity limits, `hclpso.py` lines 305-307, `epso.py` lines 359-361, 481-483, 625-627: three masked products are added, so a velocity equal to a limit
becomes zero. -/
def limit (lo hi v : K) : K := (if v < lo then lo else 0) + (if hi < v then hi else 0) + (if v < hi ∧ lo < v then v else 0)

/-- Random numbers of `UpdateParticles` for one particle: two for the tournament, one for the toss per dimension; the dimension forced. -/
structure FDraw (K : Type) where
  u1 : ℕ → K
  u2 : ℕ → K
  t : ℕ → K
  forced : ℕ

/-- `ceil(friend_num*uniform) - 1`, `hclpso.py` lines 210-211, `epso.py` lines 222-223. -/
def pickFriend (n : ℕ) (u : K) : ℤ := ⌈(n : K) * u⌉ - 1

/-- Winner of the tournament, `hclpso.py` lines 212-213, `epso.py` lines 224-225. -/
def winner (pb : List (Indv K)) (n : ℕ) (D : FDraw K) (d : ℕ) : ℤ :=
  let f1 := pickFriend n (D.u1 d)
  let f2 := pickFriend n (D.u2 d)
  if (pbAt pb f1).2 < (pbAt pb f2).2 then f1 else f2

/-- `toss`, `hclpso.py` lines 214-217, `epso.py` lines 226-229. -/
def toss (dim : ℕ) (pc : K) (D : FDraw K) (d : ℕ) : ℤ :=
  if (List.range dim).all (fun e => decide (⌈D.t e - pc⌉ = 1)) ∧ d = D.forced then 0 else ⌈D.t d - pc⌉

/-- The exemplar row of particle `i`, `hclpso.py` lines 209-220, `epso.py` lines 221-232. -/
def exemplar (dim n : ℕ) (pc : K) (pb : List (Indv K)) (D : FDraw K) (i : ℕ) : List K :=
  (List.range dim).map (fun d =>
    let fri := (1 - toss dim pc D d) * winner pb n D d + toss dim pc D d * (i : ℤ)
    ((pbAt pb fri).1).getD d 0)

/-- `UpdateParticles(..., check_slope=True)` for one particle: refresh the exemplar and reset the counter after more than five failures, `hclpso.py` lines
203-223, `epso.py` lines 215-235. -/
def refresh (dim n : ℕ) (pc : K) (pb : List (Indv K)) (D : FDraw K) (i : ℕ) (fri : List K) (slope : ℕ) : List K × ℕ :=
  if 5 < slope then (exemplar dim n pc pb D i, 0) else (fri, slope)

/-- Where the global best position lives: an own copy, or a view of row `i` of the personal bests. -/
inductive Ref (K : Type) where
  | copy (x : List K)
  | view (i : ℕ)

/-- The array seen through the reference. -/
def Ref.get (pb : List (Indv K)) : Ref K → List K
  | .copy x => x
  | .view i => (pb.getD i ([], 0)).1

/-- Personal bests, failure counters, global best. -/
structure Mem (K : Type) where
  pb : List (Indv K)
  slope : List ℕ
  gval : K
  gref : Ref K

/-- One round of the update loop for particle `i` at `x` (`view`: the global best is not copied; `rule result old new` says how the counter changes),
`hclpso.py` lines 340-349, `epso.py` lines 374-383, 497-511, 640-654. -/
def note (view : Bool) (rule : K → K → K → ℕ → ℕ) (f : List K → K) (m : Mem K) (i : ℕ) (x : List K) : Mem K :=
  let old := (m.pb.getD i ([], 0)).2
  let pb := if f x < old then m.pb.set i (x, f x) else m.pb
  let p := pb.getD i ([], 0)
  let slope := m.slope.set i (rule (f x) old p.2 (m.slope.getD i 0))
  if p.2 < m.gval then { pb := pb, slope := slope, gval := p.2, gref := if view then .view i else .copy p.1 }
  else { m with pb := pb, slope := slope }

/-- The loop over consecutive particles starting with `i`. -/
def notes (view : ℕ → Bool) (rule : ℕ → K → K → K → ℕ → ℕ) (f : List K → K) : Mem K → ℕ → List (List K) → Mem K
  | m, _, [] => m
  | m, i, x :: xs => notes view rule f (note (view i) (rule i) f m i x) (i + 1) xs

/-! ### Lemmas -/

/-- The memory is right: personal bests are evaluated points with their own values, the global best (read through the reference) is the best evaluated
point, and a view shows exactly the personal best whose value is remembered. -/
structure Mem.OK (f : List K → K) (g : ℕ) (log : List (List K)) (m : Mem K) : Prop where
  size : m.pb.length = g
  slopes : m.slope.length = g
  own : ∀ p ∈ m.pb, p.2 = f p.1
  seen : ∀ p ∈ m.pb, p.1 ∈ log
  inc : Swarm.Inc f log (m.gval, m.gref.get m.pb)
  shown : ∀ i, m.gref = .view i → i < g ∧ m.gval = (m.pb.getD i ([], 0)).2

theorem note_pb {view : Bool} {rule : K → K → K → ℕ → ℕ} {f : List K → K} {m : Mem K} {i : ℕ} {x : List K} :
    (note view rule f m i x).pb = if f x < (m.pb.getD i ([], 0)).2 then m.pb.set i (x, f x) else m.pb := by
  unfold note; dsimp only
  split_ifs <;> rfl

theorem note_slope {view : Bool} {rule : K → K → K → ℕ → ℕ} {f : List K → K} {m : Mem K} {i : ℕ} {x : List K} :
    (note view rule f m i x).slope =
      m.slope.set i (rule (f x) (m.pb.getD i ([], 0)).2 ((note view rule f m i x).pb.getD i ([], 0)).2 (m.slope.getD i 0)) := by
  rw [note_pb]
  unfold note; dsimp only
  split_ifs <;> rfl

theorem Mem.OK.note {view : Bool} {rule : K → K → K → ℕ → ℕ} {f : List K → K} {g : ℕ} {log : List (List K)} {m : Mem K} (h : m.OK f g log) {i : ℕ} (hi : i < g)
    (x : List K) : (note view rule f m i x).OK f g (log ++ [x]) := by
  have hip : i < m.pb.length := by rw [h.size]; exact hi
  have hget : m.pb.getD i ([], 0) = m.pb[i] := List.getD_eq_getElem _ _ hip
  have hmem : m.pb[i] ∈ m.pb := List.getElem_mem hip
  have hle : ∀ p ∈ m.pb, m.gval ≤ p.2 := fun p hp => by
    rw [h.own p hp]; exact h.inc.2.2 _ (h.seen p hp)
  have hpb : ∀ p ∈ (Particles.note view rule f m i x).pb, p = (x, f x) ∨ p ∈ m.pb := by
    intro p hp
    rw [note_pb] at hp
    split_ifs at hp
    · rcases List.mem_or_eq_of_mem_set hp with hp | hp
      · exact Or.inr hp
      · exact Or.inl hp
    · exact Or.inr hp
  have hsize : (Particles.note view rule f m i x).pb.length = g := by
    rw [note_pb]; split_ifs <;> simp [h.size]
  have hslope : (Particles.note view rule f m i x).slope.length = g := by rw [note_slope]; simp [h.slopes]
  have hown : ∀ p ∈ (Particles.note view rule f m i x).pb, p.2 = f p.1 := by
    intro p hp
    rcases hpb p hp with rfl | hp
    · rfl
    · exact h.own p hp
  have hseen : ∀ p ∈ (Particles.note view rule f m i x).pb, p.1 ∈ log ++ [x] := by
    intro p hp
    rcases hpb p hp with rfl | hp
    · simp
    · exact List.mem_append_left _ (h.seen p hp)
  refine ⟨hsize, hslope, hown, hseen, ?_, ?_⟩
  · by_cases hb : f x < m.pb[i].2
    · by_cases hg : f x < m.gval
      · have e : Particles.note view rule f m i x = { pb := m.pb.set i (x, f x), slope := (Particles.note view rule f m i x).slope, gval := f x, gref := if view then .view i else .copy x } := by
          unfold Particles.note; dsimp only
          rw [hget, if_pos hb]
          simp [hip, hg]
        rw [e]; dsimp only
        have e2 : (if view = true then Ref.view i else Ref.copy x).get (m.pb.set i (x, f x)) = x := by
          split_ifs <;> simp [Ref.get, hip]
        rw [e2]
        refine ⟨by simp, rfl, fun z hz => ?_⟩
        rcases List.mem_append.1 hz with hz | hz
        · exact hg.le.trans (h.inc.2.2 z hz)
        · simp only [List.mem_singleton] at hz; rw [hz]
      · have e : Particles.note view rule f m i x = { pb := m.pb.set i (x, f x), slope := (Particles.note view rule f m i x).slope, gval := m.gval, gref := m.gref } := by
          unfold Particles.note; dsimp only
          rw [hget, if_pos hb]
          simp [hip, hg]
        rw [e]; dsimp only
        have e2 : m.gref.get (m.pb.set i (x, f x)) = m.gref.get m.pb := by
          cases hr : m.gref with
          | copy y => rfl
          | view j =>
            obtain ⟨hj, hv⟩ := h.shown j hr
            have hne : i ≠ j := by
              rintro rfl
              rw [hget] at hv
              rw [hv] at hg; exact hg hb
            simp only [Ref.get, List.getD_eq_getElem?_getD, List.getElem?_set_ne hne]
        rw [e2]
        refine ⟨List.mem_append_left _ h.inc.1, h.inc.2.1, fun z hz => ?_⟩
        rcases List.mem_append.1 hz with hz | hz
        · exact h.inc.2.2 z hz
        · simp only [List.mem_singleton] at hz; rw [hz]; exact not_lt.1 hg
    · have hg : ¬ m.pb[i].2 < m.gval := not_lt.2 (hle _ hmem)
      have e : Particles.note view rule f m i x = { pb := m.pb, slope := (Particles.note view rule f m i x).slope, gval := m.gval, gref := m.gref } := by
        unfold Particles.note; dsimp only
        rw [hget, if_neg hb, hget, if_neg hg]
      rw [e]; dsimp only
      refine ⟨List.mem_append_left _ h.inc.1, h.inc.2.1, fun z hz => ?_⟩
      rcases List.mem_append.1 hz with hz | hz
      · exact h.inc.2.2 z hz
      · simp only [List.mem_singleton] at hz; rw [hz]; exact (hle _ hmem).trans (not_lt.1 hb)
  · intro j hj
    by_cases hb : f x < m.pb[i].2
    · by_cases hg : f x < m.gval
      · have e : Particles.note view rule f m i x = { pb := m.pb.set i (x, f x), slope := (Particles.note view rule f m i x).slope, gval := f x, gref := if view then .view i else .copy x } := by
          unfold Particles.note; dsimp only
          rw [hget, if_pos hb]
          simp [hip, hg]
        rw [e] at hj ⊢; dsimp only at hj ⊢
        split_ifs at hj
        cases hj
        exact ⟨hi, by simp [hip]⟩
      · have e : Particles.note view rule f m i x = { pb := m.pb.set i (x, f x), slope := (Particles.note view rule f m i x).slope, gval := m.gval, gref := m.gref } := by
          unfold Particles.note; dsimp only
          rw [hget, if_pos hb]
          simp [hip, hg]
        rw [e] at hj ⊢; dsimp only at hj ⊢
        obtain ⟨hj', hv⟩ := h.shown j hj
        have hne : i ≠ j := by
          rintro rfl
          rw [hget] at hv
          rw [hv] at hg; exact hg hb
        refine ⟨hj', ?_⟩
        simp only [List.getD_eq_getElem?_getD, List.getElem?_set_ne hne] at hv ⊢
        exact hv
    · have hg : ¬ m.pb[i].2 < m.gval := not_lt.2 (hle _ hmem)
      have e : Particles.note view rule f m i x = { pb := m.pb, slope := (Particles.note view rule f m i x).slope, gval := m.gval, gref := m.gref } := by
        unfold Particles.note; dsimp only
        rw [hget, if_neg hb, hget, if_neg hg]
      rw [e] at hj ⊢
      exact h.shown j hj

theorem Mem.OK.notes {view : ℕ → Bool} {rule : ℕ → K → K → K → ℕ → ℕ} {f : List K → K} {g : ℕ} {log : List (List K)} {m : Mem K} (h : m.OK f g log) :
    ∀ (xs : List (List K)) (i : ℕ), i + xs.length ≤ g → (notes view rule f m i xs).OK f g (log ++ xs) := by
  intro xs
  induction xs generalizing log m with
  | nil => intro i _; simpa [Particles.notes] using h
  | cons x xs ih =>
    intro i hi
    simp only [List.length_cons] at hi
    have h1 := Mem.OK.note (view := view i) (rule := rule i) h (i := i) (by omega) x
    have := ih h1 (i + 1) (by omega)
    simpa [Particles.notes] using this

/-- A personal best after its particle was evaluated at `o` (if at all). -/
def touch (f : List K → K) (p : Indv K) : Option (List K) → Indv K
  | some x => if f x < p.2 then (x, f x) else p
  | none => p

/-- What the loop does to a single personal best. -/
theorem notes_pb {view : ℕ → Bool} {rule : ℕ → K → K → K → ℕ → ℕ} {f : List K → K} : ∀ (xs : List (List K)) (m : Mem K) (i j : ℕ) (p : Indv K),
    m.pb[j]? = some p →
    (notes view rule f m i xs).pb[j]? = some (if i ≤ j then touch f p xs[j - i]? else p) := by
  intro xs
  induction xs with
  | nil =>
    intro m i j p hp
    simp only [notes, List.getElem?_nil, touch]
    split_ifs <;> exact hp
  | cons x xs ih =>
    intro m i j p hp
    simp only [notes]
    have hj : j < m.pb.length := (List.getElem?_eq_some_iff.1 hp).1
    rcases Nat.lt_trichotomy i j with hlt | heq | hgt
    · have h1 : (note (view i) (rule i) f m i x).pb[j]? = some p := by
        rw [note_pb]; split_ifs
        · rw [List.getElem?_set_ne (by omega)]; exact hp
        · exact hp
      rw [ih _ _ _ _ h1, if_pos (by omega), if_pos (by omega), show j - i = (j - (i + 1)) + 1 by omega, List.getElem?_cons_succ]
    · subst heq
      have hg : m.pb.getD i ([], 0) = p := by rw [List.getD_eq_getElem?_getD, hp]; rfl
      have h1 : (note (view i) (rule i) f m i x).pb[i]? = some (if f x < p.2 then (x, f x) else p) := by
        rw [note_pb, hg]; split_ifs
        · rw [List.getElem?_set_self hj]
        · exact hp
      rw [ih _ _ _ _ h1, if_neg (by omega), if_pos le_rfl]
      simp [touch]
    · have h1 : (note (view i) (rule i) f m i x).pb[j]? = some p := by
        rw [note_pb]; split_ifs
        · rw [List.getElem?_set_ne (by omega)]; exact hp
        · exact hp
      rw [ih _ _ _ _ h1, if_neg (by omega), if_neg (by omega)]

theorem limit_le {hi : K} (h : 0 ≤ hi) (v : K) : -hi ≤ limit (-hi) hi v ∧ limit (-hi) hi v ≤ hi := by
  unfold limit
  by_cases h1 : v < -hi
  · rw [if_pos h1, if_neg (by linarith), if_neg (by intro hc; linarith [hc.2])]
    constructor <;> linarith
  · rw [if_neg h1]
    by_cases h2 : hi < v
    · rw [if_pos h2, if_neg (by intro hc; linarith [hc.1])]
      constructor <;> linarith
    · rw [if_neg h2]
      split_ifs with h3
      · constructor <;> linarith [h3.1, h3.2]
      · constructor <;> linarith

/-- Inside the limits nothing happens, outside the nearer limit is taken, on a limit the velocity is lost. -/
theorem limit_spec {hi : K} (h : 0 < hi) (v : K) :
    (v < -hi → limit (-hi) hi v = -hi) ∧ (hi < v → limit (-hi) hi v = hi) ∧ (-hi < v → v < hi → limit (-hi) hi v = v) ∧
    (v = hi ∨ v = -hi → limit (-hi) hi v = 0) := by
  unfold limit
  refine ⟨fun h1 => ?_, fun h1 => ?_, fun h1 h2 => ?_, fun h1 => ?_⟩
  · rw [if_pos h1, if_neg (by linarith), if_neg (by intro hc; linarith [hc.2])]; ring
  · rw [if_neg (by linarith), if_pos h1, if_neg (by intro hc; linarith [hc.1])]; ring
  · rw [if_neg (by linarith), if_neg (by linarith), if_pos ⟨h2, h1⟩]; ring
  · rcases h1 with rfl | rfl
    · rw [if_neg (by linarith), if_neg (by simp), if_neg (by simp)]; ring
    · rw [if_neg (by simp), if_neg (by linarith), if_neg (by simp)]; ring

theorem notes_mono {view : ℕ → Bool} {rule : ℕ → K → K → K → ℕ → ℕ} {f : List K → K} {xs : List (List K)} {m : Mem K} {i j : ℕ} {p p' : Indv K}
    (hp : m.pb[j]? = some p) (hp' : (notes view rule f m i xs).pb[j]? = some p') : p'.2 ≤ p.2 := by
  rw [notes_pb xs m i j p hp] at hp'
  cases hp'
  split_ifs with h1
  · cases xs[j - i]? with
    | none => exact le_rfl
    | some x =>
      simp only [touch]
      split_ifs with h2
      · exact h2.le
      · exact le_rfl
  · exact le_rfl

/-- With a draw in (0, 1) the friend is one of the first `n` particles. -/
theorem pickFriend_range {n : ℕ} (hn : 0 < n) {u : K} (h0 : 0 < u) (h1 : u < 1) : 0 ≤ pickFriend n u ∧ pickFriend n u < n := by
  unfold pickFriend
  have hn' : (0 : K) < n := by exact_mod_cast hn
  have a : (0 : ℤ) < ⌈(n : K) * u⌉ := Int.ceil_pos.2 (mul_pos hn' h0)
  have b : ⌈(n : K) * u⌉ ≤ (n : ℤ) := Int.ceil_le.2 (by push_cast; nlinarith)
  constructor <;> omega

theorem winner_range {pb : List (Indv K)} {n : ℕ} (hn : 0 < n) {D : FDraw K} {d : ℕ} (h1 : 0 < D.u1 d ∧ D.u1 d < 1) (h2 : 0 < D.u2 d ∧ D.u2 d < 1) :
    0 ≤ winner pb n D d ∧ winner pb n D d < n := by
  unfold winner; dsimp only
  split_ifs
  · exact pickFriend_range hn h1.1 h1.2
  · exact pickFriend_range hn h2.1 h2.2

theorem ceil_toss {t pc : K} (ht : 0 ≤ t ∧ t < 1) (hp : 0 ≤ pc ∧ pc < 1) : ⌈t - pc⌉ = 0 ∨ ⌈t - pc⌉ = 1 := by
  have a : (-1 : ℤ) < ⌈t - pc⌉ := Int.lt_ceil.2 (by push_cast; linarith [ht.1, hp.2])
  have b : ⌈t - pc⌉ ≤ 1 := Int.ceil_le.2 (by push_cast; linarith [ht.2, hp.1])
  omega

theorem toss_range {dim : ℕ} {pc : K} {D : FDraw K} {d : ℕ} (ht : 0 ≤ D.t d ∧ D.t d < 1) (hp : 0 ≤ pc ∧ pc < 1) :
    toss dim pc D d = 0 ∨ toss dim pc D d = 1 := by
  unfold toss
  split_ifs
  · exact Or.inl rfl
  · exact ceil_toss ht hp

theorem length_exemplar (dim n : ℕ) (pc : K) (pb : List (Indv K)) (D : FDraw K) (i : ℕ) : (exemplar dim n pc pb D i).length = dim := by simp [exemplar]

theorem pbAt_nat (pb : List (Indv K)) (i : ℕ) : pbAt pb (i : ℤ) = pb.getD i ([], 0) := by
  unfold pbAt
  rw [if_neg (by omega)]
  simp

end
end Neorl.Particles

import Verif.Props.HCLPSO

/-!
# Property theorems C56: how HCLPSO particles move and when they get a new exemplar
-/

set_option linter.unusedSectionVars false
set_option linter.unusedVariables false

namespace Neorl.Particles

section
variable {K : Type} [Field K] [LinearOrder K] [IsStrictOrderedRing K] [FloorRing K]

/-- What the update loop does to a single failure counter. -/
theorem notes_slope {view : ℕ → Bool} {rule : ℕ → K → K → K → ℕ → ℕ} {f : List K → K} : ∀ (xs : List (List K)) (m : Mem K) (i j : ℕ) (p : Indv K) (n : ℕ),
    m.pb[j]? = some p → m.slope[j]? = some n →
    (notes view rule f m i xs).slope[j]? = some (if i ≤ j then
      match xs[j - i]? with
      | some x => rule j (f x) p.2 (touch f p (some x)).2 n
      | none => n else n) := by
  intro xs
  induction xs with
  | nil =>
    intro m i j p n hp hn
    simp only [notes, List.getElem?_nil]
    split_ifs <;> exact hn
  | cons x xs ih =>
    intro m i j p n hp hn
    simp only [notes]
    have hj : j < m.pb.length := (List.getElem?_eq_some_iff.1 hp).1
    have hjs : j < m.slope.length := (List.getElem?_eq_some_iff.1 hn).1
    rcases Nat.lt_trichotomy i j with hlt | heq | hgt
    · have h1 : (note (view i) (rule i) f m i x).pb[j]? = some p := by
        rw [note_pb]; split_ifs
        · rw [List.getElem?_set_ne (by omega)]; exact hp
        · exact hp
      have h2 : (note (view i) (rule i) f m i x).slope[j]? = some n := by
        rw [note_slope, List.getElem?_set_ne (by omega)]; exact hn
      rw [ih _ _ _ _ _ h1 h2, if_pos (by omega), if_pos (by omega), show j - i = (j - (i + 1)) + 1 by omega, List.getElem?_cons_succ]
    · subst heq
      have hg : m.pb.getD i ([], 0) = p := by rw [List.getD_eq_getElem?_getD, hp]; rfl
      have hs : m.slope.getD i 0 = n := by rw [List.getD_eq_getElem?_getD, hn]; rfl
      have h1 : (note (view i) (rule i) f m i x).pb[i]? = some (if f x < p.2 then (x, f x) else p) := by
        rw [note_pb, hg]; split_ifs
        · rw [List.getElem?_set_self hj]
        · exact hp
      have hg' : (note (view i) (rule i) f m i x).pb.getD i ([], 0) = if f x < p.2 then (x, f x) else p := by
        rw [List.getD_eq_getElem?_getD, h1]; rfl
      have h2 : (note (view i) (rule i) f m i x).slope[i]? = some (rule i (f x) p.2 (touch f p (some x)).2 n) := by
        rw [note_slope, List.getElem?_set_self hjs, hg, hs, hg']; rfl
      rw [ih _ _ _ _ _ h1 h2, if_neg (by omega), if_pos le_rfl]
      simp
    · have h1 : (note (view i) (rule i) f m i x).pb[j]? = some p := by
        rw [note_pb]; split_ifs
        · rw [List.getElem?_set_ne (by omega)]; exact hp
        · exact hp
      have h2 : (note (view i) (rule i) f m i x).slope[j]? = some n := by
        rw [note_slope, List.getElem?_set_ne (by omega)]; exact hn
      rw [ih _ _ _ _ _ h1 h2, if_neg (by omega), if_neg (by omega)]

end
end Neorl.Particles

namespace Neorl.HCLPSO
open Particles
open EDEV (repair worker repair_feasible repair_rows repair_total)

section
variable {K : Type} [Field K] [LinearOrder K] [IsStrictOrderedRing K] [FloorRing K]

/-- Specification: the value at `k` of the straight line from `a` at 0 to `b` at `n`. -/
def line (a b : K) (n k : ℕ) : K := a + (b - a) * ((k : K) / (n : K))

/-- **C56 (coefficients).**  Inertia falls linearly from 0.99 to 0.2, the pull towards the exemplar from 3 to 1.5 in group 1 and from 2.5 to 0.5 in group 2, the
pull towards the global best rises from 0.5 to 2.5; the histories `c1`, `c2`, `K` record them for every generation. -/
theorem C56_coefficients {S : Space K} (hS : S.OK) {g1 g2 ngen : ℕ} {pc : ℕ → K} {m : Bool} {fit : List K → K} {x0 : Option (List (List K))} {D0 : Draws0 K}
    (hD : D0.OK) {D : ℕ → Draws K} {r : Result K} (h : evolute S g1 g2 ngen pc m fit x0 D0 D = .ok r) :
    r.c1.length = ngen ∧ r.c2.length = ngen ∧ r.kappa.length = ngen ∧
    ∀ k < ngen, weight ngen k = line (99 / 100 : K) (2 / 10) ngen k ∧ r.kappa[k]? = some (line 3 (3 / 2) ngen k) ∧
      r.c1[k]? = some (line (5 / 2) (1 / 2) ngen k) ∧ r.c2[k]? = some (line (1 / 2) (5 / 2) ngen k) := by
  obtain ⟨s, b, inv, hb, hg, rfl⟩ := evolute_ok hS hD h
  dsimp only
  refine ⟨by simp, by simp, by simp, fun k hk => ⟨?_, ?_, ?_, ?_⟩⟩
  · unfold weight line; ring
  · simp only [List.getElem?_map, List.getElem?_range hk, Option.map_some, Option.some.injEq]; unfold constr line; ring
  · simp only [List.getElem?_map, List.getElem?_range hk, Option.map_some, Option.some.injEq]; unfold cog line; ring
  · simp only [List.getElem?_map, List.getElem?_range hk, Option.map_some, Option.some.injEq]; unfold soc line; ring

/-- **C56 (moves).**  In generation `k` a particle of group 1 adds to its damped velocity a random pull towards its exemplar, one of group 2 random pulls towards
its exemplar and the global best; a velocity inside the limits is kept, one beyond becomes the limit, and the new position is the repaired sum. -/
theorem C56_move {S : Space K} {g1 g2 ngen : ℕ} {pc : ℕ → K} {f : List K → K} {D : Draws K} {k : ℕ} {s s' : State K}
    (h : gen S g1 g2 ngen pc f D k s = .ok s') {i : ℕ} (hi : i < g1 + g2) :
    (∀ (j : ℕ) (b : K × K), S.bounds[j]? = some b → b.1 < b.2 →
      let pull := if i < g1 then line 3 (3 / 2) ngen k * D.u1 i j * (at2 s.fri i j - at2 s.pos i j)
        else line (5 / 2) (1 / 2) ngen k * D.u1 i j * (at2 s.fri i j - at2 s.pos i j) +
          line (1 / 2) (5 / 2) ngen k * D.u2 i j * ((s.mem.gref.get s.mem.pb).getD j 0 - at2 s.pos i j)
      let v := line (99 / 100) (2 / 10) ngen k * at2 s.vel i j + pull
      (5 * |v| < b.2 - b.1 → at2 s'.vel i j = v) ∧ (b.2 - b.1 < 5 * v → at2 s'.vel i j = (b.2 - b.1) / 5) ∧
      (b.2 - b.1 < 5 * -v → at2 s'.vel i j = -((b.2 - b.1) / 5))) ∧
    ∃ p, s'.pos[i]? = some p ∧ S.disc (1 - (k : K) * (1 / (ngen : K))) (D.d i)
      (S.clip ((List.range S.bounds.length).map (fun j => at2 s.pos i j + at2 s'.vel i j))) = .ok p := by
  unfold gen at h
  dsimp only at h
  split at h
  · cases h
  rename_i pos hpos
  split at h
  · cases h
  rename_i l hl
  simp only [Except.ok.injEq] at h
  subst h
  dsimp only
  constructor
  · intro j b hb hlt
    have hj : j < S.bounds.length := (List.getElem?_eq_some_iff.1 hb).1
    have e : at2 ((List.range (g1 + g2)).map (velRow S g1 ngen k D s (s.mem.gref.get s.mem.pb))) i j =
        (velRow S g1 ngen k D s (s.mem.gref.get s.mem.pb) i).getD j 0 := by
      unfold at2; simp [List.getD_eq_getElem?_getD, hi]
    rw [e]
    unfold velRow
    simp only [List.getD_eq_getElem?_getD, List.getElem?_map, List.getElem?_range hj, Option.map_some, Option.getD_some]
    have hv : vmax S j = (b.2 - b.1) / 5 := by
      unfold vmax; simp only [List.getD_eq_getElem?_getD, hb, Option.getD_some]; ring
    have ew : weight ngen k = line (99 / 100 : K) (2 / 10) ngen k := by unfold weight line; ring
    have e1 : constr ngen k = line (3 : K) (3 / 2) ngen k := by unfold constr line; ring
    have e2 : cog ngen k = line (5 / 2 : K) (1 / 2) ngen k := by unfold cog line; ring
    have e3 : soc ngen k = line (1 / 2 : K) (5 / 2) ngen k := by unfold soc line; ring
    rw [hv, ew, e1, e2, e3]
    have hpos : 0 < (b.2 - b.1) / 5 := by have := sub_pos.2 hlt; positivity
    obtain ⟨t1, t2, t3, -⟩ := limit_spec hpos (line (99 / 100) (2 / 10) ngen k * at2 s.vel i j +
      (if i < g1 then line 3 (3 / 2) ngen k * D.u1 i j * (at2 s.fri i j - at2 s.pos i j)
        else line (5 / 2) (1 / 2) ngen k * D.u1 i j * (at2 s.fri i j - at2 s.pos i j) +
          line (1 / 2) (5 / 2) ngen k * D.u2 i j * ((s.mem.gref.get s.mem.pb)[j]?.getD 0 - at2 s.pos i j)))
    refine ⟨fun hq => ?_, fun hq => ?_, fun hq => ?_⟩
    · have := abs_lt.1 ((lt_div_iff₀' (by norm_num : (0 : K) < 5)).2 hq)
      exact t3 this.1 this.2
    · exact t2 (by linarith)
    · exact t1 (by linarith)
  · obtain ⟨hlen, hrow⟩ := mapRows_ok hpos
    simp only [List.length_map, List.length_range] at hlen
    have hip : i < pos.length := by omega
    refine ⟨pos[i], List.getElem?_eq_getElem hip, ?_⟩
    obtain ⟨x, hx, hr⟩ := hrow i _ (List.getElem?_eq_getElem hip)
    simp only [List.getElem?_map, List.getElem?_range hi, Option.map_some, Option.some.injEq] at hx
    rw [← hx, Nat.zero_add] at hr
    exact hr

/-- **C56 (when a particle gets a new exemplar).**  A particle that improves its personal best keeps its exemplar and forgets its failures; one that does not fails
once more, and after the sixth failure in a row gets a new exemplar built from the personal bests. -/
theorem C56_counter {S : Space K} (hS : S.OK) {g1 g2 ngen : ℕ} (hg : 0 < g1 + g2) {pc : ℕ → K} {f : List K → K} {D : Draws K} {G k : ℕ} {s s' : State K}
    (hi : Inv S (g1 + g2) ngen f G s) (h : gen S g1 g2 ngen pc f D k s = .ok s') {i : ℕ} {p : Indv K} {n : ℕ} {x : List K}
    (hp : s.mem.pb[i]? = some p) (hn : s.mem.slope[i]? = some n) (hx : s'.pos[i]? = some x) :
    (f x < p.2 → s'.mem.slope[i]? = some 0 ∧ s'.fri[i]? = some (s.fri.getD i [])) ∧
    (p.2 ≤ f x → n < 5 → s'.mem.slope[i]? = some (n + 1) ∧ s'.fri[i]? = some (s.fri.getD i [])) ∧
    (p.2 ≤ f x → 5 ≤ n → 0 < S.bounds.length → 1 < g2 → (0 ≤ pc i ∧ pc i < 1) → (∀ d, 0 < (D.fr i).u1 d ∧ (D.fr i).u1 d < 1) →
      (∀ d, 0 < (D.fr i).u2 d ∧ (D.fr i).u2 d < 1) → (∀ d, 0 ≤ (D.fr i).t d ∧ (D.fr i).t d < 1) → (D.fr i).forced < S.bounds.length →
      s'.mem.slope[i]? = some 0 ∧ ∃ row, s'.fri[i]? = some row ∧
        IsExemplar S.bounds.length (if i < g1 then g1 else g1 + g2 - 1) i s'.mem.pb row) := by
  have hig : i < g1 + g2 := by rw [← hi.mem.size]; exact (List.getElem?_eq_some_iff.1 hp).1
  unfold gen at h
  dsimp only at h
  split at h
  · cases h
  rename_i pos hpos
  split at h
  · cases h
  rename_i l hl
  simp only [Except.ok.injEq] at h
  subst h
  dsimp only at hx ⊢
  have hs := notes_slope (view := fun _ => false) (rule := fun _ => slopeRule) (f := f) pos s.mem 0 i p n hp hn
  rw [if_pos (Nat.zero_le _), Nat.sub_zero, hx] at hs
  dsimp only at hs
  have hsD : (notes (fun _ => false) (fun _ => slopeRule) f s.mem 0 pos).slope.getD i 0 = slopeRule (f x) p.2 (touch f p (some x)).2 n := by
    rw [List.getD_eq_getElem?_getD, hs]; rfl
  have hrow : ∀ fr : ℕ → FDraw K, (refreshAll S.bounds.length g1 (g1 + g2) pc fr (notes (fun _ => false) (fun _ => slopeRule) f s.mem 0 pos) s.fri)[i]? =
      some (refresh S.bounds.length (if i < g1 then g1 else g1 + g2 - 1) (pc i) (notes (fun _ => false) (fun _ => slopeRule) f s.mem 0 pos).pb (fr i) i
        (s.fri.getD i []) (slopeRule (f x) p.2 (touch f p (some x)).2 n)) := by
    intro fr
    rw [← hsD]
    simp [refreshAll, hig]
  simp only [List.getElem?_map, hrow, Option.map_some, Option.some.injEq]
  unfold slopeRule refresh
  refine ⟨fun hlt => ?_, fun hle hn5 => ?_, fun hle hn5 hd hg2 hpc hu hv ht hfd => ?_⟩
  · rw [if_pos hlt, if_neg (by omega)]; exact ⟨rfl, rfl⟩
  · rw [if_neg (not_lt.2 hle), if_neg (by omega)]; exact ⟨rfl, rfl⟩
  · rw [if_neg (not_lt.2 hle), if_pos (by omega)]
    refine ⟨rfl, _, rfl, C56_exemplar ?_ hd hpc hu hv ht hfd⟩
    split_ifs <;> omega

end

/-- Draws that satisfy the conditions of `C56_counter`. -/
def exDm : ℕ → Draws ℚ := fun k => { exD k with fr := fun _ => ⟨fun _ => 1 / 2, fun _ => 1 / 2, fun _ => 1 / 2, 0⟩ }

/-- The ninth generation of a run of four particles meets the hypotheses. -/
example : ∃ s8 s9, Inv exS (2 + 2) 9 (worker exS true exFit) 8 s8 ∧ gen exS 2 2 9 exPc (worker exS true exFit) (exDm 8) 8 s8 = .ok s9 := by
  obtain ⟨r, hr⟩ := C56_total (S := exS) (g1 := 2) (g2 := 2) (ngen := 9) (pc := exPc) (m := true) (fit := exFit) (D := exDm) exS_ok rfl (by norm_num) (by norm_num)
    exD0_ok
  unfold evolute at hr
  simp only [Bool.false_eq_true, if_false] at hr
  split at hr
  · cases hr
  rename_i s0 h0
  split at hr
  · cases hr
  rename_i s hs
  rw [run] at hs
  split at hs
  · cases hs
  rename_i s8 h8
  exact ⟨s8, s, (run_inv exS_ok (by norm_num) (start_inv exS_ok exD0_ok h0) h8).1, hs⟩

end Neorl.HCLPSO

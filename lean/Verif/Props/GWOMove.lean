import Verif.Moves
import Verif.Props.GWO

/-!
# Property theorems C63: how far a wolf moves

Stated on the sequence of evaluated positions alone: block `k` of the log is the pack of generation `k`.
-/

set_option linter.unusedSectionVars false
set_option linter.unusedVariables false

namespace Neorl.GWO

section
variable {K : Type} [Field K] [LinearOrder K] [IsStrictOrderedRing K] [FloorRing K]

/-- Specification: a leader that has not been found yet stands at the origin. -/
def AtOrigin (dim : ℕ) (A : WithTop K × List K) : Prop := A.1 = ⊤ → A.2 = List.replicate dim 0

/-- Specification: all random factors are in `[0, 1]`. -/
def Draw.Unit (d : Draw K) : Prop := ∀ i j k, 0 ≤ d.r i j k ∧ d.r i j k ≤ 1

structure Lead.Orig (dim : ℕ) (L : Lead K) : Prop where
  a : AtOrigin dim L.alpha
  b : AtOrigin dim L.beta
  d : AtOrigin dim L.delta

theorem Lead.Orig.lead {dim : ℕ} {L : Lead K} (h : L.Orig dim) (v : K) (p : List K) : (GWO.lead v p L).Orig dim := by
  have h1 : (step1 v p L).Orig dim := by
    unfold step1; split
    · exact ⟨fun h => absurd h WithTop.coe_ne_top, h.a, h.b⟩
    · exact h
  have h2 : (step2 v p (step1 v p L)).Orig dim := by
    generalize step1 v p L = L at h1
    unfold step2; split
    · exact ⟨h1.a, fun h => absurd h WithTop.coe_ne_top, h1.b⟩
    · exact h1
  unfold GWO.lead
  generalize step2 v p (step1 v p L) = L at h2
  unfold step3; split
  · exact ⟨h2.a, h2.b, fun h => absurd h WithTop.coe_ne_top⟩
  · exact h2

theorem Lead.Orig.leadAll {dim : ℕ} {f : List K → K} {L : Lead K} (h : L.Orig dim) (ps : List (List K)) : (GWO.leadAll f L ps).Orig dim := by
  induction ps generalizing L with
  | nil => exact h
  | cons p ps ih => exact ih (h.lead _ _)

theorem run_orig {c : Conf K} {fit : List K → K} {dr : ℕ → Draw K} {pos0 : List (List K)} {g : ℕ} {s : State K}
    (h : run c fit dr pos0 g = .ok s) : s.lead.Orig c.S.bounds.length := by
  induction g generalizing s with
  | zero => cases h; exact ⟨fun _ => rfl, fun _ => rfl, fun _ => rfl⟩
  | succ g ih =>
    simp only [run] at h
    split at h
    · cases h
    · rename_i s0 h0
      obtain ⟨a, pos', -, -, rfl⟩ := gen_ok h
      exact (ih h0).leadAll _

/-- The state after `g` generations is visible in the log of any longer run. -/
theorem run_prefix {c : Conf K} (hS : c.S.OK) {fit : List K → K} {dr : ℕ → Draw K} {pos0 : List (List K)}
    (hn : pos0.length = c.nwolves) (hf : ∀ p ∈ pos0, c.S.Feasible p) {g n : ℕ} {t : State K} (h : run c fit dr pos0 (g + (n + 1)) = .ok t) :
    ∃ s s', run c fit dr pos0 g = .ok s ∧ gen c fit g (dr g) s = .ok s' ∧ ∃ rest, t.log = s.log ++ s.pos ++ rest ∧ (n = 0 → s' = t) ∧
      (n ≠ 0 → ∃ rest', rest = s'.pos ++ rest') := by
  induction n generalizing t with
  | zero =>
    simp only [run] at h
    split at h
    · cases h
    · rename_i s0 h0
      refine ⟨s0, t, h0, h, [], ?_, fun _ => rfl, fun h => absurd rfl h⟩
      obtain ⟨a, pos', -, -, rfl⟩ := gen_ok h
      simp [Space.map_clip (run_inv hS hn hf h0).feas]
  | succ n ih =>
    have h' : (match run c fit dr pos0 (g + (n + 1)) with
      | .error e => Except.error e
      | .ok s => gen c fit (g + (n + 1)) (dr (g + (n + 1))) s) = .ok t := h
    split at h'
    · cases h'
    · rename_i t0 h0
      obtain ⟨s, s', e1, e2, rest, e3, e4, e5⟩ := ih h0
      have hi := run_inv hS hn hf h0
      obtain ⟨a, pos', -, -, rfl⟩ := gen_ok h'
      refine ⟨s, s', e1, e2, rest ++ t0.pos, ?_, by simp, fun _ => ?_⟩
      · simp [Space.map_clip hi.feas, e3]
      · by_cases hn0 : n = 0
        · have := e4 hn0
          subst this
          have : rest = [] := by
            obtain ⟨a, pos', -, -, rfl⟩ := gen_ok e2
            have hi0 := run_inv hS hn hf e1
            simpa [Space.map_clip hi0.feas] using e3
          exact ⟨[], by simp [this]⟩
        · obtain ⟨rest', e⟩ := e5 hn0
          exact ⟨rest' ++ t0.pos, by rw [e]; simp⟩

/-- One wolf, one coordinate: distance from the mean of the leaders. -/
theorem moveRow_dist {a : K} (ha : 0 ≤ a) {r : ℕ → ℕ → K} (hr : ∀ j k, 0 ≤ r j k ∧ r j k ≤ 1) {L : Lead K} {row : List K} {j : ℕ} {x : K}
    (hx : row[j]? = some x) : ∃ y, (moveRow a r L row)[j]? = some y ∧
      |y - avg3 (L.alpha.2.getD j 0) (L.beta.2.getD j 0) (L.delta.2.getD j 0)| ≤
        a * avg3 (reach (L.alpha.2.getD j 0) x) (reach (L.beta.2.getD j 0) x) (reach (L.delta.2.getD j 0) x) := by
  refine ⟨(pull a (r j 0) (r j 1) (L.alpha.2.getD j 0) x + pull a (r j 2) (r j 3) (L.beta.2.getD j 0) x
      + pull a (r j 4) (r j 5) (L.delta.2.getD j 0) x) / 3, by simp [moveRow, List.getElem?_mapIdx, hx], ?_⟩
  generalize L.alpha.2.getD j 0 = A
  generalize L.beta.2.getD j 0 = B
  generalize L.delta.2.getD j 0 = D
  have key : ∀ (p q l : K), (0 ≤ p ∧ p ≤ 1) → (0 ≤ q ∧ q ≤ 1) → |(2 * a * p - a) * (|2 * q * l - x|)| ≤ a * reach l x := by
    intro p q l hp hq
    apply abs_coef_mul_le ha hp.1 hp.2
    rw [abs_abs]
    exact abs_le_reach hq.1 hq.2
  have k1 := abs_le.1 (key (r j 0) (r j 1) A (hr j 0) (hr j 1))
  have k2 := abs_le.1 (key (r j 2) (r j 3) B (hr j 2) (hr j 3))
  have k3 := abs_le.1 (key (r j 4) (r j 5) D (hr j 4) (hr j 5))
  unfold pull avg3
  rw [abs_le]
  constructor <;> linarith [k1.1, k1.2, k2.1, k2.2, k3.1, k3.2]

/-- **C63.** Without the keyword `a`, the coefficient starts at 2, falls by the same amount `2/ngen` every generation and is still positive in the
last one. -/
theorem C63_gwo_schedule {c : Conf K} (ha : c.a = none) (hg : c.ngen ≠ 0) :
    coefA c 0 = .ok 2 ∧ ∀ l < c.ngen, ∃ a : K, coefA c l = .ok a ∧ 2 / (c.ngen : K) ≤ a ∧ a ≤ 2 ∧ (0 < a) ∧ coefA c (l + 1) = .ok (a - 2 / (c.ngen : K)) := by
  have hp : (0 : K) < (c.ngen : K) := by exact_mod_cast Nat.pos_of_ne_zero hg
  refine ⟨by simp [coefA, ha], fun l hl => ⟨2 - (l : K) * (2 / (c.ngen : K)), by simp [coefA, ha], ?_, ?_, ?_, ?_⟩⟩
  · have h1 : ((l : K) + 1) ≤ (c.ngen : K) := by exact_mod_cast hl
    have h2 : ((l : K) + 1) * (2 / (c.ngen : K)) ≤ 2 := by
      rw [mul_div_assoc', div_le_iff₀ hp]; linarith
    linarith
  · have : (0 : K) ≤ (l : K) * (2 / (c.ngen : K)) := by positivity
    linarith
  · have h1 : ((l : K) + 1) ≤ (c.ngen : K) := by exact_mod_cast hl
    have h2 : (l : K) * (2 / (c.ngen : K)) < 2 := by
      rw [mul_div_assoc', div_lt_iff₀ hp]; linarith
    linarith
  · simp only [coefA, ha]; push_cast; congr 1; ring

/-- **C63.** From one generation to the next every float coordinate of every wolf lands within `2 - 2k/ngen` times the mean reach of the clamped mean of the
three best points evaluated so far (a leader not found yet counts as the origin). -/
theorem C63_gwo_radius {c : Conf K} (hS : c.S.OK) (ha : c.a = none) {m : Bool} {userFit : List K → K} {dr : ℕ → Draw K} {pos0 : List (List K)}
    (hf : ∀ p ∈ pos0, c.S.Feasible p) (hd : ∀ g, (dr g).Unit) {r : Result K} (h : evolute c m userFit dr pos0 = .ok r) {k i j : ℕ} (hk : k + 1 < c.ngen)
    (hi : i < c.nwolves) {p q : List K} (hp : r.log[k * c.nwolves + i]? = some p) (hq : r.log[(k + 1) * c.nwolves + i]? = some q) {b : K × K}
    (ht : c.S.types[j]? = some VType.float) (hb : c.S.bounds[j]? = some b) {x y : K} (hx : p[j]? = some x) (hy : q[j]? = some y) :
    ∃ A B D : WithTop K × List K, ThreeBest (fun z => sgn m (userFit z)) (r.log.take ((k + 1) * c.nwolves)) A B D ∧
      AtOrigin c.S.bounds.length A ∧ AtOrigin c.S.bounds.length B ∧ AtOrigin c.S.bounds.length D ∧
      |y - clamp b.1 b.2 (avg3 (A.2.getD j 0) (B.2.getD j 0) (D.2.getD j 0))| ≤
        (2 - 2 * (k : K) / (c.ngen : K)) * avg3 (reach (A.2.getD j 0) x) (reach (B.2.getD j 0) x) (reach (D.2.getD j 0) x) := by
  unfold evolute at h
  by_cases hn : pos0.length = c.nwolves
  swap
  · rw [if_pos hn] at h; cases h
  rw [if_neg (by simpa using hn)] at h
  split at h
  · cases h
  rename_i t hs
  split at h
  · cases h
  cases h
  obtain ⟨n, hng⟩ : ∃ n, c.ngen = k + (n + 1) := ⟨c.ngen - k - 1, by omega⟩
  rw [hng] at hs
  obtain ⟨s, s', e1, e2, rest, e3, e4, e5⟩ := run_prefix hS hn hf hs
  obtain ⟨rest', er⟩ := e5 (by omega)
  have i0 := run_inv hS hn hf e1
  have i1 : Inv c (fun z => sgn m (userFit z)) (k + 1) s' := i0.step hS e2
  have ho := (run_orig e1)
  obtain ⟨a, pos', hA, hrows, hs'⟩ := gen_ok e2
  have hl : s.log.length = k * c.nwolves := i0.nlog
  have hp' : s.pos[i]? = some p := by
    simp only at hp
    rw [e3, List.append_assoc, List.getElem?_append_right (by omega), hl, Nat.add_sub_cancel_left,
      List.getElem?_append_left (by rw [i0.npos]; exact hi)] at hp
    exact hp
  have hq' : s'.pos[i]? = some q := by
    simp only at hq
    rw [e3, er, List.append_assoc, List.getElem?_append_right (by rw [hl]; nlinarith), hl,
      show (k + 1) * c.nwolves + i - k * c.nwolves = c.nwolves + i by rw [add_mul]; omega,
      List.getElem?_append_right (by rw [i0.npos]; omega), i0.npos, Nat.add_sub_cancel_left,
      List.getElem?_append_left (by rw [i1.npos]; exact hi)] at hq
    exact hq
  have hcong : ∀ z ∈ s.pos, sgn m (userFit (c.S.clip z)) = sgn m (userFit z) := fun z hz => by rw [Space.clip_of_inBox (i0.feas z hz).1]
  have hlog : s'.log = s.log ++ s.pos := by rw [hs']; simp [Space.map_clip i0.feas]
  have htake : t.log.take ((k + 1) * c.nwolves) = s'.log := by
    rw [hlog, e3, List.take_append_of_le_length (by rw [List.length_append, hl, i0.npos]; ring_nf; omega),
      List.take_of_length_le (by rw [List.length_append, hl, i0.npos]; ring_nf; omega)]
  have ho' : s'.lead.Orig c.S.bounds.length := by rw [hs']; exact ho.leadAll _
  refine ⟨s'.lead.alpha, s'.lead.beta, s'.lead.delta, by rw [htake]; exact i1.three, ho'.a, ho'.b, ho'.d, ?_⟩
  have hq2 : pos'[i]? = some q := by rw [hs'] at hq'; exact hq'
  obtain ⟨p2, hp2, hmove⟩ := (mapRows_ok hrows).2 i q hq2
  rw [hp'] at hp2; cases hp2
  have ha0 : a = 2 - 2 * (k : K) / (c.ngen : K) := by
    simp only [coefA, ha] at hA; cases hA; ring
  have hap : 0 ≤ a := by
    rw [ha0]
    have hpos : (0 : K) < (c.ngen : K) := by exact_mod_cast (by omega : 0 < c.ngen)
    have h1 : (k : K) ≤ (c.ngen : K) := by exact_mod_cast (by omega : k ≤ c.ngen)
    have : 2 * (k : K) / (c.ngen : K) ≤ 2 := by rw [div_le_iff₀ hpos]; linarith
    linarith
  obtain ⟨y0, hy0, hdist⟩ := moveRow_dist hap (hd k (0 + i)) (L := s'.lead) hx
  have hmv : c.S.disc (1 - (k : K) * (1 / (c.ngen : K))) ((dr k).disc (0 + i)) (c.S.clip (moveRow a ((dr k).r (0 + i)) s'.lead p)) = .ok q := by
    rw [hs']; exact hmove
  have := Space.repair_float hS hmv ht hb hy0
  rw [hy] at this; cases this
  rw [← ha0]
  exact le_trans (clamp_lipschitz _ _ _ _) hdist

/-- **C63.** The radius is attained: suitable random factors move a coordinate exactly that far up, and factors 1/2 put it on the mean of the leaders. -/
theorem C63_gwo_attained (a : K) (L : Lead K) (row : List K) :
    ∃ r r' : ℕ → ℕ → K, (∀ j k, 0 ≤ r j k ∧ r j k ≤ 1) ∧ (∀ j k, 0 ≤ r' j k ∧ r' j k ≤ 1) ∧ ∀ (j : ℕ) (x : K), row[j]? = some x →
      (moveRow a r L row)[j]? = some (avg3 (L.alpha.2.getD j 0) (L.beta.2.getD j 0) (L.delta.2.getD j 0) +
        a * avg3 (reach (L.alpha.2.getD j 0) x) (reach (L.beta.2.getD j 0) x) (reach (L.delta.2.getD j 0) x)) ∧
      (moveRow a r' L row)[j]? = some (avg3 (L.alpha.2.getD j 0) (L.beta.2.getD j 0) (L.delta.2.getD j 0)) := by
  let far : K → K → K := fun l x => if |x| ≤ |2 * l - x| then 1 else 0
  have hfar : ∀ l x, |2 * far l x * l - x| = reach l x := by
    intro l x
    simp only [far, reach]
    split
    · rename_i h; rw [max_eq_right h, mul_one]
    · rename_i h; rw [max_eq_left (not_le.1 h).le]; simp
  have hf01 : ∀ l x, 0 ≤ far l x ∧ far l x ≤ 1 := by
    intro l x; simp only [far]; split <;> simp
  refine ⟨fun j k => if k = 1 then far (L.alpha.2.getD j 0) (row.getD j 0) else if k = 3 then far (L.beta.2.getD j 0) (row.getD j 0)
      else if k = 5 then far (L.delta.2.getD j 0) (row.getD j 0) else 0, fun _ _ => 1 / 2, ?_, ?_, ?_⟩
  · intro j k
    dsimp only
    split
    · exact hf01 _ _
    · split
      · exact hf01 _ _
      · split
        · exact hf01 _ _
        · simp
  · intro j k; constructor <;> norm_num
  · intro j x hx
    have hrow : row.getD j 0 = x := by simp [List.getD_eq_getElem?_getD, hx]
    simp only [moveRow, List.getElem?_mapIdx, hx, Option.map_some, hrow]
    constructor
    · congr 1
      simp only [pull, avg3, if_true, show ((0 : ℕ) = 1) = False by simp, show ((0 : ℕ) = 3) = False by simp, show ((0 : ℕ) = 5) = False by simp,
        show ((2 : ℕ) = 1) = False by simp, show ((2 : ℕ) = 3) = False by simp, show ((2 : ℕ) = 5) = False by simp,
        show ((4 : ℕ) = 1) = False by simp, show ((4 : ℕ) = 3) = False by simp, show ((4 : ℕ) = 5) = False by simp,
        show ((3 : ℕ) = 1) = False by simp, show ((5 : ℕ) = 1) = False by simp, show ((5 : ℕ) = 3) = False by simp, if_false, hfar]
      ring
    · congr 1
      simp only [pull, avg3]
      ring

/-- **C63.** A defect: while fewer than three different fitness values have been seen, the missing leaders stand at the origin, wherever the box is.  With a
constant fitness and all factors 1/2 every wolf goes to a third of the first wolf's position (clamped), not to the leader. -/
theorem C63_gwo_origin {c : Conf K} {v : K} {p : List K} {ps : List (List K)} (f : List K → K) (hv : ∀ z ∈ p :: ps, f z = v) {a : K} {row : List K} {j : ℕ}
    {x l : K} (hx : row[j]? = some x) (hp : p[j]? = some l) :
    (moveRow a (fun _ _ => 1 / 2) (leadAll f (Lead.init c.S.bounds.length) (p :: ps)) row)[j]? = some (l / 3) := by
  have key : ∀ (qs : List (List K)) (L : Lead K), L.alpha.1 = (v : WithTop K) → L.beta.1 = ⊤ → L.delta.1 = ⊤ → (∀ z ∈ qs, f z = v) → leadAll f L qs = L := by
    intro qs
    induction qs with
    | nil => intro L _ _ _ _; rfl
    | cons q qs ih =>
      intro L h1 h2 h3 hq
      have e : lead (f q) q L = L := by
        rw [hq q (by simp)]
        unfold lead step1
        rw [h1, if_neg (lt_irrefl _)]
        unfold step2
        rw [h1, if_neg (fun h => lt_irrefl _ h.1)]
        unfold step3
        rw [h1, if_neg (fun h => lt_irrefl _ h.1)]
      simp only [leadAll, e]
      exact ih L h1 h2 h3 (fun z hz => hq z (by simp [hz]))
  have e0 : lead (f p) p (Lead.init c.S.bounds.length) = { (Lead.init c.S.bounds.length : Lead K) with alpha := ((v : WithTop K), p) } := by
    rw [hv p (by simp)]
    unfold lead step1
    rw [if_pos (by simp [Lead.init])]
    unfold step2
    rw [if_neg (fun h => lt_irrefl _ h.1)]
    unfold step3
    rw [if_neg (fun h => lt_irrefl _ h.1)]
    simp [Lead.init]
  have e1 := key ps { (Lead.init c.S.bounds.length : Lead K) with alpha := ((v : WithTop K), p) } rfl rfl rfl (fun z hz => hv z (by simp [hz]))
  simp only [leadAll, e0, e1]
  simp only [moveRow, List.getElem?_mapIdx, hx, Option.map_some]
  congr 1
  have hl : p.getD j 0 = l := by simp [List.getD_eq_getElem?_getD, hp]
  have hz : (List.replicate c.S.bounds.length (0 : K)).getD j 0 = 0 := by
    simp only [List.getD_eq_getElem?_getD, List.getElem?_replicate]; split <;> rfl
  simp only [Lead.init, hl, hz, pull]
  ring

/-! ### Concrete cases -/

example : ∀ g, (exDr g).Unit := by
  intro g i j k
  simp only [exDr]
  constructor
  · positivity
  · rw [div_le_one (by positivity)]
    have : (0 : ℚ) ≤ (g : ℚ) + i + j + k := by positivity
    linarith

/-- The run of `Props/GWO.lean` has a second generation, so `C63_gwo_radius` applies to it. -/
example : (match evolute exC true exFit exDr exPos with | .ok r => r.log.map (fun p => p.getD 0 0) | _ => []) = [3, -2, 4, 974 / 315, 1423 / 315, 5] := by
  decide +kernel

/-- Three wolves of equal fitness: the wolf at 5 is sent to 4/3, below all of them. -/
example : (moveRow (1 : ℚ) (fun _ _ => 1 / 2) (leadAll (fun _ => 7) (Lead.init 1) [[4], [2], [5]]) [5])[0]? = some (4 / 3) :=
  C63_gwo_origin (c := { exC with S := { exS with bounds := [(1, 6)] } }) (v := 7) (fun _ => 7) (fun _ _ => rfl) rfl rfl

end
end Neorl.GWO

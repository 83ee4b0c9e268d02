import Verif.Moves
import Verif.Props.ACO

/-!
# Property theorems C65: where an ant is sampled
-/

set_option linter.unusedSectionVars false
set_option linter.unusedVariables false

namespace Neorl.ACO

section
variable {K : Type} [Field K] [LinearOrder K] [IsStrictOrderedRing K]

/-- Specification: mean absolute deviation of coordinate `j` of `a` from the members of `A` (the sum is divided by their number less one, as `a` is among them). -/
def spread (A : List (List K)) (a : List K) (j : ℕ) : K := (A.map fun b => |a.getD j 0 - b.getD j 0|).sum / ((A.length : K) - 1)

theorem gen_split {c : Conf K} {fit : List K → K} {dr : ℕ → ℕ → Draw K} {s s' : State K} (h : gen c fit dr s = .ok s') :
    ∃ new, newAnts c s.arch dr = .ok new ∧ s'.log = s.log ++ new ∧
      s'.arch = (sortAsc (fun a : Ant K => a.2) (s.arch ++ new.map (fun p => (p, fit p)))).take c.narchive := by
  unfold gen at h
  split at h
  · cases h
  · split at h
    · cases h
    · rename_i new hnew
      simp only at h
      split at h
      · cases h; exact ⟨new, hnew, rfl, rfl⟩
      · cases h
      · cases h

theorem newAnts_rows {c : Conf K} {arch : List (Ant K)} {dr : ℕ → ℕ → Draw K} {new : List (List K)} (h : newAnts c arch dr = .ok new) :
    new.length = c.nants ∧ ∀ i v, new[i]? = some v → newAnt c arch dr i = .ok v := by
  obtain ⟨hl, hr⟩ := mapRows_ok h
  refine ⟨by simpa using hl, fun i v hv => ?_⟩
  obtain ⟨-, -, h2⟩ := hr i v hv
  simpa using h2

theorem newAnt_coord {c : Conf K} (hB : BoundsOK c.bounds) {arch : List (Ant K)} {dr : ℕ → ℕ → Draw K} {i : ℕ} {v : List K} (h : newAnt c arch dr i = .ok v) {j : ℕ} {b : K × K}
    (hb : c.bounds[j]? = some b) :
    ∃ k, k < c.narchive ∧ roulette (probs c) (dr i j).1 = .ok k ∧ v[j]? = some (clamp b.1 b.2 (mean arch k j + sigma c arch k j * (dr i j).2)) := by
  unfold newAnt at h
  split at h
  · cases h
  · rename_i w hw
    obtain ⟨hl, hr⟩ := mapRows_ok hw
    have hj : j < w.length := by rw [hl]; exact (List.getElem?_eq_some_iff.1 hb).1
    have hy := List.getElem?_eq_getElem hj
    obtain ⟨b', hb', hc⟩ := hr j _ hy
    rw [Nat.zero_add] at hc
    unfold coord at hc
    split at hc
    · cases hc
    · rename_i k hk
      injection hc with hc
      cases h
      refine ⟨k, ?_, hk, ?_⟩
      · obtain ⟨n, hn, hpn, -⟩ := rouletteFrom_spec hk
        have : (probs c).length = c.narchive := by simp [probs]
        omega
      · rw [ensureBounds_eq_zipWith hB, List.getElem?_zipWith, hy, hb, ← hc]

theorem mean_eq {arch : List (Ant K)} {k j : ℕ} {a : Ant K} (h : arch[k]? = some a) : mean arch k j = a.1.getD j 0 := by
  unfold mean
  rw [List.getD_eq_getElem?_getD (l := arch.map _), List.getElem?_map, h]; rfl

theorem sigma_eq {c : Conf K} {arch : List (Ant K)} {k j : ℕ} {a : Ant K} (hn : c.narchive ≤ arch.length) (h : arch[k]? = some a) :
    sigma c arch k j = c.Z * spread ((arch.take c.narchive).map (·.1)) a.1 j := by
  unfold sigma spread
  have hlen : ((arch.take c.narchive).map (·.1)).length = c.narchive := by simp [hn]
  rw [hlen, mul_div_assoc]
  congr 3
  apply List.ext_getElem?
  intro r
  by_cases hr : r < c.narchive
  · have hra : arch[r]? = some arch[r] := List.getElem?_eq_getElem (by omega)
    simp only [List.getElem?_map, List.getElem?_range hr, List.getElem?_take, if_pos hr, hra, Option.map_some, mean_eq h, mean_eq hra]
  · rw [List.getElem?_eq_none (by simp; omega), List.getElem?_eq_none (by simp; omega)]

/-- **C65.** One iteration, every coordinate of every new ant, from any archive of at least `narchive` ants: the coordinate is sampled around that of the archived ant in
whose slice of the weight wheel the uniform draw falls (drawn anew for each coordinate), with standard deviation `Z` times the mean distance of that ant to the archive, and
clipped into the box. -/
theorem C65_aco_move {c : Conf K} (hB : BoundsOK c.bounds) {fit : List K → K} {dr : ℕ → ℕ → Draw K} {s s' : State K} (hn : c.narchive ≤ s.arch.length)
    (h : gen c fit dr s = .ok s') :
    ∃ new, new.length = c.nants ∧ s'.log = s.log ++ new ∧ ∀ i q, new[i]? = some q → ∀ j b, c.bounds[j]? = some b →
      ∃ k a, k < c.narchive ∧ s.arch[k]? = some a ∧ (dr i j).1 ≤ ((probs c).take (k + 1)).sum ∧ (0 < k → ((probs c).take k).sum < (dr i j).1) ∧
        q[j]? = some (clamp b.1 b.2 (a.1.getD j 0 + c.Z * spread ((s.arch.take c.narchive).map (·.1)) a.1 j * (dr i j).2)) := by
  obtain ⟨new, h1, h2, -⟩ := gen_split h
  obtain ⟨h3, h4⟩ := newAnts_rows h1
  refine ⟨new, h3, h2, fun i q hq j b hb => ?_⟩
  obtain ⟨k, hk, hro, hy⟩ := newAnt_coord hB (h4 i q hq) hb
  have ha : s.arch[k]? = some (s.arch[k]'(by omega)) := List.getElem?_eq_getElem _
  obtain ⟨n, hn', -, hr1, hr2⟩ := rouletteFrom_spec hro
  rw [Nat.zero_add] at hn'
  subst hn'
  refine ⟨k, _, hk, ha, by simpa using hr1, fun h0 => by simpa using hr2 k le_rfl h0, ?_⟩
  rw [hy, mean_eq ha, sigma_eq hn ha]

/-- **C65.** Collapse: once all archived ants share the value of a coordinate, every later ant has that value, whatever the draws and the objective. -/
theorem C65_aco_collapse {c : Conf K} (hB : BoundsOK c.bounds) (hna : c.narchive ≤ c.nants) {fit : List K → K} {dr : ℕ → ℕ → ℕ → Draw K} {pos0 : List (List K)}
    (hlen : pos0.length = c.nants) (hp : ∀ p ∈ pos0, InBox c.bounds p) {g : ℕ} {s : State K} (h : run c fit dr pos0 g = .ok s) {j : ℕ} {b : K × K}
    (hb : c.bounds[j]? = some b) {v : K} (hv : ∀ a ∈ s.arch, a.1.getD j 0 = v) {n : ℕ} {s' : State K} (h' : run c fit dr pos0 (g + n) = .ok s') :
    (∃ later, s'.log = s.log ++ later ∧ ∀ q ∈ later, q.getD j 0 = v) ∧ ∀ a ∈ s'.arch, a.1.getD j 0 = v := by
  induction n generalizing s' with
  | zero =>
    rw [Nat.add_zero, h] at h'
    cases h'
    exact ⟨⟨[], by simp, by simp⟩, hv⟩
  | succ n ih =>
    rw [← Nat.add_assoc] at h'
    simp only [run] at h'
    split at h'
    · cases h'
    · rename_i t ht
      obtain ⟨⟨l, hl, hq⟩, ha⟩ := ih ht
      have hi := run_inv hB hna hlen hp ht
      have hnt : c.narchive ≤ t.arch.length := by rw [hi.narch]; split_ifs <;> omega
      obtain ⟨new, h1, h2, h3⟩ := gen_split h'
      obtain ⟨new', h4, h5, h6⟩ := C65_aco_move hB hnt h'
      have : new' = new := by rw [h2] at h5; exact (List.append_cancel_left h5).symm
      subst this
      have hin : ∀ a ∈ t.arch, b.1 ≤ a.1.getD j 0 ∧ a.1.getD j 0 ≤ b.2 := by
        intro a haa
        have hbx := hi.box _ (hi.own a haa).1
        have hj : j < a.1.length := by rw [hbx.length_eq]; exact (List.getElem?_eq_some_iff.1 hb).1
        have e : a.1[j]? = some a.1[j] := List.getElem?_eq_getElem hj
        have := inBox_getElem? hbx e hb
        rw [List.getD_eq_getElem?_getD, e]; exact this
      have hnew : ∀ q ∈ new', q.getD j 0 = v := by
        intro q hqm
        obtain ⟨i, hi'⟩ := List.mem_iff_getElem?.1 hqm
        obtain ⟨k, a, -, hk, -, -, hy⟩ := h6 i q hi' j b hb
        have ham := List.mem_of_getElem? hk
        have hsp : spread ((t.arch.take c.narchive).map (·.1)) a.1 j = 0 := by
          unfold spread
          rw [List.sum_eq_zero, zero_div]
          intro x hx
          simp only [List.map_map, List.mem_map, Function.comp_apply] at hx
          obtain ⟨y, hy, rfl⟩ := hx
          rw [ha a ham, ha y (List.mem_of_mem_take hy), sub_self, abs_zero]
        rw [List.getD_eq_getElem?_getD, hy, hsp, mul_zero, zero_mul, add_zero]
        have := hin a ham
        unfold clamp
        rw [min_eq_left this.2, max_eq_right this.1]
        exact ha a ham
      refine ⟨⟨l ++ new', by rw [h2, hl, List.append_assoc], fun q hqm => ?_⟩, fun a haa => ?_⟩
      · rcases List.mem_append.1 hqm with hx | hx
        · exact hq q hx
        · exact hnew q hx
      · rw [h3] at haa
        have := (sortAsc_perm _ _).mem_iff.1 (List.mem_of_mem_take haa)
        rcases List.mem_append.1 this with hx | hx
        · exact ha a hx
        · obtain ⟨q, hqm, rfl⟩ := List.mem_map.1 hx
          exact hnew q hqm

/-! ### Concrete cases -/

/-- First iteration of the run of `Props/ACO.lean`: the archive is [1,1], [-2,2]. -/
example : (match run exC exFit exDr exPos 1 with | .ok s => s.log.drop 3 | _ => []) = [[-1 / 2, 0], [-1 / 2, 0], [-1 / 2, 0]] := by decide +kernel
/-- The second coordinate has collapsed: all start ants have 1 there. -/
def exPos1 : List (List ℚ) := [[3, 1], [-2, 1], [1, 1]]
example : (match run exC exFit exDr exPos1 0 with | .ok s => s.arch.map (fun a => a.1.getD 1 0) | _ => []) = [1, 1, 1] := by decide +kernel
example : (match run exC exFit exDr exPos1 2 with | .ok s => s.log.drop 3 | _ => []) =
    List.replicate 6 [-1 / 2, 1] := by decide +kernel

end
end Neorl.ACO

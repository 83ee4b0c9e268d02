import Verif.Moves
import Verif.Props.JAYA

/-!
# Property theorems C64: how JAYA moves
-/

set_option linter.unusedSectionVars false
set_option linter.unusedVariables false

namespace Neorl.JAYA

section
variable {K : Type} [Field K] [LinearOrder K] [IsStrictOrderedRing K] [FloorRing K]

/-- Specification: the random factors are in `[0, 1]`. -/
def Draw.Unit (d : Draw K) : Prop := ∀ j, (0 ≤ d.r1 j ∧ d.r1 j ≤ 1) ∧ (0 ≤ d.r2 j ∧ d.r2 j ≤ 1)

theorem greedy_row {ps qs : List (List K)} {fs gs : List K} (h1 : fs.length = ps.length) (h2 : qs.length = ps.length) (h3 : gs.length = ps.length)
    {i : ℕ} {p q : List K} {f g : K} (hp : ps[i]? = some p) (hf : fs[i]? = some f) (hq : qs[i]? = some q) (hg : gs[i]? = some g) :
    (greedy ps fs qs gs).1[i]? = some (if g > f then q else p) := by
  induction ps generalizing fs qs gs i with
  | nil => simp at hp
  | cons p0 ps ih =>
    cases fs with
    | nil => simp at h1
    | cons f0 fs =>
      cases qs with
      | nil => simp at h2
      | cons q0 qs =>
        cases gs with
        | nil => simp at h3
        | cons g0 gs =>
          simp only [greedy]
          cases i with
          | zero =>
            simp only [List.getElem?_cons_zero, Option.some.injEq] at hp hf hq hg
            subst hp hf hq hg
            split <;> simp
          | succ i =>
            simp only [List.getElem?_cons_succ] at hp hf hq hg
            have := ih (by simpa using h1) (by simpa using h2) (by simpa using h3) hp hf hq hg
            split <;> simpa using this

/-- **C64.** Every row, every generation.  The trial evaluated for row `i` has in each float coordinate the clamped value of `x + α (best - |x|) - β (worst - |x|)` with `α` and `β` in
`[0, 1]`, where `best` is the best point evaluated so far and `worst` the current content of the row that was worst initially; the row becomes the trial exactly when the
trial is strictly better. -/
theorem C64_jaya_move {c : Conf K} (hS : c.S.OK) {fit : List K → K} {dr : ℕ → ℕ → Draw K} (hd : ∀ g i, (dr g i).Unit) {pos0 : List (List K)}
    (hn : pos0.length = c.npop) (hf : ∀ p ∈ pos0, c.S.Feasible p) {g : ℕ} {s s' : State K} (h : run c fit dr pos0 g = .ok s)
    (h' : run c fit dr pos0 (g + 1) = .ok s') {i : ℕ} {p : List K} (hp : s.pos[i]? = some p) :
    ∃ B W q, IsBest false fit s.log B (fit B) ∧ s.pos[s.worst.2]? = some W ∧ s'.log[(g + 1) * c.npop + i]? = some q ∧
      s'.pos[i]? = some (if fit p < fit q then q else p) ∧
      ∀ (j : ℕ) (b : K × K) (x : K), c.S.types[j]? = some VType.float → c.S.bounds[j]? = some b → p[j]? = some x →
        ∃ α β, 0 ≤ α ∧ α ≤ 1 ∧ 0 ≤ β ∧ β ≤ 1 ∧ q[j]? = some (clamp b.1 b.2 (x + α * (B.getD j 0 - |x|) - β * (W.getD j 0 - |x|))) := by
  have hi := run_inv hS hn hf h
  simp only [run, h, gen] at h'
  split at h'
  swap
  · cases h'
  rename_i B W hB hW
  split at h'
  · cases h'
  rename_i new hnew
  split at h'
  · cases h'
  rename_i mx hmx
  cases h'
  obtain ⟨n1, n2⟩ := mapRows_ok hnew
  have hil : i < s.pos.length := (List.getElem?_eq_some_iff.1 hp).1
  have hql : i < new.length := by omega
  have hq : new[i]? = some new[i] := List.getElem?_eq_getElem hql
  obtain ⟨p2, hp2, hrep⟩ := n2 i _ hq
  rw [hp] at hp2; cases hp2
  rw [Nat.zero_add] at hrep
  have hbest := hi.isBest hB
  rw [hbest.2.1] at hbest
  refine ⟨B, W, new[i], hbest, hW, ?_, ?_, ?_⟩
  · simp only
    rw [List.getElem?_append_right (by rw [hi.len]; omega), hi.len, Nat.add_sub_cancel_left]
    exact hq
  · simp only
    rw [greedy_row (by rw [hi.fits]; simp) n1 (by simp [n1]) hp (by rw [hi.fits, List.getElem?_map, hp]; rfl) hq (by rw [List.getElem?_map, hq]; rfl)]
  · intro j b x ht hb hx
    obtain ⟨⟨a1, a2⟩, b1, b2⟩ := hd g i j
    refine ⟨(dr g i).r1 j, (dr g i).r2 j, a1, a2, b1, b2, ?_⟩
    exact Space.repair_float hS hrep ht hb (by simp only [trial, List.getElem?_mapIdx, hx, Option.map_some])

/-- **C64.** For a non-negative coordinate the trial is a pull towards the best and a push away from the worst: a coordinate shared with both stays.  For a negative coordinate
the modulus makes even the best point move: with `r1 = 1`, `r2 = 0` its own trial jumps from `x` to `3 x`. -/
theorem C64_jaya_fixed {b w row : List K} {j : ℕ} {x : K} (hx : row[j]? = some x) (hb : b[j]? = some x) (d : Draw K) :
    (0 ≤ x → w[j]? = some x → (trial b w d row)[j]? = some x) ∧ (x < 0 → d.r1 j = 1 → d.r2 j = 0 → (trial b w d row)[j]? = some (3 * x)) := by
  have hbd : b.getD j 0 = x := by rw [List.getD_eq_getElem?_getD, hb]; rfl
  simp only [trial, List.getElem?_mapIdx, hx, Option.map_some, hbd]
  constructor
  · intro h hw
    have hwd : w.getD j 0 = x := by rw [List.getD_eq_getElem?_getD, hw]; rfl
    rw [hwd, abs_of_nonneg h]; congr 1; ring
  · intro h h1 h2
    rw [h1, h2, abs_of_neg h]; congr 1; ring

/-! ### Concrete cases -/

example : ∀ g i, (exDr g i).Unit := by
  intro g i j; simp only [exDr]
  by_cases h : i = 2
  · simp only [h, if_true]; norm_num
  · simp only [h, if_false]; norm_num
/-- The second row of the run of `Props/JAYA.lean`: its trial moves by half of `best - worst`. -/
example : (match run exC (fun x => -exFit x) exDr exPos 1 with | .ok s => s.log.map (fun p => p.getD 0 0) | _ => []) = [3, -2, 5, 1, 3, -2, 3, 1] := by decide +kernel

end
end Neorl.JAYA

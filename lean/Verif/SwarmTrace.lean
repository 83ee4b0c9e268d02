import Verif.Moves
import Verif.Swarm

/-!
# Reading the moves off the log

Block `k` of the log of `Swarm.evolute` is the population of generation `k`; block `k + 1` is what the move makes of it.
-/

set_option linter.unusedSectionVars false
set_option linter.unusedVariables false

namespace Neorl.Swarm

section
variable {K : Type} [Field K] [LinearOrder K] [IsStrictOrderedRing K]

/-- Specification: block `k` of a log made of blocks of length `n`. -/
def blk (n : ℕ) (log : List (List K)) (k : ℕ) : List (List K) := (log.drop (k * n)).take n

theorem blk_append {n k : ℕ} {l l' : List (List K)} (h : (k + 1) * n ≤ l.length) : blk n (l ++ l') k = blk n l k := by
  unfold blk
  have e : (k + 1) * n = k * n + n := by ring
  rw [List.drop_append_of_le_length (by omega), List.take_append_of_le_length (by rw [List.length_drop]; omega)]

theorem blk_last {n k : ℕ} {l l' : List (List K)} (h : l.length = k * n) (h' : l'.length = n) : blk n (l ++ l') k = l' := by
  unfold blk
  rw [List.drop_append_of_le_length (by omega), List.drop_of_length_le (by omega), List.nil_append, List.take_of_length_le (by omega)]

theorem getElem?_blk {n k i : ℕ} {l : List (List K)} (hi : i < n) : (blk n l k)[i]? = l[k * n + i]? := by
  unfold blk
  rw [List.getElem?_take, if_pos hi, List.getElem?_drop]

end

section
variable {K : Type} [Field K] [LinearOrder K] [IsStrictOrderedRing K] [FloorRing K]

theorem run_steps {S : Space K} {mv : Move K} {n : ℕ} (hm : MoveOK S n mv) {fit : List K → K} {pos0 : List (List K)}
    (hn : pos0.length = n) (hf : ∀ p ∈ pos0, S.Feasible p) {g : ℕ} {s : State K} (h : run S mv fit pos0 g = .ok s) :
    ∀ k < g, ∃ b, Inc fit (s.log.take ((k + 1) * n)) b ∧ mv k b.2 (blk n s.log k) = .ok (blk n s.log (k + 1)) := by
  induction g generalizing s with
  | zero => intro k hk; omega
  | succ g ih =>
    have hi' := run_inv hm hn hf h
    simp only [run] at h
    split at h
    · cases h
    · rename_i s0 h0
      have hi := run_inv hm hn hf h0
      have hl : s0.log.length = (g + 1) * n := by rw [hi.hist.1, hi.lens.1]; ring
      simp only [gen] at h
      split at h
      · cases h
      · rename_i pos hp
        split at h
        · cases h
        · rename_i l hsel
          cases h
          intro k hk
          rcases Nat.lt_or_ge k g with hk' | hk'
          · obtain ⟨b, hb, hmv⟩ := ih h0 k hk'
            have h2 : (k + 2) * n ≤ s0.log.length := by rw [hl]; exact Nat.mul_le_mul_right n (by omega)
            have h1 : (k + 1) * n ≤ s0.log.length := le_trans (Nat.mul_le_mul_right n (by omega)) h2
            refine ⟨b, ?_, ?_⟩
            · simp only; rw [List.take_append_of_le_length h1]; exact hb
            · simp only; rw [blk_append h1, blk_append h2]; exact hmv
          · obtain rfl : k = g := by omega
            refine ⟨s0.best, ?_, ?_⟩
            · simp only; rw [List.take_append_of_le_length (by omega), List.take_of_length_le (by omega)]; exact hi.best
            · have hpos : pos.length = n := hi'.npos
              have hfp : ∀ p ∈ pos, S.Feasible p := hi'.feas
              simp only
              rw [blk_append (by omega), blk_last hl (by simpa using hpos), Space.map_clip hfp]
              have : blk n s0.log k = s0.pos := by
                unfold blk; rw [← hi.last, List.take_of_length_le (by rw [hi.npos])]
              rw [this]; exact hp

/-- Every generation is one application of the move, to the previous population and the best point evaluated before. -/
theorem evolute_steps {S : Space K} {mv : Move K} {n ngen : ℕ} (hm : MoveOK S n mv) {m : Bool} {userFit : List K → K} {pos0 : List (List K)}
    (hf : ∀ p ∈ pos0, S.Feasible p) {r : Result K} (h : evolute S n ngen mv m userFit pos0 = .ok r) {k : ℕ} (hk : k < ngen) :
    ∃ b, IsBest m userFit (r.log.take ((k + 1) * n)) b (userFit b) ∧ mv k b (blk n r.log k) = .ok (blk n r.log (k + 1)) := by
  unfold evolute at h
  by_cases hn : pos0.length = n
  swap
  · rw [if_pos hn] at h; cases h
  rw [if_neg (by simpa using hn)] at h
  split at h
  · cases h
  rename_i s hs
  split at h
  · cases h
  cases h
  obtain ⟨b, hb, hmv⟩ := run_steps hm hn hf hs k hk
  refine ⟨b.2, ?_, hmv⟩
  have := hb.isBest
  rw [hb.2.1, sgn_sgn] at this
  exact this

end
end Neorl.Swarm

import Verif.Reorder
import Verif.CS
import Verif.PSO
import Verif.ACO
import Verif.ES
import Verif.XNES

/-!
# Longer runs, continued runs

Lemmas behind C142: what a run of `n` generations and a run of `n' ≥ n` generations with the same draws have in common, and what a run started from the last population of
another one does.  No new code is modelled here.
-/

set_option linter.unusedSectionVars false
set_option linter.unusedVariables false

namespace Neorl.Longer

open Neorl.Reorder (Plain)

section
variable {K : Type} [Field K] [LinearOrder K] [IsStrictOrderedRing K] [FloorRing K]

/-- Rounding does not look at the annealing parameter. -/
theorem disc_al {S : Space K} (h : Plain S) (al al' : K) : S.disc al = S.disc al' := by
  funext d v
  unfold Space.disc
  have key : ∀ n, ensureDiscrete S.expf S.types S.bounds al S.method d n v = ensureDiscrete S.expf S.types S.bounds al' S.method d n v := by
    intro n
    induction n with
    | zero => rfl
    | succ n ih =>
      simp only [ensureDiscrete, ih, bind, Except.bind]
      cases ensureDiscrete S.expf S.types S.bounds al' S.method d n v with
      | error e => rfl
      | ok w =>
        simp only [discStep]
        cases ht : S.types[n]? with
        | none => rfl
        | some t =>
          cases t with
          | float => rfl
          | int =>
            have hm : S.method = .nearestInt := by
              rcases h with h | h
              · exact absurd (h _ (List.mem_of_getElem? ht)) (by simp)
              · exact h
            simp only [hm, mutateDiscrete]
  exact key _

omit [FloorRing K] in
theorem accMin_append (l k : List K) : ∃ t, accMin (l ++ k) = accMin l ++ t := by
  induction l with
  | nil => exact ⟨_, rfl⟩
  | cons a l ih =>
    obtain ⟨t, ht⟩ := ih
    exact ⟨t.map (min a), by simp [accMin, ht]⟩

omit [FloorRing K] in
theorem accMax_append (l k : List K) : ∃ t, accMax (l ++ k) = accMax l ++ t := by
  induction l with
  | nil => exact ⟨_, rfl⟩
  | cons a l ih =>
    obtain ⟨t, ht⟩ := ih
    exact ⟨t.map (max a), by simp [accMax, ht]⟩

omit [FloorRing K] in
theorem acc_prefix (m : Bool) {l l' : List K} (h : l <+: l') : acc m l <+: acc m l' := by
  obtain ⟨k, rfl⟩ := h
  cases m
  · obtain ⟨t, ht⟩ := accMax_append l k
    exact ⟨t, by simp [acc, ht]⟩
  · obtain ⟨t, ht⟩ := accMin_append l k
    exact ⟨t, by simp [acc, ht]⟩

omit [FloorRing K] in
/-- The best of more points is not worse. -/
theorem best_mono {X : Type} {m : Bool} {f : X → K} {l l' : List X} {x x' : X} {y y' : K} (h : IsBest m f l x y) (h' : IsBest m f l' x' y') (hl : l <+: l') :
    NotWorse m y y' := by
  rw [h.2.1]
  exact h'.2.2 x (hl.subset h.1)

end

namespace DE
open Neorl.DE
variable {K : Type} [Field K] [LinearOrder K] [IsStrictOrderedRing K] [FloorRing K]

theorem sweep_ngen {c : Conf K} (hp : Plain c.S) (n : ℕ) (dr : ℕ → Draw K) (j : ℕ) (pop : List (List K)) : Neorl.DE.sweep { c with ngen := n } dr j pop = Neorl.DE.sweep c dr j pop := by
  induction j with
  | zero => rfl
  | succ j ih =>
    simp only [Neorl.DE.sweep, ih]
    have : ∀ p, target { c with ngen := n } j (dr j) p = target c j (dr j) p := by
      intro p
      unfold target
      simp only [disc_al hp (1 - (j : K) * (1 / (n : K))) (1 - (j : K) * (1 / (c.ngen : K)))]
    simp only [this]

theorem run_ngen {c : Conf K} (hp : Plain c.S) (n : ℕ) (fit : List K → K) (dr : ℕ → ℕ → Draw K) (rl : ℕ → List (ℕ × List K)) (pop0 : List (List K)) (g : ℕ) :
    run { c with ngen := n } fit dr rl pop0 g = run c fit dr rl pop0 g := by
  induction g with
  | zero => rfl
  | succ g ih =>
    simp only [run, ih, gen, sweep_ngen hp]

/-- Later generations only add to the records. -/
theorem run_split {c : Conf K} {fit : List K → K} {dr : ℕ → ℕ → Draw K} {rl : ℕ → List (ℕ × List K)} {pop0 : List (List K)} (n k : ℕ) {s : State K}
    (h : run c fit dr rl pop0 n = .ok s) :
    run c fit dr rl pop0 (n + k) = (run c fit (fun g => dr (n + g)) (fun g => rl (n + g)) s.pop k).map fun s' =>
      { pop := s'.pop, sel := if k = 0 then s.sel else s'.sel, best := s.best ++ s'.best, last := if k = 0 then s.last else s'.last, log := s.log ++ s'.log } := by
  induction k with
  | zero => simp [h, run, Except.map]
  | succ k ih =>
    rw [← Nat.add_assoc]
    simp only [run, ih]
    cases run c fit (fun g => dr (n + g)) (fun g => rl (n + g)) s.pop k with
    | error e => rfl
    | ok s' =>
      simp only [Except.map, gen]
      cases Neorl.DE.sweep c (dr (n + k)) c.npop s'.pop with
      | error e => rfl
      | ok tt =>
        simp only
        cases bestOf (select (fun x => fit (c.S.clip x)) tt.1 tt.2) with
        | none => rfl
        | some b => simp [List.append_assoc]

theorem mix_length (rl : List (ℕ × List K)) (pop : List (List K)) : (mix rl pop).length = pop.length := by
  induction rl generalizing pop with
  | nil => rfl
  | cons r rl ih => obtain ⟨i, x⟩ := r; simp [mix, ih]

theorem run_sel_length {c : Conf K} {fit : List K → K} {dr : ℕ → ℕ → Draw K} {rl : ℕ → List (ℕ × List K)} {pop0 : List (List K)} {n : ℕ} {s : State K}
    (hn : n ≠ 0) (h : run c fit dr rl pop0 n = .ok s) : s.pop.length = s.sel.length := by
  cases n with
  | zero => exact absurd rfl hn
  | succ n =>
    simp only [run] at h
    cases hr : run c fit dr rl pop0 n with
    | error e => rw [hr] at h; cases h
    | ok s0 =>
      rw [hr] at h
      simp only [gen] at h
      split at h
      · cases h
      · split at h
        · cases h
        · cases h; simp [mix_length]

theorem run_last {c : Conf K} {fit : List K → K} {dr : ℕ → ℕ → Draw K} {rl : ℕ → List (ℕ × List K)} {pop0 : List (List K)} {n : ℕ} {s : State K}
    (h : run c fit dr rl pop0 n = .ok s) : s.last = none ↔ n = 0 := by
  cases n with
  | zero => simp only [run] at h; cases h; simp
  | succ n =>
    simp only [run] at h
    cases hr : run c fit dr rl pop0 n with
    | error e => rw [hr] at h; cases h
    | ok s0 =>
      rw [hr] at h
      simp only [gen] at h
      split at h
      · cases h
      · split at h
        · cases h
        · cases h; simp

end DE

namespace JAYA
open Neorl.JAYA
variable {K : Type} [Field K] [LinearOrder K] [IsStrictOrderedRing K] [FloorRing K]

theorem run_ngen {c : Conf K} (hp : Plain c.S) (n : ℕ) (fit : List K → K) (dr : ℕ → ℕ → Draw K) (pos0 : List (List K)) (g : ℕ) :
    run { c with ngen := n } fit dr pos0 g = run c fit dr pos0 g := by
  induction g with
  | zero => rfl
  | succ g ih =>
    simp only [run, ih, gen, repair, disc_al hp (1 - ((g + 1 : ℕ) : K) * (1 / (n : K))) (1 - ((g + 1 : ℕ) : K) * (1 / (c.ngen : K)))]

theorem run_prefix {c : Conf K} {fit : List K → K} {dr : ℕ → ℕ → Draw K} {pos0 : List (List K)} {n n' : ℕ} (hn : n ≤ n') {s' : State K}
    (h : run c fit dr pos0 n' = .ok s') :
    ∃ s, run c fit dr pos0 n = .ok s ∧ s.log <+: s'.log ∧ s.global <+: s'.global ∧ s.locals <+: s'.locals := by
  induction n' generalizing s' with
  | zero =>
    obtain rfl : n = 0 := by omega
    exact ⟨s', h, List.prefix_refl _, List.prefix_refl _, List.prefix_refl _⟩
  | succ n' ih =>
    by_cases e : n = n' + 1
    · exact ⟨s', by rw [e]; exact h, List.prefix_refl _, List.prefix_refl _, List.prefix_refl _⟩
    simp only [run] at h
    cases hr : run c fit dr pos0 n' with
    | error e => rw [hr] at h; cases h
    | ok s1 =>
      rw [hr] at h
      obtain ⟨s, h0, h1, h2, h3⟩ := ih (by omega) hr
      simp only [gen] at h
      split at h
      · split at h
        · cases h
        · split at h
          · cases h
          · cases h
            exact ⟨s, h0, h1.trans (List.prefix_append _ _), h2.trans (List.prefix_append _ _), h3.trans (List.prefix_append _ _)⟩
      · cases h

end JAYA

namespace CS
open Neorl.CS
variable {K : Type} [Field K] [LinearOrder K] [IsStrictOrderedRing K] [FloorRing K]

theorem run_ngen {c : Conf K} (hp : Plain c.S) (n : ℕ) (fit : List K → K) (dr : ℕ → Draw K) (pos0 : List (List K)) (g : ℕ) :
    run { c with ngen := n } fit dr pos0 g = run c fit dr pos0 g := by
  induction g with
  | zero => rfl
  | succ g ih =>
    have e1 : ∀ d b, levyRow { c with ngen := n } g d b = levyRow c g d b := by
      intro d b; funext i s; simp only [levyRow, disc_al hp (anneal { c with ngen := n } g) (anneal c g)]
    have e2 : ∀ d b, discoverRow { c with ngen := n } g d b = discoverRow c g d b := by
      intro d b; funext i s; simp only [discoverRow, disc_al hp (anneal { c with ngen := n } g) (anneal c g)]
    simp only [run, ih, gen, e1, e2]

theorem run_prefix {c : Conf K} {fit : List K → K} {dr : ℕ → Draw K} {pos0 : List (List K)} {n n' : ℕ} (hn : n ≤ n') {s' : State K}
    (h : run c fit dr pos0 n' = .ok s') :
    ∃ s, run c fit dr pos0 n = .ok s ∧ s.log <+: s'.log ∧ s.global <+: s'.global ∧ s.locals <+: s'.locals := by
  induction n' generalizing s' with
  | zero =>
    obtain rfl : n = 0 := by omega
    exact ⟨s', h, List.prefix_refl _, List.prefix_refl _, List.prefix_refl _⟩
  | succ n' ih =>
    by_cases e : n = n' + 1
    · exact ⟨s', by rw [e]; exact h, List.prefix_refl _, List.prefix_refl _, List.prefix_refl _⟩
    simp only [run] at h
    cases hr : run c fit dr pos0 n' with
    | error e => rw [hr] at h; cases h
    | ok s1 =>
      rw [hr] at h
      obtain ⟨s, h0, h1, h2, h3⟩ := ih (by omega) hr
      simp only [gen] at h
      split at h
      · cases h
      · split at h
        · cases h
        · split at h
          · cases h
          · cases h
            refine ⟨s, h0, h1.trans ?_, h2.trans (List.prefix_append _ _), h3.trans (List.prefix_append _ _)⟩
            rw [List.append_assoc]
            exact List.prefix_append _ _

theorem scan_le (qs : List (List K × K)) (b : K × List K) : (scan b qs).1 ≤ b.1 ∧ ∀ q ∈ qs, (scan b qs).1 ≤ q.2 := by
  induction qs generalizing b with
  | nil => simp [scan]
  | cons q qs ih =>
    simp only [scan]
    obtain ⟨h1, h2⟩ := ih (if q.2 < b.1 then (q.2, q.1) else b)
    split_ifs at h1 h2 ⊢ with hc
    · exact ⟨h1.trans hc.le, fun p hp => (List.mem_cons.1 hp).elim (fun e => e ▸ h1) (h2 p)⟩
    · exact ⟨h1, fun p hp => (List.mem_cons.1 hp).elim (fun e => e ▸ h1.trans (not_lt.1 hc)) (h2 p)⟩

/-- Whatever the starting points, the remembered best is not worse than any of them. -/
theorem run_best_le {c : Conf K} {fit : List K → K} {dr : ℕ → Draw K} {pos0 : List (List K)} {n : ℕ} {s : State K} (h : run c fit dr pos0 n = .ok s) :
    ∀ p ∈ pos0, s.best.1 ≤ fit (c.S.clip p) := by
  induction n generalizing s with
  | zero =>
    simp only [run] at h
    split at h
    · cases h
    · rename_i q qs he
      cases h
      intro p hp
      have hm : (p, fit (c.S.clip p)) ∈ q :: qs := by rw [← he]; exact List.mem_map.2 ⟨p, hp, rfl⟩
      obtain ⟨h1, h2⟩ := scan_le qs (q.2, q.1)
      rcases List.mem_cons.1 hm with e | e
      · have e2 : q.2 = fit (c.S.clip p) := by rw [← e]
        exact h1.trans e2.le
      · exact h2 _ e
  | succ n ih =>
    simp only [run] at h
    cases hr : run c fit dr pos0 n with
    | error e => rw [hr] at h; cases h
    | ok s1 =>
      rw [hr] at h
      intro p hp
      have := ih hr p hp
      simp only [gen] at h
      split at h
      · cases h
      · split at h
        · cases h
        · split at h
          · cases h
          · cases h
            exact (scan_le _ _).1.trans this

end CS

namespace PSO
open Neorl.PSO
variable {K : Type} [Field K] [LinearOrder K] [IsStrictOrderedRing K] [FloorRing K]

theorem run_ngen {c : Conf K} (hp : c.mech ≠ .timew) (n : ℕ) (fit : List K → K) (dr : ℕ → ℕ → Draw K) (pos0 : List (List K)) (g : ℕ) :
    run { c with ngen := n } fit dr pos0 g = run c fit dr pos0 g := by
  induction g with
  | zero => rfl
  | succ g ih =>
    have e1 : ∀ w swm d ps, genSwarm { c with ngen := n } w swm d ps = genSwarm c w swm d ps := fun _ _ _ _ => rfl
    have e2 : ∀ w, nextW { c with ngen := n } g w = nextW c g w := by
      intro w
      unfold nextW
      cases hm : c.mech with
      | timew => exact absurd hm hp
      | constric => rfl
      | globw => rfl
    simp only [run, ih, gen, e1, e2]

theorem run_prefix {c : Conf K} {fit : List K → K} {dr : ℕ → ℕ → Draw K} {pos0 : List (List K)} {n n' : ℕ} (hn : n ≤ n') {s' : State K}
    (h : run c fit dr pos0 n' = .ok s') : ∃ s, run c fit dr pos0 n = .ok s ∧ s.log <+: s'.log ∧ s.scores <+: s'.scores := by
  induction n' generalizing s' with
  | zero =>
    obtain rfl : n = 0 := by omega
    exact ⟨s', h, List.prefix_refl _, List.prefix_refl _⟩
  | succ n' ih =>
    by_cases e : n = n' + 1
    · exact ⟨s', by rw [e]; exact h, List.prefix_refl _, List.prefix_refl _⟩
    simp only [run] at h
    cases hr : run c fit dr pos0 n' with
    | error e => rw [hr] at h; cases h
    | ok s1 =>
      rw [hr] at h
      obtain ⟨s, h0, h1, h2⟩ := ih (by omega) hr
      simp only [gen] at h
      split at h
      · cases h
      · split at h
        · cases h
        · split at h
          · cases h
          · cases h
            exact ⟨s, h0, h1.trans (List.prefix_append _ _), h2.trans (List.prefix_append _ _)⟩

end PSO

namespace ACO
open Neorl.ACO
variable {K : Type} [Field K] [LinearOrder K] [IsStrictOrderedRing K]

theorem run_ngen (c : Conf K) (n : ℕ) (fit : List K → K) (dr : ℕ → ℕ → ℕ → Draw K) (pos0 : List (List K)) (g : ℕ) :
    run { c with ngen := n } fit dr pos0 g = run c fit dr pos0 g := by
  induction g with
  | zero => rfl
  | succ g ih =>
    have e : ∀ s, gen { c with ngen := n } fit (dr g) s = gen c fit (dr g) s := fun _ => rfl
    simp only [run, ih, e]

theorem run_prefix {c : Conf K} {fit : List K → K} {dr : ℕ → ℕ → ℕ → Draw K} {pos0 : List (List K)} {n n' : ℕ} (hn : n ≤ n') {s' : State K}
    (h : run c fit dr pos0 n' = .ok s') :
    ∃ s, run c fit dr pos0 n = .ok s ∧ s.log <+: s'.log ∧ s.global <+: s'.global ∧ s.locals <+: s'.locals := by
  induction n' generalizing s' with
  | zero =>
    obtain rfl : n = 0 := by omega
    exact ⟨s', h, List.prefix_refl _, List.prefix_refl _, List.prefix_refl _⟩
  | succ n' ih =>
    by_cases e : n = n' + 1
    · exact ⟨s', by rw [e]; exact h, List.prefix_refl _, List.prefix_refl _, List.prefix_refl _⟩
    simp only [run] at h
    cases hr : run c fit dr pos0 n' with
    | error e => rw [hr] at h; cases h
    | ok s1 =>
      rw [hr] at h
      obtain ⟨s, h0, h1, h2, h3⟩ := ih (by omega) hr
      simp only [gen] at h
      split at h
      · cases h
      · split at h
        · cases h
        · split at h
          · cases h
            exact ⟨s, h0, h1.trans (List.prefix_append _ _), h2.trans (List.prefix_append _ _), h3.trans (List.prefix_append _ _)⟩
          · cases h
          · cases h

/-- After a generation the archive has an entry. -/
theorem run_top {c : Conf K} {fit : List K → K} {dr : ℕ → ℕ → ℕ → Draw K} {pos0 : List (List K)} {n : ℕ} (hn : n ≠ 0) {s : State K}
    (h : run c fit dr pos0 n = .ok s) : ∃ t, s.arch[0]? = some t := by
  cases n with
  | zero => exact absurd rfl hn
  | succ n =>
    simp only [run] at h
    cases hr : run c fit dr pos0 n with
    | error e => rw [hr] at h; cases h
    | ok s1 =>
      rw [hr] at h
      simp only [gen] at h
      split at h
      · cases h
      · split at h
        · cases h
        · split at h
          · rename_i top mn h1 h2
            cases h
            exact ⟨top, h1⟩
          · cases h
          · cases h

end ACO

namespace ES
open Neorl.ES
variable {K : Type} [Field K] [LinearOrder K] [IsStrictOrderedRing K] [FloorRing K]

theorem run_ngen (c : Conf K) (n : ℕ) (fit : List K → K) (dr : ℕ → ℕ → Draw K) (rl : ℕ → List (List K)) (pop0 : List (List K × List K)) (g : ℕ) :
    run { c with ngen := n } fit dr rl pop0 g = run c fit dr rl pop0 g := by
  induction g with
  | zero => rfl
  | succ g ih =>
    have e1 : ∀ d p, genOne { c with ngen := n } d p = genOne c d p := fun _ _ => rfl
    have e2 : ∀ d i k p, genLoop { c with ngen := n } d i k p = genLoop c d i k p := by
      intro d i k
      induction k generalizing i with
      | zero => intro p; rfl
      | succ k ihk => intro p; simp only [genLoop, e1, ihk]
    simp only [run, ih, gen, genOffspring, e2]

theorem run_prefix {c : Conf K} {fit : List K → K} {dr : ℕ → ℕ → Draw K} {rl : ℕ → List (List K)} {pop0 : List (List K × List K)} {n n' : ℕ} (hn : n ≤ n')
    {s' : State K} (h : run c fit dr rl pop0 n' = .ok s') : ∃ s, run c fit dr rl pop0 n = .ok s ∧ s.log <+: s'.log ∧ s.scores <+: s'.scores := by
  induction n' generalizing s' with
  | zero =>
    obtain rfl : n = 0 := by omega
    exact ⟨s', h, List.prefix_refl _, List.prefix_refl _⟩
  | succ n' ih =>
    by_cases e : n = n' + 1
    · exact ⟨s', by rw [e]; exact h, List.prefix_refl _, List.prefix_refl _⟩
    simp only [run] at h
    cases hr : run c fit dr rl pop0 n' with
    | error e => rw [hr] at h; cases h
    | ok s1 =>
      rw [hr] at h
      obtain ⟨s, h0, h1, h2⟩ := ih (by omega) hr
      simp only [gen] at h
      split at h
      · cases h
      · split at h
        · cases h
        · split at h
          · cases h
          · cases h
            exact ⟨s, h0, h1.trans (List.prefix_append _ _), h2.trans (List.prefix_append _ _)⟩

theorem run_some {c : Conf K} {fit : List K → K} {dr : ℕ → ℕ → Draw K} {rl : ℕ → List (List K)} {pop0 : List (List K × List K)} {n : ℕ} (hn : n ≠ 0) {s : State K}
    (h : run c fit dr rl pop0 n = .ok s) : ∃ b, s.best = some b := by
  cases n with
  | zero => exact absurd rfl hn
  | succ n =>
    simp only [run] at h
    cases hr : run c fit dr rl pop0 n with
    | error e => rw [hr] at h; cases h
    | ok s1 =>
      rw [hr] at h
      simp only [gen] at h
      split at h
      · cases h
      · split at h
        · cases h
        · split at h
          · cases h
          · cases h
            cases s1.best with
            | none => exact ⟨_, rfl⟩
            | some o =>
              simp only
              split_ifs
              · exact ⟨_, rfl⟩
              · exact ⟨_, rfl⟩

end ES

namespace XNES
open Neorl.XNES
variable {K : Type} [Field K] [LinearOrder K] [IsStrictOrderedRing K]

theorem scan_some {n : ℕ} (ts : List (Item K n)) (b : List K × K) : ∃ b', scan (some b) ts = some b' := by
  induction ts generalizing b with
  | nil => exact ⟨b, rfl⟩
  | cons t ts ih => exact ih _

theorem run_prefix {d : ℕ} {c : Conf K d} {fit : List K → K} {dr : ℕ → List (Fin d → K)} {o : Obj K d} {n n' : ℕ} (hn : n ≤ n') :
    (run c fit dr o n).log <+: (run c fit dr o n').log ∧ (run c fit dr o n).hist <+: (run c fit dr o n').hist := by
  induction n', hn using Nat.le_induction with
  | base => exact ⟨List.prefix_refl _, List.prefix_refl _⟩
  | succ n' hn ih => exact ⟨ih.1.trans (List.prefix_append _ _), ih.2.trans (List.prefix_append _ _)⟩

end XNES

end Neorl.Longer

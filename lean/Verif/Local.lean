import Verif.DE
import Verif.JAYA
import Verif.GWO
import Verif.Swarm
import Verif.CS
import Verif.ACO
import Verif.HHO
import Verif.BAT
import Verif.MFO
import Verif.ES
import Verif.PSO
import Verif.XNES
import Verif.SA
import Verif.TS

/-!
# The fitness is used only through the recorded evaluations

Lemmas behind C143.  No new code is modelled here: for every optimizer below the run with another fitness is compared with the recorded one.
-/

set_option linter.unusedSectionVars false
set_option linter.unusedVariables false

namespace Neorl

/-- A computation that takes a fitness and lists the points it asked for reads the fitness nowhere else: another fitness with the same values at those points gives the same
outcome. -/
def ReadsOnly {X Y R : Type} (run : (X → Y) → Py R) (asked : R → List X) : Prop :=
  ∀ (f g : X → Y) (r : R), run f = .ok r → (∀ x ∈ asked r, f x = g x) → run g = .ok r

section
variable {K : Type} [Field K] [LinearOrder K] [IsStrictOrderedRing K] [FloorRing K]

omit [FloorRing K] in
/-- Clipping twice is clipping once. -/
theorem ensureBounds_idem {bs : List (K × K)} (h : BoundsOK bs) (v : List K) : ensureBounds bs (ensureBounds bs v) = ensureBounds bs v := by
  rw [ensureBounds_eq_zipWith h, ensureBounds_eq_zipWith h]
  induction bs generalizing v with
  | nil => rfl
  | cons b bs ih =>
    cases v with
    | nil => rfl
    | cons x xs =>
      simp only [List.zipWith_cons_cons, List.cons.injEq]
      refine ⟨?_, ih (fun c hc => h c (by simp [hc])) xs⟩
      have := h b (by simp)
      unfold clamp
      rw [min_eq_left (max_le this (min_le_right _ _)), max_eq_right (le_max_left _ _)]

namespace DE

theorem select_congr {f g : List K → K} : ∀ {xs ts : List (List K)}, (∀ x ∈ xs, f x = g x) → (∀ t ∈ ts, f t = g t) → select f xs ts = select g xs ts
  | [], ts, _, _ => by cases ts <;> rfl
  | x :: xs, [], _, _ => rfl
  | x :: xs, t :: ts, h1, h2 => by
    simp only [select]
    rw [h1 x (by simp), h2 t (by simp), select_congr (fun y hy => h1 y (by simp [hy])) (fun y hy => h2 y (by simp [hy]))]

theorem gen_local {c : Conf K} {f g : List K → K} {dr : ℕ → Draw K} {rl : List (ℕ × List K)} {s s' : State K} (h : gen c f dr rl s = .ok s')
    (hl : ∀ x ∈ s'.log, f x = g x) : gen c g dr rl s = .ok s' ∧ ∀ x ∈ s.log, x ∈ s'.log := by
  unfold gen at h ⊢
  cases hs : DE.sweep c dr c.npop s.pop with
  | error e => rw [hs] at h; cases h
  | ok tt =>
    obtain ⟨targets, trials⟩ := tt
    rw [hs] at h
    simp only at h ⊢
    split at h
    · cases h
    · rename_i b hb
      cases h
      simp only [List.mem_append, List.mem_map] at hl ⊢
      have e : select (fun x => f (c.S.clip x)) targets trials = select (fun x => g (c.S.clip x)) targets trials :=
        select_congr (fun x hx => hl _ (Or.inr ⟨x, hx, rfl⟩)) (fun x hx => hl _ (Or.inl (Or.inr ⟨x, hx, rfl⟩)))
      rw [← e, hb]
      exact ⟨rfl, fun x hx => Or.inl (Or.inl hx)⟩

theorem run_local {c : Conf K} {f g : List K → K} {dr : ℕ → ℕ → Draw K} {rl : ℕ → List (ℕ × List K)} {pop0 : List (List K)} :
    ∀ {n : ℕ} {s : State K}, run c f dr rl pop0 n = .ok s → (∀ x ∈ s.log, f x = g x) → run c g dr rl pop0 n = .ok s
  | 0, s, h, hl => h
  | n + 1, s, h, hl => by
    simp only [run] at h ⊢
    split at h
    · cases h
    · rename_i s1 h1
      obtain ⟨a, b⟩ := gen_local h hl
      rw [run_local h1 fun x hx => hl x (b x hx)]
      exact a

end DE

namespace JAYA

theorem gen_local {c : Conf K} {f g : List K → K} {k : ℕ} {dr : ℕ → Draw K} {s s' : State K} (h : gen c f k dr s = .ok s')
    (hl : ∀ x ∈ s'.log, f x = g x) : gen c g k dr s = .ok s' ∧ ∀ x ∈ s.log, x ∈ s'.log := by
  unfold gen at h ⊢
  split at h
  · rename_i b w hb hw
    split at h
    · cases h
    · rename_i new hnew
      simp only at h
      split at h
      · cases h
      · rename_i mx hmx
        cases h
        simp only [List.mem_append] at hl ⊢
        have e : new.map f = new.map g := List.map_congr_left fun x hx => hl x (Or.inr hx)
        have e2 : new.map (fun x => (x, f x)) = new.map (fun x => (x, g x)) := List.map_congr_left fun x hx => by rw [hl x (Or.inr hx)]
        rw [← e, ← e2, hmx]
        exact ⟨rfl, fun x hx => Or.inl hx⟩
  · cases h

theorem run_local {c : Conf K} {f g : List K → K} {dr : ℕ → ℕ → Draw K} {pos0 : List (List K)} :
    ∀ {n : ℕ} {s : State K}, run c f dr pos0 n = .ok s → (∀ x ∈ s.log, f x = g x) → run c g dr pos0 n = .ok s
  | 0, s, h, hl => by
    simp only [run, init] at h ⊢
    split at h
    · cases h
    · rename_i v vs hv
      cases h
      rw [← (List.map_congr_left hl : pos0.map f = pos0.map g), hv]
  | n + 1, s, h, hl => by
    simp only [run] at h ⊢
    split at h
    · cases h
    · rename_i s1 h1
      obtain ⟨a, b⟩ := gen_local h hl
      rw [run_local h1 fun x hx => hl x (b x hx)]
      exact a

end JAYA

namespace GWO

theorem gen_local {c : Conf K} {f g : List K → K} {k : ℕ} {dr : Draw K} {s s' : State K} (h : gen c f k dr s = .ok s')
    (hl : ∀ x ∈ s'.log, f x = g x) : gen c g k dr s = .ok s' ∧ ∀ x ∈ s.log, x ∈ s'.log := by
  unfold gen at h ⊢
  simp only at h ⊢
  split at h
  · cases h
  · rename_i a ha
    split at h
    · cases h
    · rename_i pos' hp
      cases h
      simp only [List.mem_append, List.mem_map] at hl ⊢
      have key : ∀ p ∈ s.pos, f (c.S.clip p) = g (c.S.clip p) := fun p hp => hl _ (Or.inr ⟨p, hp, rfl⟩)
      have e1 : leadAll (fun p => f (c.S.clip p)) s.lead s.pos = leadAll (fun p => g (c.S.clip p)) s.lead s.pos := leadAll_congr key _
      have e2 : updAll (fun p => f (c.S.clip p)) s.best s.pos = updAll (fun p => g (c.S.clip p)) s.best s.pos := updAll_congr key _
      have e3 : s.pos.map (fun p => (p, f (c.S.clip p))) = s.pos.map (fun p => (p, g (c.S.clip p))) := List.map_congr_left fun p hp => by rw [key p hp]
      rw [← e1, ← e2, ← e3, hp]
      exact ⟨rfl, fun x hx => Or.inl hx⟩

theorem run_local {c : Conf K} {f g : List K → K} {dr : ℕ → Draw K} {pos0 : List (List K)} :
    ∀ {n : ℕ} {s : State K}, run c f dr pos0 n = .ok s → (∀ x ∈ s.log, f x = g x) → run c g dr pos0 n = .ok s
  | 0, s, h, hl => h
  | n + 1, s, h, hl => by
    simp only [run] at h ⊢
    split at h
    · cases h
    · rename_i s1 h1
      obtain ⟨a, b⟩ := gen_local h hl
      rw [run_local h1 fun x hx => hl x (b x hx)]
      exact a

end GWO

namespace Swarm

theorem gen_local {S : Space K} {mv : Move K} {f g : List K → K} {k : ℕ} {s s' : State K} (h : gen S mv f k s = .ok s')
    (hl : ∀ x ∈ s'.log, f x = g x) : gen S mv g k s = .ok s' ∧ (∀ x ∈ s.log, x ∈ s'.log) ∧ ∀ p ∈ s'.pos, S.clip p ∈ s'.log := by
  unfold gen at h ⊢
  simp only at h ⊢
  split at h
  · cases h
  · rename_i pos hp
    split at h
    · cases h
    · rename_i l hsel
      cases h
      simp only [List.mem_append, List.mem_map] at hl ⊢
      have key : ∀ p ∈ pos, f (S.clip p) = g (S.clip p) := fun p hp => hl _ (Or.inr ⟨p, hp, rfl⟩)
      have e1 : better (fun p => f (S.clip p)) s.best pos = better (fun p => g (S.clip p)) s.best pos := better_congr key _
      have e2 : select (fun p => f (S.clip p)) pos = select (fun p => g (S.clip p)) pos := select_congr key
      rw [← e1, ← e2, hsel]
      exact ⟨rfl, fun x hx => Or.inl hx, fun p hp => Or.inr ⟨p, hp, rfl⟩⟩

theorem run_local {S : Space K} {mv : Move K} {f g : List K → K} {pos0 : List (List K)} :
    ∀ {n : ℕ} {s : State K}, run S mv f pos0 n = .ok s → (∀ x ∈ s.log, f x = g x) → run S mv g pos0 n = .ok s ∧ ∀ p ∈ s.pos, S.clip p ∈ s.log
  | 0, s, h, hl => by
    simp only [run] at h ⊢
    split at h
    · cases h
    · rename_i b hb
      cases h
      simp only [List.mem_map] at hl ⊢
      rw [← (select_congr fun p hp => hl _ ⟨p, hp, rfl⟩ : select (fun p => f (S.clip p)) pos0 = select (fun p => g (S.clip p)) pos0), hb]
      exact ⟨rfl, fun p hp => ⟨p, hp, rfl⟩⟩
  | n + 1, s, h, hl => by
    simp only [run] at h ⊢
    split at h
    · cases h
    · rename_i s1 h1
      obtain ⟨a, b, d⟩ := gen_local h hl
      rw [(run_local h1 fun x hx => hl x (b x hx)).1]
      exact ⟨a, d⟩

end Swarm

namespace CS

theorem accept_congr {f g : List K → K} : ∀ {qs : List (List K × K)} {ps : List (List K)}, (∀ p ∈ ps, f p = g p) → accept f qs ps = accept g qs ps
  | [], ps, _ => by cases ps <;> rfl
  | q :: qs, [], _ => rfl
  | q :: qs, p :: ps, h => by
    simp only [accept]
    rw [h p (by simp), accept_congr fun y hy => h y (by simp [hy])]

theorem gen_local {c : Conf K} {f g : List K → K} {k : ℕ} {d : Draw K} {s s' : State K} (h : gen c f k d s = .ok s')
    (hl : ∀ x ∈ s'.log, f x = g x) : gen c g k d s = .ok s' ∧ ∀ x ∈ s.log, x ∈ s'.log := by
  unfold gen at h ⊢
  simp only at h ⊢
  split at h
  · cases h
  · rename_i new1 h1
    split at h
    · cases h
    · rename_i new2 h2
      split at h
      · cases h
      · rename_i q qs hq
        cases h
        simp only [List.mem_append, List.mem_map] at hl ⊢
        have e1 : ∀ ns, accept (fun p => f (c.S.clip p)) ns new1 = accept (fun p => g (c.S.clip p)) ns new1 :=
          fun ns => accept_congr fun p hp => hl _ (Or.inl (Or.inr ⟨p, hp, rfl⟩))
        have e2 : ∀ ns, accept (fun p => f (c.S.clip p)) ns new2 = accept (fun p => g (c.S.clip p)) ns new2 :=
          fun ns => accept_congr fun p hp => hl _ (Or.inr ⟨p, hp, rfl⟩)
        rw [← e1, ← e2, hq]
        exact ⟨rfl, fun x hx => Or.inl (Or.inl hx)⟩

theorem run_local {c : Conf K} {f g : List K → K} {dr : ℕ → Draw K} {pos0 : List (List K)} :
    ∀ {n : ℕ} {s : State K}, run c f dr pos0 n = .ok s → (∀ x ∈ s.log, f x = g x) → run c g dr pos0 n = .ok s
  | 0, s, h, hl => by
    simp only [run] at h ⊢
    split at h
    · cases h
    · rename_i q qs hq
      cases h
      simp only [List.mem_map] at hl
      have e : pos0.map (fun p => (p, f (c.S.clip p))) = pos0.map (fun p => (p, g (c.S.clip p))) := List.map_congr_left fun p hp => by rw [hl _ ⟨p, hp, rfl⟩]
      rw [← e, hq]
  | n + 1, s, h, hl => by
    simp only [run] at h ⊢
    split at h
    · cases h
    · rename_i s1 h1
      obtain ⟨a, b⟩ := gen_local h hl
      rw [run_local h1 fun x hx => hl x (b x hx)]
      exact a

end CS

namespace ACO

theorem gen_local {c : Conf K} {f g : List K → K} {dr : ℕ → ℕ → Draw K} {s s' : State K} (h : gen c f dr s = .ok s')
    (hl : ∀ x ∈ s'.log, f x = g x) : gen c g dr s = .ok s' ∧ ∀ x ∈ s.log, x ∈ s'.log := by
  unfold gen at h ⊢
  split at h
  · cases h
  · rename_i hn
    rw [if_neg hn]
    split at h
    · cases h
    · rename_i new hnew
      simp only at h
      split at h
      · rename_i top mn ht hm
        cases h
        simp only [List.mem_append] at hl ⊢
        have e : new.map f = new.map g := List.map_congr_left fun x hx => hl x (Or.inr hx)
        have e2 : new.map (fun x => (x, f x)) = new.map (fun x => (x, g x)) := List.map_congr_left fun x hx => by rw [hl x (Or.inr hx)]
        rw [← e, ← e2, ht, hm]
        exact ⟨rfl, fun x hx => Or.inl hx⟩
      · cases h
      · cases h

theorem run_local {c : Conf K} {f g : List K → K} {dr : ℕ → ℕ → ℕ → Draw K} {pos0 : List (List K)} :
    ∀ {n : ℕ} {s : State K}, run c f dr pos0 n = .ok s → (∀ x ∈ s.log, f x = g x) → run c g dr pos0 n = .ok s
  | 0, s, h, hl => by
    simp only [run] at h ⊢
    cases h
    rw [(List.map_congr_left fun p hp => by rw [hl p hp] : pos0.map (fun p => (p, f p)) = pos0.map (fun p => (p, g p)))]
  | n + 1, s, h, hl => by
    simp only [run] at h ⊢
    split at h
    · cases h
    · rename_i s1 h1
      obtain ⟨a, b⟩ := gen_local h hl
      rw [run_local h1 fun x hx => hl x (b x hx)]
      exact a

end ACO

namespace HHO

theorem dive_local {c : Conf K} {f g : List K → K} {t : ℕ} {E : K} {d : Draw K} {rabbit : List K} {hf : K} {pop : List (List K)} {row : List K}
    {r : List K × List (List K)} (h : dive c f t E d rabbit hf pop row = .ok r) (hl : ∀ x ∈ r.2, f x = g x) : dive c g t E d rabbit hf pop row = .ok r := by
  unfold dive at h ⊢
  split at h
  · cases h
  · rename_i Y hY
    split at h
    · rename_i hlt
      cases h
      simp only [List.mem_singleton, forall_eq] at hl
      rw [← hl, if_pos hlt]
    · rename_i hlt
      split at h
      · cases h
      · rename_i Z hZ
        split at h
        · rename_i hz
          cases h
          simp only [List.mem_cons, List.not_mem_nil, or_false, forall_eq_or_imp, forall_eq] at hl
          rw [← hl.1, ← hl.2, if_neg hlt, if_pos hz]
        · rename_i hz
          cases h
          simp only [List.mem_cons, List.not_mem_nil, or_false, forall_eq_or_imp, forall_eq] at hl
          rw [← hl.1, ← hl.2, if_neg hlt, if_neg hz]

theorem updTo_local {c : Conf K} {f g : List K → K} {t : ℕ} {E1 : K} {dr : ℕ → Draw K} {rabbit : List K} {fits : List K} {pop : List (List K)} :
    ∀ {n : ℕ} {r : List (List K) × List (List K)}, updTo c f t E1 dr rabbit fits n pop = .ok r → (∀ x ∈ r.2, f x = g x) →
      updTo c g t E1 dr rabbit fits n pop = .ok r
  | 0, r, h, hl => h
  | n + 1, r, h, hl => by
    simp only [updTo] at h ⊢
    split at h
    · cases h
    · rename_i p ev hp
      split at h
      · rename_i row hf hrow hhf
        split at h
        · cases h
        · rename_i row' ev' hu
          cases h
          simp only [List.mem_append] at hl
          rw [updTo_local hp fun x hx => hl x (Or.inl hx)]
          simp only [hrow, hhf]
          have : updHawk c g t E1 (dr n) rabbit hf p row = .ok (row', ev') := by
            unfold updHawk at hu ⊢
            simp only at hu ⊢
            split_ifs at hu ⊢ with h1 h2
            · exact hu
            · exact hu
            · exact dive_local hu fun x hx => hl x (Or.inr hx)
          rw [this]
      · cases h

theorem gen_local {c : Conf K} {f g : List K → K} {t : ℕ} {dr : ℕ → Draw K} {s s' : State K} (h : gen c f t dr s = .ok s')
    (hl : ∀ x ∈ s'.early ++ s'.dives, f x = g x) : gen c g t dr s = .ok s' ∧ ∀ x ∈ s.early ++ s.dives, x ∈ s'.early ++ s'.dives := by
  unfold gen at h ⊢
  split at h
  · cases h
  · rename_i E1 hE
    simp only at h
    split at h
    · cases h
    · rename_i b hb
      split at h
      · cases h
      · rename_i p ev hp
        split at h
        · cases h
        · rename_i pos' hpos
          cases h
          simp only [List.mem_append, List.mem_map] at hl ⊢
          have key : ∀ p ∈ s.pos, f (c.S.clip p) = g (c.S.clip p) := fun p hp => hl _ (Or.inl (Or.inr ⟨p, hp, rfl⟩))
          have e1 : updAll (fun p => f (c.S.clip p)) s.rabbit s.pos = updAll (fun p => g (c.S.clip p)) s.rabbit s.pos := updAll_congr key _
          have e2 : Swarm.select (fun p => f (c.S.clip p)) s.pos = Swarm.select (fun p => g (c.S.clip p)) s.pos := Swarm.select_congr key
          have e3 : s.pos.map (fun p => (p, f (c.S.clip p))) = s.pos.map (fun p => (p, g (c.S.clip p))) := List.map_congr_left fun p hp => by rw [key p hp]
          have e4 : s.pos.map (fun p => f (c.S.clip p)) = s.pos.map (fun p => g (c.S.clip p)) := List.map_congr_left key
          rw [← e2, hb, ← e1, ← e3, ← e4]
          simp only
          rw [updTo_local hp fun x hx => hl x (Or.inr hx)]
          simp only
          rw [hpos]
          refine ⟨rfl, fun x hx => ?_⟩
          tauto

theorem run_local {c : Conf K} {f g : List K → K} {dr : ℕ → ℕ → Draw K} {pos0 : List (List K)} :
    ∀ {n : ℕ} {s : State K}, run c f dr pos0 n = .ok s → (∀ x ∈ s.early ++ s.dives, f x = g x) → run c g dr pos0 n = .ok s
  | 0, s, h, hl => h
  | n + 1, s, h, hl => by
    simp only [run] at h ⊢
    split at h
    · cases h
    · rename_i s1 h1
      obtain ⟨a, b⟩ := gen_local h hl
      rw [run_local h1 fun x hx => hl x (b x hx)]
      exact a

end HHO

namespace BAT

theorem stage_local {c : Conf K} {f g : List K → K} {mv : List K → ℕ → List (List K) → List K → Py (List K)} {pos : List (List K)} {best : WithTop K × List K}
    {r : List (List K) × (K × List K) × (WithTop K × List K)} (h : stage c f mv pos best = .ok r) (hl : ∀ p ∈ r.1, f (c.S.clip p) = g (c.S.clip p)) :
    stage c g mv pos best = .ok r := by
  unfold stage at h ⊢
  split at h
  · cases h
  · rename_i pos' hp
    split at h
    · cases h
    · rename_i s hs
      cases h
      simp only at hl ⊢
      have e2 : Swarm.select (fun p => f (c.S.clip p)) pos' = Swarm.select (fun p => g (c.S.clip p)) pos' := Swarm.select_congr hl
      rw [← e2, hs]

theorem gen_local {c : Conf K} {f g : List K → K} {l : ℕ} {dr : ℕ → Draw K} {s s' : State K} (h : gen c f l dr s = .ok s')
    (hl : ∀ x ∈ s'.log0 ++ s'.log, f x = g x) :
    gen c g l dr s = .ok s' ∧ (∀ x ∈ s.log0 ++ s.log, x ∈ s'.log0 ++ s'.log) ∧ ∀ p ∈ s'.pos, c.S.clip p ∈ s'.log0 ++ s'.log := by
  unfold gen at h ⊢
  split at h
  · cases h
  · rename_i p1 s1 b1 h1
    split at h
    · cases h
    · rename_i p2 s2 b2 h2
      split at h
      · cases h
      · rename_i p3 s3 b3 h3
        cases h
        simp only [List.mem_append, List.mem_map] at hl ⊢
        rw [stage_local h1 fun p hp => hl _ (Or.inr (Or.inr (Or.inl (Or.inl ⟨p, hp, rfl⟩))))]
        simp only
        rw [stage_local h2 fun p hp => hl _ (Or.inr (Or.inr (Or.inl (Or.inr ⟨p, hp, rfl⟩))))]
        simp only
        rw [stage_local h3 fun p hp => hl _ (Or.inr (Or.inr (Or.inr ⟨p, hp, rfl⟩)))]
        refine ⟨rfl, fun x hx => ?_, fun p hp => Or.inr (Or.inr (Or.inr ⟨p, hp, rfl⟩))⟩
        tauto

theorem run_local {c : Conf K} {f g : List K → K} {dr : ℕ → ℕ → Draw K} {pos0 : List (List K)} :
    ∀ {n : ℕ} {s : State K}, run c f dr pos0 n = .ok s → (∀ x ∈ s.log0 ++ s.log, f x = g x) →
      run c g dr pos0 n = .ok s ∧ ∀ p ∈ s.pos, c.S.clip p ∈ s.log0 ++ s.log
  | 0, s, h, hl => by
    simp only [run] at h ⊢
    split at h
    · cases h
    · rename_i b hb
      cases h
      simp only [List.append_nil, List.mem_map] at hl ⊢
      have e2 : Swarm.select (fun p => f (c.S.clip p)) pos0 = Swarm.select (fun p => g (c.S.clip p)) pos0 := Swarm.select_congr fun p hp => hl _ ⟨p, hp, rfl⟩
      rw [← e2, hb]
      exact ⟨rfl, fun p hp => ⟨p, hp, rfl⟩⟩
  | n + 1, s, h, hl => by
    simp only [run] at h ⊢
    split at h
    · cases h
    · rename_i s1 h1
      obtain ⟨a, b, d⟩ := gen_local h hl
      rw [(run_local h1 fun x hx => hl x (b x hx)).1]
      exact ⟨a, d⟩

end BAT

namespace MFO

theorem gen_local {c : Conf K} {f g : List K → K} {k : ℕ} {dr : ℕ → Draw K} {s s' : State K} (h : gen c f k dr s = .ok s')
    (hl : ∀ x ∈ s'.log, f x = g x) : gen c g k dr s = .ok s' ∧ ∀ x ∈ s.log, x ∈ s'.log := by
  unfold gen at h ⊢
  simp only at h ⊢
  split at h
  · cases h
  · rename_i top ht
    split at h
    · cases h
    · rename_i r hr
      split at h
      · cases h
      · rename_i pos hp
        cases h
        simp only [List.mem_append, List.mem_map] at hl ⊢
        have key : ∀ p ∈ s.pos, f (c.S.clip p) = g (c.S.clip p) := fun p hp => hl _ (Or.inr ⟨p, hp, rfl⟩)
        have e2 : updAll (fun p => f (c.S.clip p)) s.best s.pos = updAll (fun p => g (c.S.clip p)) s.best s.pos := updAll_congr key _
        have e3 : s.pos.map (fun p => (p, f (c.S.clip p))) = s.pos.map (fun p => (p, g (c.S.clip p))) := List.map_congr_left fun p hp => by rw [key p hp]
        rw [← e2, ← e3, ht]
        simp only
        rw [hp]
        exact ⟨rfl, fun x hx => Or.inl hx⟩

theorem run_local {c : Conf K} {f g : List K → K} {dr : ℕ → ℕ → Draw K} {pos0 : List (List K)} :
    ∀ {n : ℕ} {s : State K}, run c f dr pos0 n = .ok s → (∀ x ∈ s.log, f x = g x) → run c g dr pos0 n = .ok s
  | 0, s, h, hl => h
  | n + 1, s, h, hl => by
    simp only [run] at h ⊢
    split at h
    · cases h
    · rename_i s1 h1
      obtain ⟨a, b⟩ := gen_local h hl
      rw [run_local h1 fun x hx => hl x (b x hx)]
      exact a

end MFO

namespace ES

theorem gen_local {c : Conf K} {f g : List K → K} {dr : ℕ → Draw K} {rl : List (List K)} {s s' : State K} (h : gen c f dr rl s = .ok s')
    (hl : ∀ x ∈ s'.log, f x = g x) : gen c g dr rl s = .ok s' ∧ ∀ x ∈ s.log, x ∈ s'.log := by
  unfold gen at h ⊢
  split at h
  · cases h
  · rename_i os ho
    simp only at h
    split at h
    · cases h
    · rename_i pop hp
      split at h
      · cases h
      · rename_i b hb
        cases h
        simp only [List.mem_append, List.mem_map] at hl ⊢
        have key : ∀ o ∈ os, f o.1 = g o.1 := fun o ho => hl _ (Or.inr ⟨o, ho, rfl⟩)
        have e2 : os.map (fun o => ({ ind := o.1, strat := o.2, fit := f o.1 } : Ind K)) = os.map (fun o => ({ ind := o.1, strat := o.2, fit := g o.1 } : Ind K)) :=
          List.map_congr_left fun o ho => by rw [key o ho]
        have e3 : os.map (fun o => (o.1, f o.1)) = os.map (fun o => (o.1, g o.1)) := List.map_congr_left fun o ho => by rw [key o ho]
        rw [← e2, ← e3, hp]
        simp only
        rw [hb]
        exact ⟨rfl, fun x hx => Or.inl hx⟩

theorem run_local {c : Conf K} {f g : List K → K} {dr : ℕ → ℕ → Draw K} {rl : ℕ → List (List K)} {pop0 : List (List K × List K)}
    (h0 : ∀ p ∈ pop0, f p.1 = g p.1) :
    ∀ {n : ℕ} {s : State K}, run c f dr rl pop0 n = .ok s → (∀ x ∈ s.log, f x = g x) → run c g dr rl pop0 n = .ok s
  | 0, s, h, hl => by
    simp only [run] at h ⊢
    have e2 : pop0.map (fun o => ({ ind := o.1, strat := o.2, fit := f o.1 } : Ind K)) = pop0.map (fun o => ({ ind := o.1, strat := o.2, fit := g o.1 } : Ind K)) :=
      List.map_congr_left fun o ho => by rw [h0 o ho]
    rw [← e2, h]
  | n + 1, s, h, hl => by
    simp only [run] at h ⊢
    split at h
    · cases h
    · rename_i s1 h1
      obtain ⟨a, b⟩ := gen_local h hl
      rw [run_local h0 h1 fun x hx => hl x (b x hx)]
      exact a

end ES

namespace PSO

theorem evalLoop_congr {f g : List K → K} : ∀ {ps : List (List K)} {ls : List (List K × K)} {b : List K × K}, (∀ p ∈ ps, f p = g p) →
    evalLoop f ps ls b = evalLoop g ps ls b
  | [], ls, b, _ => by cases ls <;> rfl
  | p :: ps, [], b, _ => rfl
  | p :: ps, l :: ls, b, h => by
    simp only [evalLoop]
    rw [h p (by simp)]
    simp only [evalLoop_congr fun y hy => h y (List.mem_cons_of_mem _ hy)]

theorem gen_local {c : Conf K} {f g : List K → K} {k : ℕ} {dr : ℕ → Draw K} {s s' : State K} (h : gen c f k dr s = .ok s')
    (hl : ∀ x ∈ s'.log, f x = g x) : gen c g k dr s = .ok s' ∧ (∀ x ∈ s.log, x ∈ s'.log) ∧ ∀ p ∈ s'.swarm, c.S.clip p.pos ∈ s'.log := by
  unfold gen at h ⊢
  simp only at h ⊢
  split at h
  · cases h
  · rename_i off ho
    split at h
    · cases h
    · rename_i w hw
      split at h
      · cases h
      · rename_i mx hm
        cases h
        simp only [List.mem_append, List.mem_map] at hl ⊢
        have key : ∀ x ∈ off.map (fun p => p.pos), f (c.S.clip x) = g (c.S.clip x) := fun x hx => hl _ (Or.inr ⟨x, List.mem_map.1 hx, rfl⟩)
        have e1 : (off.map fun p => p.pos).map (fun p => f (c.S.clip p)) = (off.map fun p => p.pos).map (fun p => g (c.S.clip p)) := List.map_congr_left key
        have e2 : evalLoop (fun p => f (c.S.clip p)) (off.map fun p => p.pos) s.mem s.swm = evalLoop (fun p => g (c.S.clip p)) (off.map fun p => p.pos) s.mem s.swm :=
          evalLoop_congr key
        rw [← e1, ← e2, hm]
        exact ⟨rfl, fun x hx => Or.inl hx, fun p hp => Or.inr ⟨p.pos, ⟨p, hp, rfl⟩, rfl⟩⟩

theorem run_local {c : Conf K} {f g : List K → K} {dr : ℕ → ℕ → Draw K} {pos0 : List (List K)} :
    ∀ {n : ℕ} {s : State K}, run c f dr pos0 n = .ok s → (∀ x ∈ s.log, f x = g x) → run c g dr pos0 n = .ok s ∧ ∀ p ∈ s.swarm, c.S.clip p.pos ∈ s.log
  | 0, s, h, hl => by
    simp only [run, init] at h ⊢
    split at h
    · cases h
    · rename_i b hb
      cases h
      simp only [List.mem_map] at hl ⊢
      have e : pos0.map (fun p => (p, f (c.S.clip p))) = pos0.map (fun p => (p, g (c.S.clip p))) := List.map_congr_left fun p hp => by rw [hl _ ⟨p, hp, rfl⟩]
      rw [← e, hb]
      refine ⟨rfl, ?_⟩
      rintro p ⟨q, hq, rfl⟩
      exact ⟨q, hq, rfl⟩
  | n + 1, s, h, hl => by
    simp only [run] at h ⊢
    split at h
    · cases h
    · rename_i s1 h1
      obtain ⟨a, b, d⟩ := gen_local h hl
      rw [(run_local h1 fun x hx => hl x (b x hx)).1]
      exact ⟨a, d⟩

end PSO

namespace XNES

theorem run_local {n : ℕ} {c : Conf K n} {f g : List K → K} {dr : ℕ → List (Fin n → K)} {o : Obj K n} :
    ∀ {k : ℕ}, (∀ x ∈ (run c f dr o k).log, f x = g x) → run c g dr o k = run c f dr o k
  | 0, hl => rfl
  | k + 1, hl => by
    simp only [run] at hl ⊢
    have hl1 : ∀ x ∈ (run c f dr o k).log, f x = g x := fun x hx => hl x (by simp only [gen, List.mem_append]; exact Or.inl hx)
    rw [run_local hl1]
    have e : (dr k).map (fun s => let z := sample c (run c f dr o k).mu (run c f dr o k).sigma (run c f dr o k).bmat s; (⟨f z, s, z⟩ : Item K n)) =
        (dr k).map (fun s => let z := sample c (run c f dr o k).mu (run c f dr o k).sigma (run c f dr o k).bmat s; (⟨g z, s, z⟩ : Item K n)) := by
      refine List.map_congr_left fun s hs => ?_
      simp only
      rw [hl _ (by simp only [gen, List.mem_append, List.map_map]; exact Or.inr (List.mem_map.2 ⟨s, hs, rfl⟩))]
    simp only [gen]
    simp only at e
    rw [e]

end XNES

namespace TS

theorem finish_log (s : State K) (v : K) : (finish s v).log = s.log := rfl

theorem gen_local {c : Conf K} {f g : List K → K} {d : ℕ → K × ℕ} {s s' : State K} (h : gen c f d s = .ok s')
    (hl : ∀ x ∈ s'.log, f x = g x) : gen c g d s = .ok s' ∧ ∀ x ∈ s.log, x ∈ s'.log := by
  have grow : ∃ cands ext, candidates c d s.pos = .ok cands ∧ s'.log = s.log ++ cands.map c.S.clip ++ ext := by
    unfold gen at h
    split at h
    · cases h
    · rename_i cands hc
      refine ⟨cands, ?_⟩
      simp only at h
      split at h
      · cases h
      · split at h
        · cases h
        · cases h
          exact ⟨[], hc, by simp [finish_log]⟩
      · split at h
        · cases h
          exact ⟨[], hc, by simp [finish_log]⟩
        · cases h
      · split at h
        · cases h
          exact ⟨_, hc, finish_log _ _⟩
        · cases h
  obtain ⟨cands, ext, hc, hlog⟩ := grow
  rw [hlog] at hl ⊢
  simp only [List.mem_append, List.mem_map] at hl ⊢
  have key : ∀ p ∈ cands, f (c.S.clip p) = g (c.S.clip p) := fun p hp => hl _ (Or.inl (Or.inr ⟨p, hp, rfl⟩))
  refine ⟨?_, fun x hx => Or.inl (Or.inl hx)⟩
  rw [← h]
  unfold gen
  rw [hc]
  simp only
  rw [(List.map_congr_left key : cands.map (fun x => f (c.S.clip x)) = cands.map (fun x => g (c.S.clip x)))]
  split
  · rfl
  · rfl
  · rfl
  · rename_i b hb
    cases hx : cands[b]? with
    | none => rfl
    | some x => simp only [key x (List.mem_of_getElem? hx)]

theorem run_local {c : Conf K} {f g : List K → K} {dr : ℕ → ℕ → K × ℕ} {x0 : List K} :
    ∀ {n : ℕ} {s : State K}, run c f dr x0 n = .ok s → (∀ x ∈ s.log, f x = g x) → run c g dr x0 n = .ok s
  | 0, s, h, hl => by
    simp only [run, init] at h ⊢
    cases h
    simp only [List.mem_singleton, forall_eq] at hl
    rw [hl]
  | n + 1, s, h, hl => by
    simp only [run] at h ⊢
    split at h
    · cases h
    · rename_i s1 h1
      obtain ⟨a, b⟩ := gen_local h hl
      rw [run_local h1 fun x hx => hl x (b x hx)]
      exact a

end TS

namespace SA

theorem chainStep_trace (S : Space K) (f : List K → K) (accP : K → K → K) (temp : ℕ → K) (d : Draw K) (k : ℕ) (s : Chain K) :
    ∃ y, (chainStep S f accP temp d k s).trace = s.trace ++ [⟨k, s.x, S.clip (d.mv k s.x), y⟩] := by
  unfold chainStep
  simp only
  split_ifs <;> exact ⟨_, rfl⟩

theorem chainLoop_trace (S : Space K) (f : List K → K) (accP : K → K → K) (temp : ℕ → K) (d : Draw K) :
    ∀ (n k : ℕ) (s : Chain K), ∀ e ∈ s.trace, e ∈ (chainLoop S f accP temp d n k s).trace
  | 0, k, s, e, he => he
  | n + 1, k, s, e, he => by
    simp only [chainLoop]
    refine chainLoop_trace S f accP temp d n (k + 1) _ e ?_
    obtain ⟨y, hy⟩ := chainStep_trace S f accP temp d k s
    rw [hy]
    exact List.mem_append_left _ he

theorem chainLoop_local {S : Space K} {f g : List K → K} {accP : K → K → K} {temp : ℕ → K} {d : Draw K} :
    ∀ {n k : ℕ} {s : Chain K}, (∀ e ∈ (chainLoop S f accP temp d n k s).trace, f (S.clip e.cand) = g (S.clip e.cand)) →
      chainLoop S g accP temp d n k s = chainLoop S f accP temp d n k s
  | 0, k, s, h => rfl
  | n + 1, k, s, h => by
    simp only [chainLoop] at h ⊢
    have : chainStep S g accP temp d k s = chainStep S f accP temp d k s := by
      obtain ⟨y, hy⟩ := chainStep_trace S f accP temp d k s
      have := h ⟨k, s.x, S.clip (d.mv k s.x), y⟩ (chainLoop_trace _ _ _ _ _ _ _ _ _ (by rw [hy]; simp))
      simp only at this
      unfold chainStep
      simp only [this]
    rw [this]
    exact chainLoop_local h

theorem chains_local {c : Conf K} {f g : List K → K} {gd : GDraw K} {k : ℕ} {st : List (List K × K)}
    (h : ∀ s ∈ chains c f gd k st, ∀ e ∈ s.trace, f (c.S.clip e.cand) = g (c.S.clip e.cand)) : chains c g gd k st = chains c f gd k st := by
  unfold chains at h ⊢
  refine List.ext_getElem (by simp) fun i h1 h2 => ?_
  simp only [List.getElem_mapIdx]
  refine chainLoop_local ?_
  have := h _ (List.getElem_mem h2)
  simp only [List.getElem_mapIdx] at this
  exact this

theorem gen_local {c : Conf K} {f g : List K → K} {gd : GDraw K} {s s' : State K} (h : gen c f gd s = .ok s')
    (hl : ∀ x ∈ s'.log, f (c.S.clip x) = g (c.S.clip x)) : gen c g gd s = .ok s' ∧ ∀ x ∈ s.log, x ∈ s'.log := by
  by_cases hst : s.stopped = true
  · unfold gen at h ⊢
    rw [if_pos hst] at h ⊢
    cases h
    exact ⟨rfl, fun x hx => hx⟩
  · have grow : s'.log = s.log ++ (chains c f gd s.step0 s.starts).flatMap (fun s : Chain K => s.trace.map (fun e : Entry K => e.cand)) := by
      unfold gen at h
      rw [if_neg hst] at h
      simp only at h
      split at h
      · cases h
      · split at h
        · cases h
        · split at h
          · cases h; rfl
          · split at h
            · cases h
            · cases h; rfl
    rw [grow] at hl ⊢
    simp only [List.mem_append, List.mem_flatMap, List.mem_map] at hl ⊢
    have e : chains c g gd s.step0 s.starts = chains c f gd s.step0 s.starts :=
      chains_local fun ch hch e he => hl _ (Or.inr ⟨ch, hch, e, he, rfl⟩)
    refine ⟨?_, fun x hx => Or.inl hx⟩
    rw [← h]
    unfold gen
    rw [e]

theorem run_local {c : Conf K} {f g : List K → K} {dr : ℕ → GDraw K} {x0 : List (List K)} :
    ∀ {n : ℕ} {s : State K}, run c f dr x0 n = .ok s → (∀ x ∈ s.log, f (c.S.clip x) = g (c.S.clip x)) → (∀ x ∈ x0, f (c.S.clip x) = g (c.S.clip x)) →
      run c g dr x0 n = .ok s
  | 0, s, h, hl, h0 => by
    simp only [run, init] at h ⊢
    cases h
    rw [(List.map_congr_left fun p hp => by rw [h0 p hp] : x0.map (fun x => (x, f (c.S.clip x))) = x0.map (fun x => (x, g (c.S.clip x))))]
  | n + 1, s, h, hl, h0 => by
    simp only [run] at h ⊢
    split at h
    · cases h
    · rename_i s1 h1
      obtain ⟨a, b⟩ := gen_local h hl
      rw [run_local h1 (fun x hx => hl x (b x hx)) h0]
      exact a

/-- The clipped starting points and all candidates are logged, and the candidates are clipped. -/
theorem run_log {c : Conf K} {f : List K → K} {dr : ℕ → GDraw K} {x0 : List (List K)} :
    ∀ {n : ℕ} {s : State K}, run c f dr x0 n = .ok s → (∀ x ∈ x0, c.S.clip x ∈ s.log) ∧ ∀ z ∈ s.log, ∃ y, z = c.S.clip y
  | 0, s, h => by
    simp only [run, init] at h
    cases h
    exact ⟨fun x hx => List.mem_map.2 ⟨x, hx, rfl⟩, fun z hz => by obtain ⟨y, _, rfl⟩ := List.mem_map.1 hz; exact ⟨y, rfl⟩⟩
  | n + 1, s, h => by
    simp only [run] at h
    split at h
    · cases h
    · rename_i s1 h1
      obtain ⟨a, b⟩ := run_log h1
      have tr : ∀ (f : List K → K) (gd : GDraw K) (k : ℕ) (st : List (List K × K)), ∀ ch ∈ chains c f gd k st, ∀ e ∈ ch.trace, ∃ y, e.cand = c.S.clip y := by
        intro f gd k st ch hch
        have loop : ∀ (temp : ℕ → K) (d : Draw K) (n k : ℕ) (ch : Chain K), (∀ e ∈ ch.trace, ∃ y, e.cand = c.S.clip y) →
            ∀ e ∈ (chainLoop c.S f c.accP temp d n k ch).trace, ∃ y, e.cand = c.S.clip y := by
          intro temp d n
          induction n with
          | zero => intro k ch h; exact h
          | succ n ih =>
            intro k ch h
            simp only [chainLoop]
            refine ih _ _ fun e he => ?_
            obtain ⟨y, hy⟩ := chainStep_trace c.S f c.accP temp d k ch
            rw [hy] at he
            rcases List.mem_append.1 he with he | he
            · exact h e he
            · rw [List.mem_singleton.1 he]; exact ⟨_, rfl⟩
        unfold chains at hch
        obtain ⟨i, hi, rfl⟩ := List.getElem_of_mem hch
        simp only [List.getElem_mapIdx]
        exact loop _ _ _ _ _ (by simp)
      have grow : s.log = s1.log ∨ s.log = s1.log ++ (chains c f (dr n) s1.step0 s1.starts).flatMap (fun s : Chain K => s.trace.map (fun e : Entry K => e.cand)) := by
        unfold gen at h
        split at h
        · cases h; exact Or.inl rfl
        · right
          simp only at h
          split at h
          · cases h
          · split at h
            · cases h
            · split at h
              · cases h; rfl
              · split at h
                · cases h
                · cases h; rfl
      rcases grow with e | e
      · rw [e]; exact ⟨a, b⟩
      · rw [e]
        refine ⟨fun x hx => List.mem_append_left _ (a x hx), fun z hz => ?_⟩
        rcases List.mem_append.1 hz with hz | hz
        · exact b z hz
        · obtain ⟨ch, hch, hz⟩ := List.mem_flatMap.1 hz
          obtain ⟨e, he, rfl⟩ := List.mem_map.1 hz
          exact tr _ _ _ _ ch hch e he

end SA

end

end Neorl

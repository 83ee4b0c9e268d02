import Verif.Local
import Verif.HCLPSO
import Verif.EPSO
import Verif.EDEV
import Verif.NSGA

/-!
# Runs and the evaluations they make: HCLPSO, EPSO, EDEV, NSGA-II, NSGA-III

More lemmas behind C143.  No new code is modelled here.
-/

set_option linter.unusedSectionVars false
set_option linter.unusedVariables false

namespace Neorl

variable {K : Type} [Field K] [LinearOrder K] [IsStrictOrderedRing K] [FloorRing K]

/-- Two internal fitness functions (which clip) have the same value where the clipped point is listed. -/
def Agree (S : Space K) (f g : List K → K) (L : List (List K)) : Prop := ∀ x, S.clip x ∈ L → f x = g x

theorem Agree.mono {S : Space K} {f g : List K → K} {L M : List (List K)} (h : Agree S f g L) (hm : ∀ x ∈ M, x ∈ L) : Agree S f g M := fun x hx => h x (hm _ hx)

theorem agree_worker {S : Space K} {m : Bool} {f g : List K → K} {L : List (List K)} (h : ∀ x ∈ L, f x = g x) : Agree S (EDEV.worker S m f) (EDEV.worker S m g) L := by
  intro x hx
  simp only [EDEV.worker, h _ hx]

open Particles

theorem note_congr {f g : List K → K} {x : List K} (h : f x = g x) (view : Bool) (rule : K → K → K → ℕ → ℕ) (m : Mem K) (i : ℕ) : note view rule f m i x = note view rule g m i x := by
  unfold note
  rw [h]

theorem notes_congr {f g : List K → K} (view : ℕ → Bool) (rule : ℕ → K → K → K → ℕ → ℕ) : ∀ (xs : List (List K)) (m : Mem K) (i : ℕ), (∀ x ∈ xs, f x = g x) →
    notes view rule f m i xs = notes view rule g m i xs
  | [], _, _, _ => rfl
  | x :: xs, m, i, h => by
    unfold notes
    rw [note_congr (h x (by simp)), notes_congr view rule xs _ _ fun y hy => h y (by simp [hy])]

namespace HCLPSO

theorem bestOf_congr {f g : List K → K} {ps : List (List K)} (h : ∀ p ∈ ps, f p = g p) (b : Option (K × List K)) : bestOf f b ps = bestOf g b ps := by
  cases ps with
  | nil => cases b <;> rfl
  | cons p ps =>
    cases b with
    | none =>
      simp only [bestOf]
      rw [h p (by simp), Swarm.better_congr fun q hq => h q (by simp [hq])]
    | some b =>
      simp only [bestOf]
      rw [Swarm.better_congr h]

theorem start_local {S : Space K} {g1 g2 : ℕ} {pc : ℕ → K} {f g : List K → K} {D : Draws0 K} {s : State K} (h : start S g1 g2 pc f D = .ok s) (hl : Agree S f g s.log0) :
    start S g1 g2 pc g D = .ok s ∧ (∀ p ∈ s.pos, S.clip p ∈ s.log0) ∧ s.log = [] := by
  unfold start at h ⊢
  dsimp only at h ⊢
  split at h
  · cases h
  rename_i pos hp
  split at h
  · cases h
  rename_i b hb
  cases h
  have key : ∀ p ∈ pos, f p = g p := fun p hp => hl p (List.mem_map.2 ⟨p, hp, rfl⟩)
  have e2 : pos.map (fun x => (x, f x)) = pos.map (fun x => (x, g x)) := List.map_congr_left fun p hp => by rw [key p hp]
  rw [← Swarm.select_congr key, hb, e2]
  exact ⟨rfl, fun p hp => List.mem_map.2 ⟨p, hp, rfl⟩, rfl⟩

theorem gen_local {S : Space K} {g1 g2 ngen : ℕ} {pc : ℕ → K} {f g : List K → K} {D : Draws K} {k : ℕ} {s s' : State K} (h : gen S g1 g2 ngen pc f D k s = .ok s') (hl : Agree S f g s'.log) :
    gen S g1 g2 ngen pc g D k s = .ok s' ∧ s'.log0 = s.log0 ∧ (∀ x ∈ s.log, x ∈ s'.log) ∧ ∀ p ∈ s'.pos, S.clip p ∈ s'.log := by
  unfold gen at h ⊢
  dsimp only at h ⊢
  split at h
  · cases h
  rename_i pos hp
  split at h
  · cases h
  rename_i l hsel
  cases h
  have key : ∀ p ∈ pos, f p = g p := fun p hp => hl p (List.mem_append_right _ (List.mem_map.2 ⟨p, hp, rfl⟩))
  rw [← Swarm.select_congr key, hsel, ← notes_congr _ _ pos s.mem 0 key, ← bestOf_congr key]
  exact ⟨rfl, rfl, fun x hx => List.mem_append_left _ hx, fun p hp => List.mem_append_right _ (List.mem_map.2 ⟨p, hp, rfl⟩)⟩

theorem run_local {S : Space K} {g1 g2 ngen : ℕ} {pc : ℕ → K} {f g : List K → K} {D : ℕ → Draws K} {s0 : State K} (h0 : ∀ p ∈ s0.pos, S.clip p ∈ s0.log0) : ∀ {k : ℕ} {s : State K},
    run S g1 g2 ngen pc f D s0 k = .ok s → Agree S f g (s.log0 ++ s.log) → run S g1 g2 ngen pc g D s0 k = .ok s ∧ s.log0 = s0.log0 ∧ ∀ p ∈ s.pos, S.clip p ∈ s.log0 ++ s.log
  | 0, s, h, hl => by
    cases h
    exact ⟨rfl, rfl, fun p hp => List.mem_append_left _ (h0 p hp)⟩
  | k + 1, s, h, hl => by
    simp only [run] at h ⊢
    split at h
    · cases h
    rename_i s1 h1
    obtain ⟨a, b, c, d⟩ := gen_local h (hl.mono fun x hx => List.mem_append_right _ hx)
    obtain ⟨a', b', _⟩ := run_local h0 h1 (hl.mono fun x hx => by
      rcases List.mem_append.1 hx with hx | hx
      · exact List.mem_append_left _ (b ▸ hx)
      · exact List.mem_append_right _ (c x hx))
    rw [a']
    exact ⟨a, b.trans b', fun p hp => List.mem_append_right _ (d p hp)⟩

end HCLPSO

namespace EPSO

theorem start_local {C : Cfg K} {pc : ℕ → K} {f g : List K → K} {x0 : List (List K)} {v0 : ℕ → ℕ → K} {D : Draws K} {s : State K} (h : start C pc f x0 v0 D = .ok s) (hl : Agree C.S f g s.log) :
    start C pc g x0 v0 D = .ok s ∧ ∀ p ∈ s.pos, C.S.clip p ∈ s.log := by
  unfold start at h ⊢
  dsimp only at h ⊢
  split at h
  · cases h
  rename_i pos hp
  split at h
  · cases h
  rename_i b hb
  cases h
  have key : ∀ p ∈ pos, f p = g p := fun p hp => hl p (List.mem_map.2 ⟨p, hp, rfl⟩)
  have e2 : pos.map (fun x => (x, f x)) = pos.map (fun x => (x, g x)) := List.map_congr_left fun p hp => by rw [key p hp]
  rw [← Swarm.select_congr key, hb, e2]
  exact ⟨rfl, fun p hp => List.mem_map.2 ⟨p, hp, rfl⟩⟩

/-- What every part of a generation keeps. -/
def Keeps (C : Cfg K) (s s' : State K) : Prop := (∀ x ∈ s.log, x ∈ s'.log) ∧ ((∀ p ∈ s.pos, C.S.clip p ∈ s.log) → ∀ p ∈ s'.pos, C.S.clip p ∈ s'.log)

theorem first_local {C : Cfg K} {pc : ℕ → K} {f g : List K → K} {D : Draws K} {k : ℕ} {s s' : State K} (h : first C pc f D k s = .ok s') :
    Keeps C s s' ∧ (Agree C.S f g s'.log → first C pc g D k s = .ok s') := by
  unfold first at h ⊢
  dsimp only at h ⊢
  split at h
  · cases h
  rename_i rows hr
  cases h
  refine ⟨⟨fun x hx => List.mem_append_left _ hx, fun hp p hp' => ?_⟩, fun hl => ?_⟩
  · rcases List.mem_append.1 hp' with hp' | hp'
    · exact List.mem_append_right _ (List.mem_map.2 ⟨p, hp', rfl⟩)
    · exact List.mem_append_left _ (hp p (List.mem_of_mem_drop hp'))
  · have key : ∀ p ∈ rows, f p = g p := fun p hp => hl p (List.mem_append_right _ (List.mem_map.2 ⟨p, hp, rfl⟩))
    simp only [notes_congr _ _ rows _ _ key]

theorem tally_congr {f g : List K → K} {rows : List (List K)} (h : ∀ p ∈ rows, f p = g p) (pb : List (Indv K)) (lo : ℕ) (strat : List ℕ) (b : Bool) (j : ℕ) :
    tally f pb lo strat rows b j = tally g pb lo strat rows b j := by
  unfold tally
  refine List.countP_congr fun i hi => ?_
  have hi' : i < rows.length := List.mem_range.1 hi
  rw [h (rows.getD i []) (by rw [List.getD_eq_getElem?_getD, List.getElem?_eq_getElem hi']; exact List.getElem_mem hi')]

theorem second_local {C : Cfg K} {pc : ℕ → K} {f g : List K → K} {D : Draws K} {k lo : ℕ} {gb : List K} {s s' : State K} (h : second C pc f D k lo gb s = .ok s') :
    Keeps C s s' ∧ (Agree C.S f g s'.log → second C pc g D k lo gb s = .ok s') := by
  unfold second at h ⊢
  dsimp only at h ⊢
  split at h
  · cases h
  rename_i ro flag hsp
  split at h
  · cases h
  rename_i hb1
  split at h
  · cases h
  rename_i hb2
  split at h
  · cases h
  rename_i rows hr
  split at h
  · cases h
  rename_i hLP
  cases h
  refine ⟨⟨fun x hx => List.mem_append_left _ hx, fun hp p hp' => ?_⟩, fun hl => ?_⟩
  · rcases List.mem_append.1 hp' with hp' | hp'
    · exact List.mem_append_left _ (hp p (List.mem_of_mem_take hp'))
    · exact List.mem_append_right _ (List.mem_map.2 ⟨p, hp', rfl⟩)
  · have key : ∀ p ∈ rows, f p = g p := fun p hp => hl p (List.mem_append_right _ (List.mem_map.2 ⟨p, hp, rfl⟩))
    rw [if_neg hb1, if_neg hb2]
    rw [if_neg hLP]
    simp only [notes_congr _ _ rows _ _ key, tally_congr key]

theorem body_local {C : Cfg K} {pc : ℕ → K} {f g : List K → K} {D : Draws K} {k : ℕ} {s s' : State K} (h : body C pc f D k s = .ok s') :
    Keeps C s s' ∧ (Agree C.S f g s'.log → body C pc g D k s = .ok s') := by
  unfold body at h ⊢
  dsimp only at h ⊢
  split at h
  · rename_i he
    split at h
    · cases h
    rename_i t ht
    obtain ⟨⟨a1, a2⟩, a3⟩ := first_local (g := g) ht
    obtain ⟨⟨b1, b2⟩, b3⟩ := second_local (g := g) h
    refine ⟨⟨fun x hx => b1 x (a1 x hx), fun hp => b2 (a2 hp)⟩, fun hl => ?_⟩
    rw [if_pos he, a3 (hl.mono b1)]
    exact b3 hl
  · rename_i he
    obtain ⟨b, b3⟩ := second_local (g := g) h
    exact ⟨b, fun hl => by rw [if_neg he]; exact b3 hl⟩

theorem gen_local {C : Cfg K} {pc : ℕ → K} {f g : List K → K} {D : Draws K} {k : ℕ} {s s' : State K} (hs : ∀ p ∈ s.pos, C.S.clip p ∈ s.log) (h : gen C pc f D k s = .ok s')
    (hl : Agree C.S f g s'.log) : gen C pc g D k s = .ok s' ∧ Keeps C s s' := by
  unfold gen at h ⊢
  split at h
  · cases h
  rename_i t ht
  obtain ⟨⟨a1, a2⟩, a3⟩ := body_local (g := g) ht
  split at h
  · cases h
  rename_i r hr
  split at h
  · cases h
  rename_i l hsel
  cases h
  rw [a3 hl]
  dsimp only
  rw [hr]
  dsimp only
  rw [← Swarm.select_congr fun p hp => hl p (a2 hs p hp), hsel]
  exact ⟨rfl, a1, a2⟩

theorem run_local {C : Cfg K} {pc : ℕ → K} {f g : List K → K} {D : ℕ → Draws K} {s0 : State K} (h0 : ∀ p ∈ s0.pos, C.S.clip p ∈ s0.log) : ∀ {k : ℕ} {s : State K},
    run C pc f D s0 k = .ok s → ((∀ x ∈ s0.log, x ∈ s.log) ∧ ∀ p ∈ s.pos, C.S.clip p ∈ s.log) ∧ (Agree C.S f g s.log → run C pc g D s0 k = .ok s)
  | 0, s, h => by
    cases h
    exact ⟨⟨fun x hx => hx, h0⟩, fun _ => rfl⟩
  | k + 1, s, h => by
    simp only [run] at h ⊢
    split at h
    · cases h
    rename_i s1 h1
    obtain ⟨⟨a1, a2⟩, a3⟩ := run_local (g := g) h0 h1
    obtain ⟨b1, b2⟩ := (gen_local (g := f) a2 h fun x _ => rfl).2
    refine ⟨⟨fun x hx => b1 x (a1 x hx), b2 a2⟩, fun hl => ?_⟩
    rw [a3 (hl.mono b1)]
    exact (gen_local a2 h hl).1

end EPSO

namespace EDEV

theorem zipWith_congr_right {α β γ : Type} {F G : α → β → γ} : ∀ {as : List α} {bs : List β}, (∀ a, ∀ b ∈ bs, F a b = G a b) → List.zipWith F as bs = List.zipWith G as bs
  | [], _, _ => by simp
  | _ :: _, [], _ => by simp
  | a :: as, b :: bs, h => by
    simp only [List.zipWith_cons_cons]
    rw [h a b (by simp), zipWith_congr_right fun a b hb => h a b (by simp [hb])]

theorem jade_local {S : Space K} {f g : List K → K} {a : K} {D : Draws K} {arch pop : List (Indv K)} {st : Stage K} (h : jade S f a D arch pop = .ok st) (hl : Agree S f g st.2) :
    jade S g a D arch pop = .ok st := by
  unfold jade at h ⊢
  split at h
  · cases h
  rename_i us hu
  cases h
  have key : ∀ p ∈ us, f p = g p := fun p hp => hl p (List.mem_map.2 ⟨p, hp, rfl⟩)
  rw [zipWith_congr_right (F := jadeSel f) (G := jadeSel g) fun q o ho => by simp only [jadeSel, key o ho]]

theorem jadeReplaced_congr {f g : List K → K} {pop : List (Indv K)} {us : List (List K)} (h : ∀ p ∈ us, f p = g p) : jadeReplaced f pop us = jadeReplaced g pop us := by
  unfold jadeReplaced
  rw [zipWith_congr_right fun q o ho => by rw [h o ho]]

theorem code_local {S : Space K} {f g : List K → K} {a : K} {D : Draws K} {pop : List (Indv K)} {st : Stage K} (h : code S f a D pop = .ok st) (hl : Agree S f g st.2) :
    code S g a D pop = .ok st := by
  unfold code at h ⊢
  split at h
  · cases h
  rename_i us hu
  cases h
  have key : ∀ p ∈ us, f p = g p := fun p hp => hl p (List.mem_map.2 ⟨p, hp, rfl⟩)
  have hlen : us.length = 3 * pop.length := by
    rw [(mapRows_ok hu).1, List.length_flatMap]
    simp [codeTrials]
    omega
  have hm : ∀ i, i < us.length → f (us.getD i []) = g (us.getD i []) := fun i hi => key _ (by rw [List.getD_eq_getElem?_getD, List.getElem?_eq_getElem hi]; exact List.getElem_mem hi)
  have : pop.mapIdx (codeSel f us) = pop.mapIdx (codeSel g us) := by
    apply List.ext_getElem (by simp)
    intro i h1 h2
    simp only [List.length_mapIdx] at h1
    simp only [List.getElem_mapIdx, codeSel, List.map_cons, List.map_nil, hm (3 * i) (by omega), hm (3 * i + 1) (by omega), hm (3 * i + 2) (by omega)]
  rw [this]

theorem epsBest_congr {f g : List K → K} : ∀ {us : List (List K)} {pop : List (Indv K)} {b : K × List K}, (∀ p ∈ us, f p = g p) → epsBest f b pop us = epsBest g b pop us
  | [], [], _, _ => rfl
  | [], _ :: _, _, _ => rfl
  | _ :: _, [], _, _ => rfl
  | o :: us, p :: pop, b, h => by
    simp only [epsBest]
    rw [h o (by simp), epsBest_congr fun q hq => h q (by simp [hq])]

theorem eps_local {S : Space K} {f g : List K → K} {a : K} {D : Draws K} {bm : K × List K} {pop : List (Indv K)} {st : Stage K × (K × List K)} (h : eps S f a D bm pop = .ok st)
    (hl : Agree S f g st.1.2) : eps S g a D bm pop = .ok st := by
  unfold eps at h ⊢
  split at h
  · cases h
  rename_i us hu
  cases h
  have key : ∀ p ∈ us, f p = g p := fun p hp => hl p (List.mem_map.2 ⟨p, hp, rfl⟩)
  rw [zipWith_congr_right (F := epsSel f) (G := epsSel g) fun q o ho => by simp only [epsSel, key o ho], ← epsBest_congr key]

theorem jade_rows {S : Space K} {f : List K → K} {a : K} {D : Draws K} {arch pop : List (Indv K)} {st : Stage K} (h : jade S f a D arch pop = .ok st) : ∃ us : List (List K), st.2 = us.map S.clip := by
  unfold jade at h
  split at h
  · cases h
  cases h
  exact ⟨_, rfl⟩

theorem agree_map {S : Space K} (hS : BoundsOK S.bounds) {f g : List K → K} {us L : List (List K)} (h : Agree S f g L) (hu : ∀ x ∈ us.map S.clip, x ∈ L) : ∀ x ∈ us.map S.clip, f x = g x := by
  intro x hx
  refine h x ?_
  obtain ⟨u, hu', rfl⟩ := List.mem_map.1 hx
  rw [show S.clip (S.clip u) = S.clip u from ensureBounds_idem hS u]
  exact hu _ hx

theorem start_local {C : Cfg K} (hS : BoundsOK C.S.bounds) {f g : List K → K} {x0 : List (List K)} {d0 d1 : ℕ → ℕ → K × ℕ} {perm0 : List ℕ} {s : State K} (h : start C f x0 d0 d1 perm0 = .ok s)
    (hl : Agree C.S f g (s.log ++ s.extra)) : start C g x0 d0 d1 perm0 = .ok s := by
  unfold start at h ⊢
  split at h
  · cases h
  rename_i us hu
  split at h
  · cases h
  rename_i b hb
  dsimp only at h ⊢
  split at h
  · cases h
  rename_i es he
  split at h
  · cases h
  rename_i m hm
  cases h
  rw [← Swarm.select_congr (agree_map hS hl fun x hx => List.mem_append_left _ hx), hb]
  dsimp only
  rw [← Swarm.select_congr (agree_map hS hl fun x hx => List.mem_append_right _ hx), hm]
  have : us.map (fun x => (x, f x)) = us.map (fun x => (x, g x)) := List.map_congr_left fun p hp => by rw [hl p (List.mem_append_left _ (List.mem_map.2 ⟨p, hp, rfl⟩))]
  rw [this]

theorem gen_local {C : Cfg K} (hS : BoundsOK C.S.bounds) {f g : List K → K} {D : Draws K} {k : ℕ} {s s' : State K} (h : gen C f D k s = .ok s') :
    ((∀ x ∈ s.log, x ∈ s'.log) ∧ s'.extra = s.extra) ∧ (Agree C.S f g s'.log → gen C g D k s = .ok s') := by
  unfold gen at h ⊢
  dsimp only at h ⊢
  split at h
  · cases h
  rename_i idx ch hadj
  split at h
  · cases h
  rename_i n1 l1 hj
  split at h
  · cases h
  rename_i b1 h1 hi1
  split at h
  · cases h
  rename_i n2 l2 hc
  split at h
  · cases h
  rename_i b2 h2 hi2
  split at h
  · cases h
  rename_i n3 l3 bm he
  split at h
  · cases h
  rename_i b3 h3 hi3
  cases h
  refine ⟨⟨fun x hx => by simp [hx], rfl⟩, fun hl => ?_⟩
  rw [jade_local hj (hl.mono fun x hx => by simp [hx])]
  dsimp only
  rw [hi1]
  dsimp only
  rw [code_local hc (hl.mono fun x hx => by simp [hx])]
  dsimp only
  rw [hi2]
  dsimp only
  rw [eps_local he (hl.mono fun x hx => by simp [hx])]
  dsimp only
  rw [hi3]
  dsimp only
  obtain ⟨us, hu⟩ := jade_rows hj
  dsimp only at hu
  subst hu
  rw [jadeReplaced_congr (agree_map hS hl fun x hx => by simp only [List.mem_append]; exact Or.inl (Or.inl (Or.inr hx)))]

theorem run_local {C : Cfg K} (hS : BoundsOK C.S.bounds) {f g : List K → K} {D : ℕ → Draws K} {s0 : State K} : ∀ {k : ℕ} {s : State K},
    run C f D s0 k = .ok s → ((∀ x ∈ s0.log, x ∈ s.log) ∧ s.extra = s0.extra) ∧ (Agree C.S f g s.log → run C g D s0 k = .ok s)
  | 0, s, h => by
    cases h
    exact ⟨⟨fun x hx => hx, rfl⟩, fun _ => rfl⟩
  | k + 1, s, h => by
    simp only [run] at h ⊢
    split at h
    · cases h
    rename_i s1 h1
    obtain ⟨⟨a1, a2⟩, a3⟩ := run_local (g := g) hS h1
    obtain ⟨⟨b1, b2⟩, b3⟩ := gen_local (g := g) hS h
    refine ⟨⟨fun x hx => b1 x (a1 x hx), b2.trans a2⟩, fun hl => ?_⟩
    rw [a3 (hl.mono b1)]
    exact b3 hl

end EDEV

namespace NSGA
open Neorl.ND Neorl.ES

theorem gen_local {c : Conf K} {m : Bool} {sel : List (List K) → ℕ → Py (List ℕ)} {lg : Bool} {F G : List K → List K} {dr : ℕ → Draw K} {s s' : State K} (h : gen c m sel lg F dr s = .ok s') :
    (∀ x ∈ s.log, x ∈ s'.log) ∧ ((∀ x ∈ s'.log, F x = G x) → gen c m sel lg G dr s = .ok s') := by
  unfold gen at h ⊢
  split at h
  · cases h
  rename_i os par hg
  dsimp only at h ⊢
  generalize hos : (if c.clip = true then os.map (fun o => (o.1, clipS c.smin c.smax o.2)) else os) = os' at h ⊢
  split at h
  · cases h
  rename_i idx hi
  split at h
  · cases h
  rename_i fronts hf
  split at h
  · cases h
  rename_i f hh
  cases h
  refine ⟨fun x hx => List.mem_append_left _ hx, fun hl => ?_⟩
  have e : os'.map (fun o => ({ ind := o.1, strat := o.2, fit := G o.1 } : MInd K)) = os'.map (fun o => { ind := o.1, strat := o.2, fit := F o.1 }) :=
    List.map_congr_left fun o ho => by rw [hl o.1 (List.mem_append_right _ (List.mem_map.2 ⟨o, ho, rfl⟩))]
  rw [e, hi]
  dsimp only
  rw [hf]
  dsimp only
  rw [hh]

theorem run_local {c : Conf K} {m : Bool} {sel : ℕ → List (List K) → ℕ → Py (List ℕ)} {lg : Bool} {F G : List K → List K} {dr : ℕ → ℕ → Draw K} {pop0 : List (List K × List K)}
    (h0 : ∀ x ∈ pop0.map Prod.fst, F x = G x) : ∀ {k : ℕ} {s : State K}, run c m sel lg F dr pop0 k = .ok s → (∀ x ∈ s.log, F x = G x) → run c m sel lg G dr pop0 k = .ok s
  | 0, s, h, hl => by
    cases h
    simp only [run, Except.ok.injEq, State.mk.injEq, and_true]
    exact List.map_congr_left fun p hp => by rw [h0 p.1 (List.mem_map.2 ⟨p, hp, rfl⟩)]
  | k + 1, s, h, hl => by
    simp only [run] at h ⊢
    split at h
    · cases h
    rename_i s1 h1
    obtain ⟨a, b⟩ := gen_local (G := G) h
    rw [run_local h0 h1 fun x hx => hl x (a x hx)]
    exact b hl

end NSGA

end Neorl

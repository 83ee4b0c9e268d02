import Verif.Props.InitPop
import Verif.Props.WOA
import Verif.Props.SSA
import Verif.Props.BAT
import Verif.Props.CS
import Verif.Props.HHO
import Verif.Props.MFO
import Verif.Props.DE
import Verif.Props.ES
import Verif.Props.SA
import Verif.Props.TS

/-!
# Property theorems C137, continued: from the user's arguments to the evaluated points, further optimisers
-/

set_option linter.unusedSectionVars false
set_option linter.unusedVariables false

namespace Neorl.InitPop
open Neorl Neorl.Informed

section
variable {K : Type} [Field K] [LinearOrder K] [IsStrictOrderedRing K] [FloorRing K]

/-- Specification: the numbers `x` decode to a point of the user's space. -/
def InUser (bs : Bounds K) (x : List K) : Prop := ∃ p, InSpace bs p ∧ Stands bs (x.map .float) p

theorem inUser_of_feasible {bs : Bounds K} (hk : (bs.map Prod.fst).Nodup) {S : Space K} (e1 : S.bounds = (space bs).bounds) (e2 : S.types = (space bs).types)
    {x : List K} (hx : S.Feasible x) : InUser bs x := by
  have hx' : (space bs).Feasible x := by
    unfold Space.Feasible Space.Integral at hx ⊢
    rwa [e1, e2] at hx
  obtain ⟨p, q1, q2, _⟩ := C05_decode_encode hk (inSpace_of_feasible hx')
  exact ⟨p, q2, p, q1, List.forall₂_same.2 (fun _ _ => rfl)⟩

/-- **C137, the searched space.** Usable variables give a well-formed space to search: the hypothesis of the theorems on the optimisers. -/
theorem C137_space {bs : Bounds K} (hb : BoundsFine bs) {S : Space K} (e1 : S.bounds = (space bs).bounds) (e2 : S.types = (space bs).types) : S.OK := by
  obtain ⟨f1, f2⟩ := encode_fine hb
  refine ⟨?_, ?_, ?_⟩
  · rw [e1]
    intro b hbm
    simp only [space, List.mem_map] at hbm
    obtain ⟨q, hq, rfl⟩ := hbm
    have h1 := f1 q hq
    have h2 := f2 q hq
    cases hs : q.2 with
    | grid vals => exact absurd hs (h2 vals)
    | int l u => rw [hs] at h1; exact h1.2.2
    | float l u => rw [hs] at h1; exact h1
  · rw [e1, e2]; simp [space]
  · intro d b ht hbd
    rw [e2] at ht
    rw [e1] at hbd
    simp only [space, List.getElem?_map] at ht hbd
    cases hq : (encodeBounds bs).1[d]? with
    | none => rw [hq] at hbd; cases hbd
    | some q =>
      rw [hq] at ht hbd
      simp only [Option.map_some, Option.some.injEq] at ht hbd
      subst hbd
      have h1 := f1 q (List.mem_of_getElem? hq)
      have h2 := f2 q (List.mem_of_getElem? hq)
      cases hs : q.2 with
      | grid vals => exact absurd hs (h2 vals)
      | int l u => rw [hs] at h1; obtain ⟨⟨m, hm⟩, ⟨n, hn⟩, _⟩ := h1; exact ⟨m, n, hm, hn⟩
      | float l u => rw [hs] at ht; simp [Env.specT] at ht

/-- Specification: the argument `x0` is absent or has one point of the user's space (made of Python numbers and strings) for each of the `n` individuals. -/
def GuessesOK (bs : Bounds K) (n : ℕ) (x0 : List (Row K)) : Prop := (x0 = [] ∨ x0.length = n) ∧ ∀ r ∈ x0, InSpace bs r ∧ ∀ v ∈ r, v.NotNp

theorem start_feasible {bs : Bounds K} (hk : (bs.map Prod.fst).Nodup) (hd : GridsDistinct bs) (hb : BoundsFine bs) {st : Store} {g : Gen} {n : ℕ} {x0 : List (Row K)}
    (hx : GuessesOK bs n x0) {dr : ℕ → ℕ → Draw K} (hdr : ∀ i j, DrawOK (dr i j)) {pop : List (Row K)} (hp : initial st g bs n x0 dr = .ok pop)
    {pos0 : List (List K)} (hn : numRows pop = .ok pos0) {S : Space K} (e1 : S.bounds = (space bs).bounds) (e2 : S.types = (space bs).types) :
    pos0.length = n ∧ ∀ v ∈ pos0, S.Feasible v := by
  have H : pop.length = n ∧ ∀ y ∈ pop, Sound bs y := by
    by_cases hne : x0 = []
    · subst hne
      obtain ⟨pop', h1, h2, h3⟩ := C137_random hk hb st g n hdr
      rw [hp] at h1
      cases h1
      exact ⟨h2, fun y hy => (h3 y hy).1⟩
    · have hl := hx.1.resolve_left hne
      subst hl
      obtain ⟨pop', h1, h2, h3⟩ := C137_given st g hk hd hne hx.2 dr
      rw [hp] at h1
      cases h1
      refine ⟨h2, fun y hy => ?_⟩
      obtain ⟨i, hi⟩ := List.mem_iff_getElem?.1 hy
      exact (h3 i y hi).1
  obtain ⟨pos', p1, p2, p3⟩ := numRows_initial H.2
  rw [hn] at p1
  cases p1
  refine ⟨p2.trans H.1, fun v hv => ?_⟩
  have := p3 v hv
  unfold Space.Feasible Space.Integral at this ⊢
  rwa [e1, e2]

/-- **C137, from the user's arguments to the evaluated points, continued.** Whale, salp, bat, cuckoo, hawk, moth, differential evolution and evolution strategy
runs that start as above evaluate, in all generations, only points that decode to the user's own space, and the point they report is such a point too
(for cuckoo search after clipping it to the bounds). -/
theorem C137_end_to_end_more {bs : Bounds K} (hk : (bs.map Prod.fst).Nodup) (hd : GridsDistinct bs) (hb : BoundsFine bs) {st : Store} {g : Gen} {n : ℕ}
    {x0 : List (Row K)} (hx : GuessesOK bs n x0) {dr : ℕ → ℕ → Draw K} (hdr : ∀ i j, DrawOK (dr i j)) {pop : List (Row K)}
    (hp : initial st g bs n x0 dr = .ok pop) {pos0 : List (List K)} (hn : numRows pop = .ok pos0) {S : Space K} (hS : S.OK)
    (e1 : S.bounds = (space bs).bounds) (e2 : S.types = (space bs).types) :
    (∀ (c : WOA.Conf K) m userFit d r, c.S = S → WOA.evolute c m userFit d pos0 = .ok r → (∀ x ∈ r.log, InUser bs x) ∧ InUser bs r.x) ∧
    (∀ (c : SSA.Conf K) m userFit d r, c.S = S → SSA.evolute c m userFit d pos0 = .ok r → (∀ x ∈ r.log, InUser bs x) ∧ InUser bs r.x) ∧
    (∀ (c : BAT.Conf K) m userFit d r, c.S = S → 0 < c.nbats → BAT.evolute c m userFit d pos0 = .ok r → (∀ x ∈ r.log0 ++ r.log, InUser bs x) ∧ InUser bs r.x) ∧
    (∀ (c : CS.Conf K) m userFit d r, c.S = S → CS.evolute c m userFit d pos0 = .ok r → (∀ x ∈ r.log, InUser bs x) ∧ InUser bs (c.S.clip r.x)) ∧
    (∀ (c : HHO.Conf K) m userFit d r, c.S = S → HHO.evolute c m userFit d pos0 = .ok r → (∀ x ∈ r.early ++ r.lastDives, InUser bs x) ∧ InUser bs r.x) ∧
    (∀ (c : MFO.Conf K) m userFit d r, c.S = S → MFO.SortOK c.srt → MFO.evolute c m userFit d pos0 = .ok r → (∀ x ∈ r.log, InUser bs x) ∧ InUser bs r.x) ∧
    (∀ (c : DE.Conf K) m userFit d r, c.S = S → c.npop = n → DE.evolute c m userFit d (fun _ => []) pos0 = .ok r → ∀ x ∈ r.log, InUser bs x) ∧
    (∀ (c : ES.Conf K) m userFit d r (strat : List (List K)), c.S = S → c.smin ≤ c.smax → 0 < c.mu →
      (∀ s ∈ strat, s.length = bs.length ∧ ∀ v ∈ s, c.smin ≤ v ∧ v ≤ c.smax) → ES.evolute c m userFit d (fun _ => []) (pos0.zip strat) = .ok r →
      (∀ x ∈ r.log, InUser bs x) ∧ InUser bs r.x) := by
  obtain ⟨hl, hf⟩ := start_feasible hk hd hb hx hdr hp hn e1 e2
  have fin : ∀ x, S.Feasible x → InUser bs x := fun x h => inUser_of_feasible hk e1 e2 h
  have hbl : S.bounds.length = bs.length := by
    rw [e1]
    have h4 := congrArg List.length (C05_encoded_bounds bs).1
    simp only [List.length_map] at h4
    simp [space, h4]
  refine ⟨?_, ?_, ?_, ?_, ?_, ?_, ?_, ?_⟩
  · rintro c m userFit d r rfl h
    have hh := WOA.C17_evolute hS hf h
    exact ⟨fun x hx => fin x (hh.feas x hx), fin _ hh.xfeas⟩
  · rintro c m userFit d r rfl h
    have hh := SSA.C18_evolute hS hf h
    exact ⟨fun x hx => fin x (hh.feas x hx), fin _ hh.xfeas⟩
  · rintro c m userFit d r rfl h0 h
    obtain ⟨_, _, _, h1, _, h2, h3, _⟩ := BAT.C19_evolute hS h0 hf h
    refine ⟨fun x hx => ?_, fin _ h3⟩
    rcases List.mem_append.1 hx with hx | hx
    · rw [h1] at hx; exact fin x (hf x hx)
    · exact fin x (h2 x hx)
  · rintro c m userFit d r rfl h
    obtain ⟨h0, _, _, _, _, _, _, h2, _⟩ := CS.C23_evolute hS hf h
    exact ⟨fun x hx => fin x (h2 x hx), fin _ (h2 _ h0.1)⟩
  · rintro c m userFit d r rfl h
    obtain ⟨h0, _, _, _, _, _, h2, h3, _⟩ := HHO.C20_evolute hS hf h
    exact ⟨fun x hx => fin x (h2 x hx), fin _ (h2 _ (List.mem_append_left _ (h3.subset h0.1)))⟩
  · rintro c m userFit d r rfl hs h
    obtain ⟨_, _, _, _, _, h2, h3, _⟩ := MFO.C22_evolute hS hs hf h
    exact ⟨fun x hx => fin x (h2 x hx), fin _ h3⟩
  · rintro c m userFit d r rfl hc h
    have hlen : ∀ x ∈ pos0, x.length = c.S.bounds.length := fun x hx => (hf x hx).1.length_eq
    unfold DE.evolute at h
    dsimp only at h
    split at h
    · cases h
    · rename_i s hs
      have hq := (DE.C07_feasible hS (hl.trans hc.symm) hlen (by simp) hs).1
      split at h
      · cases h
      · have : r.log = s.log := by
          split_ifs at h <;> (cases h; rfl)
        intro x hx
        rw [this] at hx
        exact fin x (hq x hx)
  · rintro c m userFit d r strat rfl hs hmu hst h
    have h0 : ∀ p ∈ pos0.zip strat, p.1.length = c.S.bounds.length ∧ p.2.length = c.S.bounds.length ∧ ∀ v ∈ p.2, c.smin ≤ v ∧ v ≤ c.smax := by
      intro p hp
      have hm := List.of_mem_zip (show (p.1, p.2) ∈ pos0.zip strat from hp)
      refine ⟨(hf _ hm.1).1.length_eq, ?_, (hst _ hm.2).2⟩
      rw [hbl]; exact (hst _ hm.2).1
    obtain ⟨_, h1, _, h2, _⟩ := ES.C14_evolute hS hs (rl := fun _ => []) (by simp) (by simpa using hmu) h0 h
    exact ⟨fun x hx => fin x (h2 x hx), fin _ h1⟩

end

/-- One guess in the space of three variables. -/
example : GuessesOK exB 1 [[.pyint 2, .float (1 / 2), .str "hi"]] ∧ (space exB).OK := by
  refine ⟨⟨.inr rfl, ?_⟩, Space.ok_of_okB (by decide +kernel)⟩
  intro r hr
  simp only [List.mem_singleton] at hr
  subst hr
  refine ⟨.cons ⟨2, rfl, by norm_num, by norm_num⟩ (.cons ⟨1 / 2, rfl, by norm_num, by norm_num⟩ (.cons ⟨.str "hi", by simp, rfl⟩ .nil)), ?_⟩
  intro v hv n
  simp only [List.mem_cons, List.not_mem_nil, or_false] at hv
  rcases hv with rfl | rfl | rfl <;> simp

/-- A grey wolf run from that guess: one wolf, one generation. -/
example : (match initial .matrix .plain exB 1 [[.pyint 2, .float (1 / 2), .str "hi"]] exD with
    | .ok pop => (match numRows pop with | .ok p => decide (p = [[2, 1 / 2, 1]]) | .error _ => false) | .error _ => false) = true := by decide +kernel

end Neorl.InitPop

import Verif.Rescale
import Verif.Reorder
import Verif.SA

/-!
# Simulated annealing on a rewritten problem

Lemmas behind C138 and C141 for SA: if points are rewritten by a map that commutes with the repair, the fitness and the moves, the run is rewritten.  No new code is modelled here.
-/

set_option linter.unusedSectionVars false
set_option linter.unusedVariables false
set_option linter.unusedSimpArgs false

namespace Neorl.SA

variable {K : Type} [Field K] [LinearOrder K] [IsStrictOrderedRing K] [FloorRing K]

/-- `φ` rewrites the points with the property `P`. -/
structure Hom (φ : List K → List K) (P : List K → Prop) (S S' : Space K) (f f' : List K → K) : Prop where
  clip : ∀ x, P x → S'.clip (φ x) = φ (S.clip x)
  keep : ∀ x, P x → P (S.clip x)
  fit : ∀ x, P x → f' (φ x) = f x

/-- The moves are rewritten. -/
def MoveHom (φ : List K → List K) (P : List K → Prop) (mv mv' : ℕ → List K → List K) : Prop := ∀ k x, P x → P (mv k x) ∧ mv' k (φ x) = φ (mv k x)

def mapE (φ : List K → List K) (e : Entry K) : Entry K := ⟨e.step, φ e.src, φ e.cand, φ e.dst⟩

def mapC (φ : List K → List K) (s : Chain K) : Chain K := { s with x := φ s.x, xb := φ s.xb, trace := s.trace.map (mapE φ) }

def mapP (φ : List K → List K) (p : List K × K) : List K × K := (φ p.1, p.2)

def mapState (φ : List K → List K) (s : State K) : State K :=
  { s with starts := s.starts.map (mapP φ), opt := s.opt.map (mapP φ), xc := s.xc.map φ, log := s.log.map φ }

def mapResult (φ : List K → List K) (r : Result K) : Result K := { r with x := φ r.x, log := r.log.map φ }

variable {φ : List K → List K} {P : List K → Prop} {S S' : Space K} {f f' : List K → K}

theorem chainStep_map (h : Hom φ P S S' f f') (accP : K → K → K) (temp : ℕ → K) (d : Draw K) {mv' : ℕ → List K → List K} (hm : MoveHom φ P d.mv mv') (k : ℕ) (s : Chain K)
    (hs : P s.x ∧ P s.xb) : chainStep S' f' accP temp { d with mv := mv' } k (mapC φ s) = mapC φ (chainStep S f accP temp d k s) ∧
      P (chainStep S f accP temp d k s).x ∧ P (chainStep S f accP temp d k s).xb := by
  obtain ⟨m1, m2⟩ := hm k s.x hs.1
  have q := h.keep _ m1
  have e1 : S'.clip (mv' k (φ s.x)) = φ (S.clip (d.mv k s.x)) := by rw [m2, h.clip _ m1]
  have e2 : f' (S'.clip (φ (S.clip (d.mv k s.x)))) = f (S.clip (S.clip (d.mv k s.x))) := by rw [h.clip _ q, h.fit _ (h.keep _ q)]
  unfold chainStep
  simp only [mapC, e1, e2]
  split_ifs <;> refine ⟨?_, ?_, ?_⟩ <;> first | exact q | exact hs.1 | exact hs.2 | simp [mapE]

theorem chainLoop_map (h : Hom φ P S S' f f') (accP : K → K → K) (temp : ℕ → K) (d : Draw K) {mv' : ℕ → List K → List K} (hm : MoveHom φ P d.mv mv') : ∀ (n k : ℕ) (s : Chain K),
    P s.x ∧ P s.xb → chainLoop S' f' accP temp { d with mv := mv' } n k (mapC φ s) = mapC φ (chainLoop S f accP temp d n k s) ∧
      P (chainLoop S f accP temp d n k s).x ∧ P (chainLoop S f accP temp d n k s).xb
  | 0, k, s, hs => ⟨rfl, hs⟩
  | n + 1, k, s, hs => by
    obtain ⟨e, q⟩ := chainStep_map h accP temp d hm k s hs
    have := chainLoop_map h accP temp d hm n (k + 1) _ q
    unfold chainLoop
    rw [e]
    exact this

theorem chains_map {c : Conf K} (h : Hom φ P c.S S' f f') (g : GDraw K) {mv' : ℕ → ℕ → List K → List K} (hm : ∀ j, MoveHom φ P (g.core j).mv (mv' j)) (step0 : ℕ) (starts : List (List K × K))
    (hs : ∀ p ∈ starts, P p.1) :
    chains { c with S := S' } f' { g with core := fun j => { g.core j with mv := mv' j } } step0 (starts.map (mapP φ)) = (chains c f g step0 starts).map (mapC φ) ∧
    ∀ s ∈ chains c f g step0 starts, P s.x ∧ P s.xb := by
  have key : ∀ (j : ℕ) (r : ℕ × ℕ) (p : List K × K), P p.1 →
      chainObject S' f' c.accP (g.temp j) { g.core j with mv := mv' j } (φ p.1) p.2 r.1 r.2 = mapC φ (chainObject c.S f c.accP (g.temp j) (g.core j) p.1 p.2 r.1 r.2) ∧
      P (chainObject c.S f c.accP (g.temp j) (g.core j) p.1 p.2 r.1 r.2).x ∧ P (chainObject c.S f c.accP (g.temp j) (g.core j) p.1 p.2 r.1 r.2).xb := by
    intro j r p hp
    exact chainLoop_map h c.accP (g.temp j) (g.core j) (hm j) _ _ { x := p.1, E := p.2, xb := p.1, Eb := p.2, acc := 0, rej := 0, imp := 0, trace := [] } ⟨hp, hp⟩
  constructor
  · apply List.ext_getElem?
    intro i
    unfold chains
    simp only [List.getElem?_mapIdx, List.getElem?_map, List.zip_map_right]
    cases hz : ((ranges c.npop step0 c.ncores 1 step0).zip starts)[i]? with
    | none => rfl
    | some q =>
      have : q.2 ∈ starts := (List.of_mem_zip (List.mem_of_getElem? hz)).2
      simp only [Option.map_some, Option.some.injEq]
      exact (key i q.1 q.2 (hs _ this)).1
  · intro s hs'
    unfold chains at hs'
    obtain ⟨i, hi, rfl⟩ := List.mem_mapIdx.1 hs'
    have : ((ranges c.npop step0 c.ncores 1 step0).zip starts)[i].2 ∈ starts := (List.of_mem_zip (List.getElem_mem hi)).2
    exact (key i _ _ (hs _ this)).2

theorem softNext_map (φ : List K → List K) (c : Conf K) (S' : Space K) (g : GDraw K) (mv' : ℕ → ℕ → List K → List K) (cs : List (Chain K)) :
    softNext { c with S := S' } { g with core := fun j => { g.core j with mv := mv' j } } (cs.map (mapC φ)) = (softNext c g cs).map (List.map (mapP φ)) := by
  unfold softNext
  have e1 : (cs.map (mapC φ)).map (fun s : Chain K => s.E) = cs.map fun s : Chain K => s.E := by simp [mapC, Function.comp_def]
  have e2 : (cs.map (mapC φ)).map (fun s : Chain K => g.wt s.E) = cs.map fun s : Chain K => g.wt s.E := by simp [mapC, Function.comp_def]
  rw [e1]
  cases argmax (cs.map fun s : Chain K => s.E) with
  | error e => rfl
  | ok am =>
    refine Rescale.mapRows_pt (φ := mapC φ) (ψ := mapP φ) (fun i x _ => ?_) 0
    simp only [e2, List.getElem?_map]
    cases softIndex c.ncores (sampling (cs.map fun s : Chain K => g.wt s.E)) (fun i => if c.ncores = 1 then 1 else g.rho i) (g.nan i) am.1 i with
    | error e => rfl
    | ok k =>
      simp only
      cases cs[k]? <;> rfl

/-- The points of a state have the property. -/
def Good (P : List K → Prop) (s : State K) : Prop := (∀ p ∈ s.starts, P p.1) ∧ ∀ o, s.opt = some o → P o.1

/-- The update of the best point in `gen`. -/
def newOpt (o : Option (List K × K)) (xb : List K) (E : K) : List K × K :=
  match o with
  | none => (xb, E)
  | some o => if E > o.2 then (xb, E) else o

/-- The starts of the next generation in `gen`. -/
def nextOf (c : Conf K) (g : GDraw K) (cs : List (Chain K)) (opt : List K × K) : Py (List (List K × K)) :=
  match c.reinforce with
  | .no => Except.ok (cs.map (fun s : Chain K => (s.x, s.E)))
  | .hard => .ok (List.replicate c.ncores opt)
  | .soft => softNext c g cs

/-- The last part of `gen`. -/
def tail (c : Conf K) (g : GDraw K) (s : State K) (cs : List (Chain K)) (b : Chain K) (E : K) (opt : List K × K) : Py (State K) :=
  let s' := { s with step0 := s.step0 + c.npop * c.ncores, opt := some opt, fits := s.fits ++ [E],
                     stats := s.stats ++ [(b.acc, b.rej, b.imp)],
                     log := s.log ++ cs.flatMap (fun s : Chain K => s.trace.map (fun e : Entry K => e.cand)),
                     steps := s.steps ++ cs.flatMap (fun s : Chain K => s.trace.map (fun e : Entry K => e.step)) }
  if c.stop (cs.map (fun s : Chain K => s.acc)) then .ok { s' with stopped := true } else
  match nextOf c g cs opt with
  | .error e => .error e
  | .ok nx => .ok { s' with starts := nx, xc := some opt.1 }

theorem gen_eq (c : Conf K) (fit : List K → K) (g : GDraw K) (s : State K) : gen c fit g s =
    if s.stopped then .ok s else
    match argmax ((chains c fit g s.step0 s.starts).map (fun s : Chain K => s.Eb)) with
    | .error e => .error e
    | .ok am =>
      match (chains c fit g s.step0 s.starts)[am.1]? with
      | none => .error .indexError
      | some b => tail c g s (chains c fit g s.step0 s.starts) b am.2 (newOpt s.opt b.xb am.2) := rfl

theorem newOpt_map (φ : List K → List K) (o : Option (List K × K)) (xb : List K) (E : K) : newOpt (o.map (mapP φ)) (φ xb) E = mapP φ (newOpt o xb E) := by
  cases o with
  | none => rfl
  | some o =>
    simp only [newOpt, Option.map_some, mapP]
    split_ifs <;> rfl

theorem nextOf_map (φ : List K → List K) (c : Conf K) (S' : Space K) (g : GDraw K) (mv' : ℕ → ℕ → List K → List K) (cs : List (Chain K)) (opt : List K × K) :
    nextOf { c with S := S' } { g with core := fun j => { g.core j with mv := mv' j } } (cs.map (mapC φ)) (mapP φ opt) = (nextOf c g cs opt).map (List.map (mapP φ)) := by
  unfold nextOf
  cases hr : c.reinforce with
  | no => simp [Except.map, mapC, mapP, Function.comp_def]
  | hard => simp [Except.map]
  | soft =>
    have := softNext_map φ c S' g mv' cs
    simpa [hr] using this

theorem nextOf_good {c : Conf K} {g : GDraw K} {cs : List (Chain K)} (hc : ∀ s ∈ cs, P s.x ∧ P s.xb) {opt : List K × K} (ho : P opt.1) {l : List (List K × K)} (h : nextOf c g cs opt = .ok l) :
    ∀ p ∈ l, P p.1 := by
  intro p hp
  unfold nextOf at h
  cases hr : c.reinforce with
  | no =>
    rw [hr] at h
    cases h
    obtain ⟨s1, hs1, rfl⟩ := List.mem_map.1 hp
    exact (hc s1 hs1).1
  | hard =>
    rw [hr] at h
    cases h
    rw [List.eq_of_mem_replicate hp]
    exact ho
  | soft =>
    rw [hr] at h
    simp only at h
    unfold softNext at h
    split at h
    · cases h
    · obtain ⟨k, hk⟩ := List.getElem?_of_mem hp
      obtain ⟨x, -, hx⟩ := (mapRows_ok h).2 k p hk
      split at hx
      · cases hx
      · split at hx
        · rename_i s1 hs1
          cases hx
          exact (hc s1 (List.mem_of_getElem? hs1)).2
        · cases hx

theorem tail_map {c : Conf K} {g : GDraw K} {mv' : ℕ → ℕ → List K → List K} {s : State K} (hs : Good P s) {cs : List (Chain K)} (hc : ∀ s ∈ cs, P s.x ∧ P s.xb) (b : Chain K) (E : K)
    {opt : List K × K} (ho : P opt.1) :
    tail { c with S := S' } { g with core := fun j => { g.core j with mv := mv' j } } (mapState φ s) (cs.map (mapC φ)) (mapC φ b) E (mapP φ opt) = (tail c g s cs b E opt).map (mapState φ) ∧
    ∀ t, tail c g s cs b E opt = .ok t → Good P t := by
  have e2 : (cs.map (mapC φ)).map (fun s : Chain K => s.acc) = cs.map fun s : Chain K => s.acc := by simp [mapC, Function.comp_def]
  have l1 : (cs.map (mapC φ)).flatMap (fun s : Chain K => s.trace.map (fun e : Entry K => e.cand)) = (cs.flatMap fun s : Chain K => s.trace.map (fun e : Entry K => e.cand)).map φ := by
    simp [List.map_flatMap, List.flatMap_map, mapC, mapE, Function.comp_def]
  have l2 : (cs.map (mapC φ)).flatMap (fun s : Chain K => s.trace.map (fun e : Entry K => e.step)) = cs.flatMap fun s : Chain K => s.trace.map (fun e : Entry K => e.step) := by
    simp [List.flatMap_map, mapC, mapE, Function.comp_def]
  unfold tail
  simp only [e2, l1, l2, nextOf_map]
  by_cases hstop : c.stop (cs.map fun s : Chain K => s.acc) = true
  · rw [if_pos hstop, if_pos hstop]
    refine ⟨?_, fun t ht => ?_⟩
    · simp [Except.map, mapState, mapC]
    · cases ht
      exact ⟨hs.1, fun o ho' => by cases ho'; exact ho⟩
  · rw [if_neg hstop, if_neg hstop]
    cases hn : nextOf c g cs opt with
    | error e => exact ⟨rfl, fun t ht => by cases ht⟩
    | ok l =>
      refine ⟨?_, fun t ht => ?_⟩
      · simp [Except.map, mapState, mapC, mapP]
      · cases ht
        exact ⟨nextOf_good hc ho hn, fun o ho' => by cases ho'; exact ho⟩

theorem gen_map {c : Conf K} (h : Hom φ P c.S S' f f') (g : GDraw K) {mv' : ℕ → ℕ → List K → List K} (hm : ∀ j, MoveHom φ P (g.core j).mv (mv' j)) (s : State K) (hs : Good P s) :
    gen { c with S := S' } f' { g with core := fun j => { g.core j with mv := mv' j } } (mapState φ s) = (gen c f g s).map (mapState φ) ∧ ∀ t, gen c f g s = .ok t → Good P t := by
  obtain ⟨c1, c2⟩ := chains_map h g hm s.step0 s.starts hs.1
  have hst : (mapState φ s).stopped = s.stopped := rfl
  have hss : (mapState φ s).starts = s.starts.map (mapP φ) := rfl
  have hs0 : (mapState φ s).step0 = s.step0 := rfl
  have hso : (mapState φ s).opt = s.opt.map (mapP φ) := rfl
  rw [gen_eq, gen_eq, hst, hss, hs0, hso, c1]
  by_cases hp : s.stopped = true
  · rw [if_pos hp, if_pos hp]
    refine ⟨rfl, fun t ht => ?_⟩
    cases ht
    exact hs
  rw [if_neg hp, if_neg hp]
  generalize chains c f g s.step0 s.starts = cs at c2 ⊢
  have e1 : (cs.map (mapC φ)).map (fun s : Chain K => s.Eb) = cs.map fun s : Chain K => s.Eb := by simp [mapC, Function.comp_def]
  rw [e1]
  cases argmax (cs.map fun s : Chain K => s.Eb) with
  | error e => exact ⟨rfl, fun t ht => by cases ht⟩
  | ok am =>
    simp only [List.getElem?_map]
    cases hb : cs[am.1]? with
    | none => exact ⟨rfl, fun t ht => by cases ht⟩
    | some b =>
      have hbm := c2 b (List.mem_of_getElem? hb)
      have hx : (mapC φ b).xb = φ b.xb := rfl
      simp only [Option.map_some, hx, newOpt_map]
      refine tail_map hs c2 b am.2 ?_
      unfold newOpt
      cases hopt : s.opt with
      | none => exact hbm.2
      | some o =>
        simp only
        split_ifs
        · exact hbm.2
        · exact hs.2 o hopt

theorem run_map {c : Conf K} (h : Hom φ P c.S S' f f') (dr : ℕ → GDraw K) {mv' : ℕ → ℕ → ℕ → List K → List K} (hm : ∀ n j, MoveHom φ P ((dr n).core j).mv (mv' n j)) {x0 : List (List K)}
    (h0 : ∀ x ∈ x0, P x) (n : ℕ) :
    run { c with S := S' } f' (fun n => { dr n with core := fun j => { (dr n).core j with mv := mv' n j } }) (x0.map φ) n = (run c f dr x0 n).map (mapState φ) ∧
    ∀ t, run c f dr x0 n = .ok t → Good P t := by
  induction n with
  | zero =>
    constructor
    · simp only [run, init, Except.map, mapState, List.map_map, Except.ok.injEq, State.mk.injEq, Option.map_none, and_true, true_and]
      refine ⟨List.map_congr_left fun x hx => ?_, List.map_congr_left fun x hx => ?_⟩
      · simp only [Function.comp, mapP, h.clip x (h0 x hx), h.fit _ (h.keep x (h0 x hx))]
      · simp only [Function.comp, h.clip x (h0 x hx)]
    · intro t ht
      cases ht
      refine ⟨fun p hp => ?_, fun o ho => by cases ho⟩
      obtain ⟨x, hx, rfl⟩ := List.mem_map.1 hp
      exact h0 x hx
  | succ n ih =>
    obtain ⟨i1, i2⟩ := ih
    simp only [run, i1]
    cases hr : run c f dr x0 n with
    | error e => exact ⟨rfl, fun t ht => by cases ht⟩
    | ok s => exact gen_map h (dr n) (hm n) s (i2 s hr)

theorem evolute_map {c : Conf K} (h : Hom φ P c.S S' f f') (m : Bool) (dr : ℕ → GDraw K) {mv' : ℕ → ℕ → ℕ → List K → List K} (hm : ∀ n j, MoveHom φ P ((dr n).core j).mv (mv' n j))
    {x0 : List (List K)} (h0 : ∀ x ∈ x0, P x) :
    evolute { c with S := S' } m f' (fun n => { dr n with core := fun j => { (dr n).core j with mv := mv' n j } }) (x0.map φ) = (evolute c m f dr x0).map (mapResult φ) := by
  have h' : Hom φ P c.S S' (fun x => sgn (!m) (f x)) (fun x => sgn (!m) (f' x)) := ⟨h.clip, h.keep, fun x hx => by simp only [h.fit x hx]⟩
  unfold evolute
  rw [List.length_map]
  simp only
  by_cases h1 : x0.length ≠ c.ncores
  · rw [if_pos h1, if_pos h1]
    rfl
  rw [if_neg h1, if_neg h1]
  by_cases h2 : c.ncores = 0
  · rw [if_pos h2, if_pos h2]
    rfl
  rw [if_neg h2, if_neg h2, (run_map h' dr hm h0 _).1]
  cases run c (fun x => sgn (!m) (f x)) dr x0 (c.ngen / c.ncores) with
  | error e => rfl
  | ok s =>
    simp only [Except.map, mapState]
    cases s.xc with
    | none => cases s.opt <;> rfl
    | some x => cases s.opt <;> rfl

end Neorl.SA

import Verif.NHHO
import Verif.Props.Latin
import Verif.Props.HHOMove

/-!
# Neural Harris hawks: properties C70 and C71
-/

set_option linter.unusedSectionVars false
set_option linter.unusedVariables false

namespace Neorl.NHHO

open Swarm (select Inc)

section
variable {K : Type} [Field K] [LinearOrder K] [IsStrictOrderedRing K] [FloorRing K]

/-! ### Specification -/

/-- Sample sizes of the three training sets. -/
def partSize (n i : ℕ) : ℕ := n / 3 + (if i < n % 3 then 1 else 0)

/-- `h` is a hawk on which `a` and `b` agree most. -/
def AgreeMost (a b : List K → K) (pos : List (List K)) (h : List K) : Prop := h ∈ pos ∧ ∀ z ∈ pos, |a h - b h| ≤ |a z - b z|

/-- The smallest value of `f` on `pos` is `y`, attained at `x`. -/
def LowestAt (f : List K → K) (pos : List (List K)) (x : List K) (y : K) : Prop := x ∈ pos ∧ f x = y ∧ ∀ z ∈ pos, y ≤ f z

/-- Points evaluated with the real fitness. -/
def Result.evals (r : Result K) : List (List K) := r.data.map (fun e => e.1) ++ r.runs.flatMap fun b => b.dives

/-! ### Lemmas -/

theorem part_length {α : Type} (l : List α) {i : ℕ} (hi : i < 3) : (part l i).length = partSize l.length i := by
  unfold part partSize
  have := Nat.div_add_mod l.length 3
  have h3 : l.length % 3 < 3 := Nat.mod_lt _ (by norm_num)
  simp only [List.length_take, List.length_drop]
  rcases i with _ | _ | _ | i
  · split_ifs <;> omega
  · split_ifs <;> omega
  · split_ifs <;> omega
  · omega

theorem part_concat {α : Type} (l : List α) : part l 0 ++ (part l 1 ++ part l 2) = l := by
  have hd := Nat.div_add_mod l.length 3
  have h3 : l.length % 3 < 3 := Nat.mod_lt _ (by norm_num)
  unfold part
  simp only [Nat.zero_mul, Nat.zero_add, Nat.one_mul, Nat.zero_min, Nat.sub_zero, List.drop_zero]
  set a := l.length / 3 + min 1 (l.length % 3) with ha
  set b := (1 + 1) * (l.length / 3) + min (1 + 1) (l.length % 3) with hb
  have h1 : a ≤ b := by omega
  have h2 : (2 + 1) * (l.length / 3) + min (2 + 1) (l.length % 3) = l.length := by omega
  rw [h2, List.take_of_length_le (l := l.drop b) (by simp)]
  have : (l.drop a).take (b - a) ++ l.drop b = l.drop a := by
    conv_rhs => rw [← List.take_append_drop (b - a) (l.drop a)]
    rw [List.drop_drop]
    congr 2
    omega
  rw [this, List.take_append_drop]

theorem initSample_spec {S : Space K} (hS : S.OK) {n : ℕ} (hn : n ≠ 0) {u : ℕ → ℕ → K} (hu : ∀ i j, 0 ≤ u i j ∧ u i j < 1)
    {sh : ℕ → List K → List K} (hs : ∀ i l, (sh i l).Perm l) :
    ∃ rows, initSample S n u sh = .ok rows ∧ rows.length = n ∧ ∀ r ∈ rows, S.Feasible r := by
  obtain ⟨rows, h, hl, hb, _⟩ := Latin.C54_latin hn hu hs hS.ordered
  refine ⟨_, by unfold initSample; rw [h], by simp [hl], ?_⟩
  intro r hr
  obtain ⟨q, hq, rfl⟩ := List.mem_map.1 hr
  have hbox := hb q hq
  have hlen := hbox.length_eq
  have hget : ∀ (d : ℕ) (x : K) (b : K × K), q[d]? = some x → S.bounds[d]? = some b → b.1 ≤ x ∧ x ≤ b.2 := by
    intro d x b hx hb'
    obtain ⟨h1, rfl⟩ := List.getElem?_eq_some_iff.1 hx
    obtain ⟨h2, rfl⟩ := List.getElem?_eq_some_iff.1 hb'
    exact (List.forall₂_iff_get.1 hbox).2 d h1 h2
  constructor
  · apply inBox_of_getElem? (by simp [hlen])
    intro d x b hx hb'
    simp only [List.getElem?_mapIdx, Option.map_eq_some_iff] at hx
    obtain ⟨y, hy, rfl⟩ := hx
    have hyb := hget d y b hy hb'
    split_ifs with ht
    · obtain ⟨l, v, e1, e2⟩ := hS.intBounds d b ht hb'
      rw [e1, e2] at hyb ⊢
      have := roundHE_mem hyb.1 hyb.2
      exact ⟨by exact_mod_cast this.1, by exact_mod_cast this.2⟩
    · exact hyb
  · intro d x ht hx
    simp only [List.getElem?_mapIdx, Option.map_eq_some_iff] at hx
    obtain ⟨y, hy, rfl⟩ := hx
    rw [if_pos ht]
    exact ⟨_, rfl⟩

theorem select_lowest {f : List K → K} {pos : List (List K)} {b : K × List K} (h : select f pos = .ok b) : LowestAt f pos b.2 b.1 := by
  obtain ⟨h1, h2, h3⟩ := Swarm.select_inc h
  exact ⟨h1, h2.symm, h3⟩

theorem neuralWorker_ok {c : Conf K} {data : List (List K × K)} {g i : ℕ} {a b : List K → K} {pos : List (List K)} {p : List K → K}
    (h : neuralWorker c data g i a b pos = .ok p) :
    ∃ x, AgreeMost a b pos x ∧ nnFit c g (i + 1) (part data i ++ [(x, (a x + b x) / 2)]) = .ok p := by
  unfold neuralWorker at h
  split at h
  · cases h
  · rename_i q hq
    obtain ⟨h1, h2, h3⟩ := select_lowest hq
    exact ⟨q.2, ⟨h1, fun z hz => by
      have := h3 z hz
      rw [← h2] at this
      exact this⟩, h⟩

theorem surrogate_ok {c : Conf K} {data : List (List K × K)} {m : (List K → K) × (List K → K) × (List K → K)} {g : ℕ} {pos : List (List K)}
    {s : List K → K} (h : surrogate c data m g pos = .ok s) :
    ∃ p1 p2 p3, neuralWorker c data g 0 m.2.1 m.2.2 pos = .ok p1 ∧ neuralWorker c data g 1 m.2.2 m.1 pos = .ok p2 ∧
      neuralWorker c data g 2 m.1 m.2.1 pos = .ok p3 ∧ s = fun x => (p1 x + p2 x + p3 x) / 3 := by
  unfold surrogate at h
  split at h
  · cases h
  rename_i p1 h1
  split at h
  · cases h
  rename_i p2 h2
  split at h
  · cases h
  rename_i p3 h3
  cases h
  exact ⟨p1, p2, p3, h1, h2, h3, rfl⟩

theorem gen_ok {c : Conf K} {m : Bool} {fit : List K → K} {data : List (List K × K)} {ms : (List K → K) × (List K → K) × (List K → K)} {t : ℕ}
    {dr : ℕ → HHO.Draw K} {s s' : State K} (h : gen c m fit data ms t dr s = .ok s') :
    ∃ sur b p ev, surrogate c data ms (t + 1) s.pos = .ok sur ∧ select sur s.pos = .ok b ∧
      HHO.updTo c.hho fit t (2 * (1 - (t : K) / (c.ngen : K))) dr (updAll (fun p => sgn m (sur p)) s.rabbit s.pos).2 (s.pos.map sur) c.nhawks s.pos
        = .ok (p, ev) ∧
      mapRows (fun i row => HHO.repair c.hho t (dr i).dF row) 0 p = .ok s'.pos ∧ s'.rabbit = updAll (fun p => sgn m (sur p)) s.rabbit s.pos ∧
      s'.hawks = s.hawks ++ [b.2] ∧ s'.locals = s.locals ++ [sgn m b.1] ∧ s'.runs = s.runs ++ [{ sur := sur, pop := s.pos, dives := ev }] := by
  unfold gen at h
  split at h
  · cases h
  rename_i sur h1
  dsimp only at h
  split at h
  · cases h
  rename_i b h2
  split at h
  · cases h
  rename_i p ev h3
  split at h
  · cases h
  rename_i pos' h4
  cases h
  exact ⟨sur, b, p, ev, h1, h2, h3, h4, rfl, rfl, rfl, rfl⟩

/-- Everything known after `g` generations. -/
structure Inv (c : Conf K) (m : Bool) (fit : List K → K) (data : List (List K × K)) (ms : (List K → K) × (List K → K) × (List K → K)) (g : ℕ)
    (s : State K) : Prop where
  npos : s.pos.length = c.nhawks
  feas : ∀ p ∈ s.pos, c.S.Feasible p
  nruns : s.runs.length = g
  nhawk : s.hawks.length = g
  nloc : s.locals.length = g
  block : ∀ (k : ℕ) (b : Block K), s.runs[k]? = some b → surrogate c data ms (k + 1) b.pop = .ok b.sur ∧ b.pop.length = c.nhawks ∧
    (∀ p ∈ b.pop, c.S.Feasible p) ∧ (∀ p ∈ b.dives, c.S.Feasible p) ∧ b.dives.length ≤ 2 * c.nhawks ∧
    ∃ x y, s.hawks[k]? = some x ∧ s.locals[k]? = some (sgn m y) ∧ LowestAt b.sur b.pop x y

theorem run_inv {c : Conf K} (hS : c.S.OK) {m : Bool} {fit : List K → K} {data : List (List K × K)}
    {ms : (List K → K) × (List K → K) × (List K → K)} {dr : ℕ → ℕ → HHO.Draw K} {pos0 : List (List K)} (hn : pos0.length = c.nhawks)
    (hf : ∀ p ∈ pos0, c.S.Feasible p) (g : ℕ) {s : State K} (h : run c m fit data ms dr pos0 g = .ok s) : Inv c m fit data ms g s := by
  induction g generalizing s with
  | zero =>
    cases h
    exact ⟨hn, hf, rfl, rfl, rfl, by simp⟩
  | succ g ih =>
    simp only [run] at h
    split at h
    · cases h
    rename_i s0 h0
    have hi := ih h0
    obtain ⟨sur, b, p, ev, h1, h2, h3, h4, h5, h6, h7, h8⟩ := gen_ok h
    have hl : ∀ x ∈ s0.pos, x.length = c.S.bounds.length := fun x hx => (hi.feas x hx).1.length_eq
    obtain ⟨u1, u2, u3, u4, u5⟩ := HHO.updTo_spec (c := c.hho) hS hl h3
    refine ⟨by rw [(mapRows_ok h4).1, u1, hi.npos], ?_, by simp [h8, hi.nruns], by simp [h6, hi.nhawk], by simp [h7, hi.nloc], ?_⟩
    · exact mapRows_forall (P := fun x : List K => x.length = c.S.bounds.length) h4 u2
        (fun i x y hx h => HHO.repair_feasible (c := c.hho) hS hx h)
    · intro k bl hk
      rw [h8] at hk
      rcases Nat.lt_or_ge k s0.runs.length with hlt | hge
      · rw [List.getElem?_append_left hlt] at hk
        obtain ⟨q1, q2, q3, q4, q5, x, y, q6, q7, q8⟩ := hi.block k bl hk
        refine ⟨q1, q2, q3, q4, q5, x, y, ?_, ?_, q8⟩
        · rw [h6, List.getElem?_append_left (by rw [hi.nhawk, ← hi.nruns]; exact hlt)]; exact q6
        · rw [h7, List.getElem?_append_left (by rw [hi.nloc, ← hi.nruns]; exact hlt)]; exact q7
      · rw [List.getElem?_append_right hge] at hk
        obtain ⟨e0, e1⟩ := List.getElem?_eq_some_iff.1 hk
        simp only [List.length_singleton] at e0
        have hk' : k = g := by rw [← hi.nruns]; omega
        subst hk'
        simp only [hi.nruns, Nat.sub_self, List.getElem_cons_zero] at e1
        subst e1
        refine ⟨h1, hi.npos, hi.feas, fun z hz => (u5 z hz).1, u3, b.2, b.1, ?_, ?_, select_lowest h2⟩
        · rw [h6, List.getElem?_append_right (by rw [hi.nhawk])]; simp [hi.nhawk]
        · rw [h7, List.getElem?_append_right (by rw [hi.nloc])]; simp [hi.nloc]

theorem evolute_ok {c : Conf K} {m : Bool} {fit : List K → K} {x0 : Option (List (List K))} {d : Draws K} {r : Result K}
    (h : evolute c m fit x0 d = .ok r) :
    ∃ warm ms pos0 s, initSample c.S c.nwarm d.uW d.shW = .ok warm ∧ r.data = warm.map (fun x => (x, fit (c.S.clip x))) ∧
      warmModels c r.data = .ok ms ∧ (pos0.length = c.nhawks ∧ (∃ x, x0 = some x ∧ pos0 = x) ∨ initSample c.S c.nhawks d.uP d.shP = .ok pos0) ∧
      run c m fit r.data ms d.hawk pos0 c.ngen = .ok s ∧ r.hawks = s.hawks ∧ r.locals = s.locals ∧ r.runs = s.runs := by
  unfold evolute at h
  split at h
  · cases h
  split at h
  · cases h
  rename_i warm hw
  dsimp only at h
  split at h
  · cases h
  rename_i ms hm
  split at h
  · cases h
  rename_i pos0 hp
  split at h
  · cases h
  rename_i s hs
  cases h
  refine ⟨warm, ms, pos0, s, hw, rfl, hm, ?_, hs, rfl, rfl, rfl⟩
  unfold startPos at hp
  split at hp
  · split_ifs at hp with hl
    cases hp
    exact Or.inl ⟨not_not.1 hl, _, rfl, rfl⟩
  · exact Or.inr hp

/-- Well-behaved draws: uniform numbers in `[0, 1)`, shuffles that permute. -/
def Draws.OK (d : Draws K) : Prop :=
  (∀ i j, 0 ≤ d.uW i j ∧ d.uW i j < 1) ∧ (∀ i l, (d.shW i l).Perm l) ∧ (∀ i j, 0 ≤ d.uP i j ∧ d.uP i j < 1) ∧ ∀ i l, (d.shP i l).Perm l

theorem evolute_inv {c : Conf K} (hS : c.S.OK) {m : Bool} {fit : List K → K} {x0 : Option (List (List K))} {d : Draws K} (hd : d.OK)
    (hx : ∀ xs, x0 = some xs → ∀ x ∈ xs, c.S.Feasible x) {r : Result K} (h : evolute c m fit x0 d = .ok r) :
    (∀ e ∈ r.data, c.S.Feasible e.1 ∧ e.2 = fit e.1) ∧ r.data.length = c.nwarm ∧
    ∃ ms s, warmModels c r.data = .ok ms ∧ Inv c m fit r.data ms c.ngen s ∧ r.hawks = s.hawks ∧ r.locals = s.locals ∧ r.runs = s.runs := by
  obtain ⟨warm, ms, pos0, s, h1, h2, h3, h4, h5, h6, h7, h8⟩ := evolute_ok h
  have hne : c.nwarm ≠ 0 := by
    intro h0
    rw [h0] at h1
    simp [initSample, Latin.latin] at h1
  obtain ⟨rows, e1, e2, e3⟩ := initSample_spec hS hne hd.1 hd.2.1
  rw [h1] at e1
  cases e1
  have hp : pos0.length = c.nhawks ∧ ∀ p ∈ pos0, c.S.Feasible p := by
    rcases h4 with ⟨hl, x, hx', rfl⟩ | h4
    · exact ⟨hl, hx _ hx'⟩
    · have hn : c.nhawks ≠ 0 := by
        intro h0
        rw [h0] at h4
        simp [initSample, Latin.latin] at h4
      obtain ⟨rows, e1, e2, e3⟩ := initSample_spec hS hn hd.2.2.1 hd.2.2.2
      rw [h4] at e1
      cases e1
      exact ⟨e2, e3⟩
  refine ⟨?_, by rw [h2]; simp [e2], ms, s, h3, run_inv hS hp.1 hp.2 _ h5, h6, h7, h8⟩
  intro e he
  rw [h2] at he
  obtain ⟨x, hx', rfl⟩ := List.mem_map.1 he
  exact ⟨e3 x hx', by rw [Space.clip_of_inBox (e3 x hx').1]⟩

/-! ### Theorems -/

/-- **C70.** For minimisation: one hawk and one fitness per generation; the hawk of generation `k` is a feasible member of that generation's hawks, and the
fitness is its prediction by that generation's surrogate, the smallest prediction among the hawks. -/
theorem C70_returned {c : Conf K} (hS : c.S.OK) {fit : List K → K} {x0 : Option (List (List K))} {d : Draws K} (hd : d.OK)
    (hx : ∀ xs, x0 = some xs → ∀ x ∈ xs, c.S.Feasible x) {r : Result K} (h : evolute c true fit x0 d = .ok r) :
    r.hawks.length = c.ngen ∧ r.locals.length = c.ngen ∧ r.runs.length = c.ngen ∧
    ∀ (k : ℕ) (b : Block K), r.runs[k]? = some b → b.pop.length = c.nhawks ∧ (∀ p ∈ b.pop, c.S.Feasible p) ∧
      ∃ x y, r.hawks[k]? = some x ∧ r.locals[k]? = some y ∧ LowestAt b.sur b.pop x y := by
  obtain ⟨_, _, ms, s, _, hi, h6, h7, h8⟩ := evolute_inv hS hd hx h
  rw [h6, h7, h8]
  refine ⟨hi.nhawk, hi.nloc, hi.nruns, fun k b hb => ?_⟩
  obtain ⟨_, q2, q3, _, _, x, y, q6, q7, q8⟩ := hi.block k b hb
  exact ⟨q2, q3, x, y, q6, by simpa [sgn] using q7, q8⟩

/-- **C70.** How the surrogates are made.  The warmup samples, with their true fitness, are dealt in order to three training sets of equal size up to one.
The surrogate of every generation averages three networks; network `i` is trained on set `i` and one more sample: the hawk on which the networks of
generation 0 of the other two sets agree most, labelled with the mean of their predictions. -/
theorem C70_surrogate {c : Conf K} (hS : c.S.OK) {m : Bool} {fit : List K → K} {x0 : Option (List (List K))} {d : Draws K} (hd : d.OK)
    (hx : ∀ xs, x0 = some xs → ∀ x ∈ xs, c.S.Feasible x) {r : Result K} (h : evolute c m fit x0 d = .ok r) :
    ∃ (D : ℕ → List (List K × K)) (w : ℕ → List K → K), D 0 ++ (D 1 ++ D 2) = r.data ∧ (∀ e ∈ r.data, e.2 = fit e.1) ∧
    (∀ i < 3, (D i).length = partSize r.data.length i ∧ nnFit c 0 (i + 1) (D i) = .ok (w i)) ∧
    ∀ (k : ℕ) (b : Block K), r.runs[k]? = some b → ∃ (x : ℕ → List K) (p : ℕ → List K → K),
      (∀ i < 3, AgreeMost (w ((i + 1) % 3)) (w ((i + 2) % 3)) b.pop (x i) ∧
        nnFit c (k + 1) (i + 1) (D i ++ [(x i, (w ((i + 1) % 3) (x i) + w ((i + 2) % 3) (x i)) / 2)]) = .ok (p i)) ∧
      ∀ z, b.sur z = (p 0 z + p 1 z + p 2 z) / 3 := by
  obtain ⟨hdata, _, ms, s, hm, hi, _, _, h8⟩ := evolute_inv hS hd hx h
  unfold warmModels at hm
  split at hm
  · cases hm
  rename_i m1 e1
  split at hm
  · cases hm
  rename_i m2 e2
  split at hm
  · cases hm
  rename_i m3 e3
  cases hm
  refine ⟨fun i => part r.data i, fun i => if i = 0 then m1 else if i = 1 then m2 else m3, part_concat _, fun e he => (hdata e he).2, ?_, ?_⟩
  · intro i h3
    refine ⟨part_length _ h3, ?_⟩
    rcases i with _ | _ | _ | i
    · exact e1
    · exact e2
    · exact e3
    · omega
  · intro k b hb
    rw [h8] at hb
    obtain ⟨q1, _⟩ := hi.block k b hb
    obtain ⟨p1, p2, p3, w1, w2, w3, hs⟩ := surrogate_ok q1
    obtain ⟨x1, a1, f1⟩ := neuralWorker_ok w1
    obtain ⟨x2, a2, f2⟩ := neuralWorker_ok w2
    obtain ⟨x3, a3, f3⟩ := neuralWorker_ok w3
    refine ⟨fun i => if i = 0 then x1 else if i = 1 then x2 else x3, fun i => if i = 0 then p1 else if i = 1 then p2 else p3, ?_, ?_⟩
    · intro i h3
      rcases i with _ | _ | _ | i
      · exact ⟨a1, f1⟩
      · exact ⟨a2, f2⟩
      · exact ⟨a3, f3⟩
      · omega
    · intro z
      rw [hs]
      rfl

/-- **C70.** The real fitness is evaluated at the warmup samples and at most twice per hawk and generation (in rapid dives), always at feasible points. -/
theorem C70_evaluations {c : Conf K} (hS : c.S.OK) {m : Bool} {fit : List K → K} {x0 : Option (List (List K))} {d : Draws K} (hd : d.OK)
    (hx : ∀ xs, x0 = some xs → ∀ x ∈ xs, c.S.Feasible x) {r : Result K} (h : evolute c m fit x0 d = .ok r) :
    (∀ z ∈ r.evals, c.S.Feasible z) ∧ r.data.length = c.nwarm ∧ r.evals.length ≤ c.nwarm + 2 * (c.nhawks * c.ngen) := by
  obtain ⟨hdata, hlen, ms, s, _, hi, _, _, h8⟩ := evolute_inv hS hd hx h
  have hruns : ∀ b ∈ r.runs, (∀ p ∈ b.dives, c.S.Feasible p) ∧ b.dives.length ≤ 2 * c.nhawks := by
    intro b hb
    obtain ⟨k, hk⟩ := List.mem_iff_getElem?.1 hb
    rw [h8] at hk
    obtain ⟨_, _, _, q4, q5, _⟩ := hi.block k b hk
    exact ⟨q4, q5⟩
  refine ⟨?_, hlen, ?_⟩
  · intro z hz
    rcases List.mem_append.1 hz with hz | hz
    · obtain ⟨e, he, rfl⟩ := List.mem_map.1 hz
      exact (hdata e he).1
    · obtain ⟨b, hb, hz⟩ := List.mem_flatMap.1 hz
      exact (hruns b hb).1 z hz
  · have hn : r.runs.length = c.ngen := by rw [h8]; exact hi.nruns
    have : ∀ (l : List (Block K)), (∀ b ∈ l, b.dives.length ≤ 2 * c.nhawks) → (l.flatMap fun b => b.dives).length ≤ 2 * (c.nhawks * l.length) := by
      intro l hl
      induction l with
      | nil => simp
      | cons b l ih =>
        have h1 := hl b (by simp)
        have h2 := ih (fun b hb => hl b (by simp [hb]))
        simp only [List.flatMap_cons, List.length_append, List.length_cons]
        rw [Nat.mul_succ]
        omega
    have := this r.runs (fun b hb => (hruns b hb).2)
    rw [hn] at this
    simp only [Result.evals, List.length_append, List.length_map, hlen]
    omega

/-! ### Totality -/

theorem nnFit_total {c : Conf K} (hs : 0 < c.split ∧ c.split < 1) {g i : ℕ} {data : List (List K × K)}
    (hn : ⌈c.split * (data.length : K)⌉ < (data.length : ℤ)) : ∃ p, nnFit c g i data = .ok p := by
  unfold nnFit
  simp only
  have h0 : 0 ≤ ⌈c.split * (data.length : K)⌉ := Int.ceil_nonneg (mul_nonneg hs.1.le (Nat.cast_nonneg _))
  rw [if_neg (not_not.2 hs), if_neg (by omega)]
  exact ⟨_, rfl⟩

theorem neuralWorker_total {c : Conf K} (hs : 0 < c.split ∧ c.split < 1) {g i : ℕ} {data : List (List K × K)}
    (hn : ⌈c.split * ((part data i).length : K)⌉ < ((part data i).length : ℤ)) (a b : List K → K) {pos : List (List K)} (hp : pos ≠ []) :
    ∃ p, neuralWorker c data g i a b pos = .ok p := by
  obtain ⟨q, hq⟩ := Swarm.select_total (f := fun x => |a x - b x|) hp
  unfold neuralWorker
  rw [hq]
  apply nnFit_total hs
  simp only [List.length_append, List.length_singleton]
  push_cast
  have h1 : c.split * (((part data i).length : K) + 1) ≤ c.split * ((part data i).length : K) + (1 : ℤ) := by
    push_cast
    rw [mul_add, mul_one]
    linarith [hs.2]
  have h2 := Int.ceil_mono h1
  rw [Int.ceil_add_intCast] at h2
  omega

theorem gen_total {c : Conf K} (hS : c.S.OK) (hm : c.S.method = .nearestInt) (hs : 0 < c.split ∧ c.split < 1) {m : Bool} {fit : List K → K}
    {data : List (List K × K)} (hn : ∀ i < 3, ⌈c.split * ((part data i).length : K)⌉ < ((part data i).length : ℤ))
    {ms : (List K → K) × (List K → K) × (List K → K)} {t : ℕ} {dr : ℕ → HHO.Draw K} {s : State K} (hl : s.pos.length = c.nhawks)
    (h0 : 0 < c.nhawks) (hf : ∀ p ∈ s.pos, c.S.Feasible p) : ∃ s', gen c m fit data ms t dr s = .ok s' := by
  have hne : s.pos ≠ [] := by
    intro h
    rw [h] at hl
    simp at hl
    omega
  obtain ⟨p1, h1⟩ := neuralWorker_total hs (g := t + 1) (hn 0 (by norm_num)) ms.2.1 ms.2.2 hne
  obtain ⟨p2, h2⟩ := neuralWorker_total hs (g := t + 1) (hn 1 (by norm_num)) ms.2.2 ms.1 hne
  obtain ⟨p3, h3⟩ := neuralWorker_total hs (g := t + 1) (hn 2 (by norm_num)) ms.1 ms.2.1 hne
  obtain ⟨b, hb⟩ := Swarm.select_total (f := fun x => (p1 x + p2 x + p3 x) / 3) hne
  have hlen : ∀ x ∈ s.pos, x.length = c.S.bounds.length := fun x hx => (hf x hx).1.length_eq
  obtain ⟨⟨p, ev⟩, hu⟩ := HHO.updTo_total (c := c.hho) hS hm (fit := fit) (t := t) (E1 := 2 * (1 - (t : K) / (c.ngen : K))) (dr := dr)
    (rabbit := (updAll (fun q => sgn m ((p1 q + p2 q + p3 q) / 3)) s.rabbit s.pos).2) (fits := s.pos.map fun x => (p1 x + p2 x + p3 x) / 3)
    (i := c.nhawks) hlen hl.ge (by simp)
  obtain ⟨u1, u2, _⟩ := HHO.updTo_spec (c := c.hho) hS hlen hu
  obtain ⟨pos', hr⟩ := mapRows_total (P := fun x : List K => x.length = c.S.bounds.length) (f := fun i row => HHO.repair c.hho t (dr i).dF row) (i := 0) u2
    (fun k x hx => HHO.repair_total (c := c.hho) hS hm t (dr k).dF hx)
  unfold gen surrogate
  simp only [h1, h2, h3, hb, hu, hr]
  exact ⟨_, rfl⟩

/-- **C70.** NHHO returns: with both keys in `nn_params`, at least one hawk, `nearest_int`, and warmups so many that every training set keeps a sample after the
test split. -/
theorem C70_total {c : Conf K} (hS : c.S.OK) (hm : c.S.method = .nearestInt) (hk : c.plot.isSome ∧ c.save.isSome) (h0 : 0 < c.nhawks)
    (hs : 0 < c.split ∧ c.split < 1) (hn : ∀ i < 3, ⌈c.split * (partSize c.nwarm i : K)⌉ < (partSize c.nwarm i : ℤ)) {m : Bool}
    {fit : List K → K} {x0 : Option (List (List K))} {d : Draws K} (hd : d.OK)
    (hx : ∀ xs, x0 = some xs → xs.length = c.nhawks ∧ ∀ x ∈ xs, c.S.Feasible x) : ∃ r, evolute c m fit x0 d = .ok r := by
  obtain ⟨a, ha⟩ := Option.isSome_iff_exists.1 hk.1
  obtain ⟨b, hb⟩ := Option.isSome_iff_exists.1 hk.2
  have hw : c.nwarm ≠ 0 := by
    intro h
    have := hn 0 (by norm_num)
    rw [h] at this
    simp [partSize] at this
  obtain ⟨warm, e1, e2, e3⟩ := initSample_spec hS hw hd.1 hd.2.1
  set data := warm.map fun x => (x, fit (c.S.clip x)) with hdata
  have hdl : data.length = c.nwarm := by simp [hdata, e2]
  have hn' : ∀ i < 3, ⌈c.split * ((part data i).length : K)⌉ < ((part data i).length : ℤ) := by
    intro i hi
    rw [part_length _ hi, hdl]
    exact hn i hi
  obtain ⟨m1, h1⟩ := nnFit_total (g := 0) (i := 1) hs (hn' 0 (by norm_num))
  obtain ⟨m2, h2⟩ := nnFit_total (g := 0) (i := 2) hs (hn' 1 (by norm_num))
  obtain ⟨m3, h3⟩ := nnFit_total (g := 0) (i := 3) hs (hn' 2 (by norm_num))
  have hstart : ∃ pos0 : List (List K), startPos c x0 d = .ok pos0 ∧ pos0.length = c.nhawks ∧ ∀ p ∈ pos0, c.S.Feasible p := by
    unfold startPos
    split
    · rename_i x xs
      obtain ⟨q1, q2⟩ := hx _ rfl
      rw [if_neg (not_not.2 q1)]
      exact ⟨_, rfl, q1, q2⟩
    · exact initSample_spec hS (by omega) hd.2.2.1 hd.2.2.2
  obtain ⟨pos0, e4, e5, e6⟩ := hstart
  have hrun : ∀ g, ∃ s, run c m fit data (m1, m2, m3) d.hawk pos0 g = .ok s := by
    intro g
    induction g with
    | zero => exact ⟨_, rfl⟩
    | succ g ih =>
      obtain ⟨s, hs'⟩ := ih
      have hi := run_inv hS e5 e6 g hs'
      obtain ⟨s', h'⟩ := gen_total hS hm hs hn' (m := m) (fit := fit) (ms := (m1, m2, m3)) (t := g) (dr := d.hawk g) hi.npos h0 hi.feas
      exact ⟨s', by simp only [run, hs', h']⟩
  obtain ⟨s, hs'⟩ := hrun c.ngen
  unfold evolute checkArgs
  rw [ha, hb]
  simp only [e1, warmModels]
  rw [← hdata]
  simp only [h1, h2, h3]
  rw [e4]
  simp only [hs']
  exact ⟨_, rfl⟩

/-! ### Defects -/

/-- **C71 (defect).** For maximisation the returned hawk of a generation is the one with the *lowest* predicted fitness, and the returned value is minus that
prediction. -/
theorem C71_max_returns_worst {c : Conf K} (hS : c.S.OK) {fit : List K → K} {x0 : Option (List (List K))} {d : Draws K} (hd : d.OK)
    (hx : ∀ xs, x0 = some xs → ∀ x ∈ xs, c.S.Feasible x) {r : Result K} (h : evolute c false fit x0 d = .ok r) {k : ℕ} {b : Block K}
    (hb : r.runs[k]? = some b) : ∃ x y, r.hawks[k]? = some x ∧ r.locals[k]? = some (-y) ∧ LowestAt b.sur b.pop x y := by
  obtain ⟨_, _, ms, s, _, hi, h6, h7, h8⟩ := evolute_inv hS hd hx h
  rw [h8] at hb
  obtain ⟨_, _, _, _, _, x, y, q6, q7, q8⟩ := hi.block k b hb
  exact ⟨x, y, by rw [h6]; exact q6, by rw [h7]; simpa [sgn] using q7, q8⟩

/-- **C71 (defect).** A rapid dive compares the real fitness with the prediction in the direction of minimisation whatever the mode: a hawk that dives stays,
or goes to a point whose real fitness is *smaller* than its own predicted fitness, also when the fitness is to be maximised. -/
theorem C71_dives_minimise {c : Conf K} (hS : c.S.OK) (hm : c.S.method = .nearestInt) {m : Bool} {fit : List K → K} {data : List (List K × K)}
    {ms : (List K → K) × (List K → K) × (List K → K)} {t : ℕ} {dr : ℕ → HHO.Draw K} {s s' : State K} (hf : ∀ p ∈ s.pos, c.S.Feasible p)
    (h : gen c m fit data ms t dr s = .ok s') {i : ℕ} (hi : i < c.nhawks) {p q : List K} (hp : s.pos[i]? = some p) (hq : s'.pos[i]? = some q)
    (hE : |2 * (1 - (t : K) / (c.ngen : K)) * (2 * (dr i).e0 - 1)| < 1) (hr : (dr i).r < 1 / 2) :
    ∃ b, s'.runs.getLast? = some b ∧ (q = p ∨ fit q < b.sur p) := by
  obtain ⟨sur, b, pp, ev, h1, h2, h3, h4, h5, h6, h7, h8⟩ := gen_ok h
  refine ⟨_, by rw [h8]; simp; rfl, ?_⟩
  obtain ⟨_, hrow⟩ := HHO.updTo_row h3
  obtain ⟨p', row, row', hfi, ev', r1, r2, r3, r4, _⟩ := hrow i hi
  rw [hp] at r1
  cases r1
  obtain ⟨x, hx, hrep⟩ := (mapRows_ok h4).2 i q hq
  rw [r2] at hx
  cases hx
  rw [Nat.zero_add] at hrep
  have hpf : c.S.Feasible p := hf p (List.mem_of_getElem? hp)
  have hfi' : hfi = sur p := by simpa [hp] using r3.symm
  unfold HHO.updHawk at r4
  simp only at r4
  rw [if_neg (not_le.2 hE), if_neg (not_le.2 hr)] at r4
  rcases HHO.dive_cases (c := c.hho) hS hpf.1.length_eq r4 with e | ⟨hfe, _, hlt, _⟩
  · subst e
    rw [HHO.repair_id (c := c.hho) hS hm _ _ hpf] at hrep
    cases hrep
    exact Or.inl rfl
  · rw [HHO.repair_id (c := c.hho) hS hm _ _ hfe] at hrep
    cases hrep
    rw [hfi'] at hlt
    exact Or.inr hlt

theorem foldl_min_le (a : K) (l : List K) : l.foldl min a ≤ a ∧ ∀ y ∈ l, l.foldl min a ≤ y := by
  induction l generalizing a with
  | nil => simp
  | cons b l ih =>
    obtain ⟨h1, h2⟩ := ih (min a b)
    refine ⟨h1.trans (min_le_left _ _), ?_⟩
    intro y hy
    rcases List.mem_cons.1 hy with rfl | hy
    · exact h1.trans (min_le_right _ _)
    · exact h2 y hy

theorem le_foldl_max (a : K) (l : List K) : a ≤ l.foldl max a ∧ ∀ y ∈ l, y ≤ l.foldl max a := by
  induction l generalizing a with
  | nil => simp
  | cons b l ih =>
    obtain ⟨h1, h2⟩ := ih (max a b)
    refine ⟨(le_max_left _ _).trans h1, ?_⟩
    intro y hy
    rcases List.mem_cons.1 hy with rfl | hy
    · exact (le_max_right _ _).trans h1
    · exact h2 y hy

theorem scaleY_mem {ys : List K} {y : K} (hy : y ∈ ys) : 0 ≤ scaleY ys y ∧ scaleY ys y ≤ 1 := by
  cases ys with
  | nil => simp at hy
  | cons a as =>
    have hlo : as.foldl min a ≤ y := by
      rcases List.mem_cons.1 hy with rfl | hy
      · exact (foldl_min_le _ _).1
      · exact (foldl_min_le _ _).2 y hy
    have hhi : y ≤ as.foldl max a := by
      rcases List.mem_cons.1 hy with rfl | hy
      · exact (le_foldl_max _ _).1
      · exact (le_foldl_max _ _).2 y hy
    simp only [scaleY]
    split_ifs with he
    · rw [he] at hhi
      constructor <;> linarith
    · have hlt : as.foldl min a < as.foldl max a := lt_of_le_of_ne (hlo.trans hhi) (Ne.symm he)
      have hpos : 0 < as.foldl max a - as.foldl min a := by linarith
      exact ⟨div_nonneg (by linarith) hpos.le, by rw [div_le_one hpos]; linarith⟩

/-- A learner whose predictions stay between two training labels, as every method that averages labels does. -/
def Averaging (net : ℕ → ℕ → List (List K × K) → List (List K × K) → List K → K) : Prop :=
  ∀ g i train valid x, train ≠ [] → ∃ a ∈ train, ∃ b ∈ train, a.2 ≤ net g i train valid x ∧ net g i train valid x ≤ b.2

theorem pickAt_ne {α : Type} {l : List α} {is : List ℕ} (hi : ∀ i ∈ is, i < l.length) (hne : is ≠ []) : pickAt l is ≠ [] := by
  cases is with
  | nil => exact absurd rfl hne
  | cons i is =>
    have h : l[i]? = some (l[i]'(hi i (by simp))) := List.getElem?_eq_getElem _
    simp [pickAt, h]

theorem nnFit_unit {c : Conf K} (hav : Averaging c.net) (hp : ∀ g i n, (c.perm g i n).Perm (List.range n)) {g i : ℕ} {data : List (List K × K)}
    {p : List K → K} (h : nnFit c g i data = .ok p) (x : List K) : 0 ≤ p x ∧ p x ≤ 1 := by
  unfold nnFit at h
  simp only at h
  split_ifs at h with h1 h2
  cases h
  have hperm := hp g i data.length
  set is := (c.perm g i data.length).drop ⌈c.split * (data.length : K)⌉.toNat with his
  have hne : is ≠ [] := by
    intro h0
    have := congrArg List.length h0
    rw [his, List.length_drop, hperm.length_eq] at this
    simp at this
    omega
  have hlt : ∀ j ∈ is, j < data.length := fun j hj => List.mem_range.1 (hperm.mem_iff.1 (List.mem_of_mem_drop hj))
  have htr := pickAt_ne hlt hne
  set train := pickAt data is with htrain
  obtain ⟨a, ha, b, hb, l1, l2⟩ := hav g i _ ((pickAt data ((c.perm g i data.length).take ⌈c.split * (data.length : K)⌉.toNat)).map fun e =>
    (c.stdX (train.map fun e => e.1) e.1, scaleY (train.map fun e => e.2) e.2)) x
    (List.map_eq_nil_iff.not.2 htr : train.map (fun e => (c.stdX (train.map fun e => e.1) e.1, scaleY (train.map fun e => e.2) e.2)) ≠ [])
  obtain ⟨e, he, rfl⟩ := List.mem_map.1 ha
  obtain ⟨e', he', rfl⟩ := List.mem_map.1 hb
  exact ⟨(scaleY_mem (List.mem_map_of_mem he)).1.trans l1, l2.trans (scaleY_mem (List.mem_map_of_mem he')).2⟩

/-- **C71 (defect).** `NNmodel.fit` trains on scaled fitness values and returns the bare network, so predictions are on the scaled axis.  With any learner that
averages labels, every fitness NHHO returns lies in `[0, 1]` (`[-1, 0]` for maximisation), whatever the fitness function is. -/
theorem C71_scaled {c : Conf K} (hS : c.S.OK) (hav : Averaging c.net) (hp : ∀ g i n, (c.perm g i n).Perm (List.range n)) {m : Bool} {fit : List K → K}
    {x0 : Option (List (List K))} {d : Draws K} (hd : d.OK) (hx : ∀ xs, x0 = some xs → ∀ x ∈ xs, c.S.Feasible x) {r : Result K}
    (h : evolute c m fit x0 d = .ok r) : ∀ y ∈ r.locals, 0 ≤ sgn m y ∧ sgn m y ≤ 1 := by
  obtain ⟨_, _, ms, s, _, hi, h6, h7, h8⟩ := evolute_inv hS hd hx h
  intro y hy
  rw [h7] at hy
  obtain ⟨k, hk⟩ := List.mem_iff_getElem?.1 hy
  have hlt : k < s.runs.length := by
    rw [hi.nruns, ← hi.nloc]
    exact (List.getElem?_eq_some_iff.1 hk).1
  obtain ⟨q1, _, _, _, _, x, v, _, q7, q8⟩ := hi.block k _ (List.getElem?_eq_getElem hlt)
  rw [hk] at q7
  cases q7
  rw [sgn_sgn, ← q8.2.1]
  obtain ⟨p1, p2, p3, w1, w2, w3, hs⟩ := surrogate_ok q1
  obtain ⟨x1, _, f1⟩ := neuralWorker_ok w1
  obtain ⟨x2, _, f2⟩ := neuralWorker_ok w2
  obtain ⟨x3, _, f3⟩ := neuralWorker_ok w3
  have a1 := nnFit_unit hav hp f1 x
  have a2 := nnFit_unit hav hp f2 x
  have a3 := nnFit_unit hav hp f3 x
  rw [hs]
  constructor <;> simp only <;> linarith

/-- **C71 (defect).** The documented default `nn_params = {}` raises, as does any dictionary without both `plot` and `save_models`. -/
theorem C71_default_params {c : Conf K} (h : c.plot = none ∨ c.save = none) {m : Bool} {fit : List K → K} {x0 : Option (List (List K))} {d : Draws K} :
    evolute c m fit x0 d = .error .keyError := by
  unfold evolute checkArgs
  rcases h with h | h <;> rw [h]
  cases c.plot <;> rfl

/-- **C71 (defect).** `num_warmups = None`, documented as `20 * len(bounds)`, gives as many warmup samples as there are hawks. -/
theorem C71_default_warmups {c : Conf K} (hS : c.S.OK) (hw : c.warmups = none) {m : Bool} {fit : List K → K} {x0 : Option (List (List K))} {d : Draws K}
    (hd : d.OK) (hx : ∀ xs, x0 = some xs → ∀ x ∈ xs, c.S.Feasible x) {r : Result K} (h : evolute c m fit x0 d = .ok r) :
    r.data.length = c.nhawks := by
  rw [(evolute_inv hS hd hx h).2.1, Conf.nwarm, hw]
  rfl

end

/-! ### Concrete cases -/

def exS : Space ℚ := { bounds := [(-5, 5), (0, 3)], types := [.float, .int], method := .nearestInt, expf := fun x => x }

/-- One nearest neighbour (first coordinate) as learner. -/
def nn : ℕ → ℕ → List (List ℚ × ℚ) → List (List ℚ × ℚ) → List ℚ → ℚ := fun _ _ train _ x =>
  match train.argmin (fun e => |e.1.headD 0 - x.headD 0|) with
  | some e => e.2
  | none => 0

def exC : Conf ℚ :=
  { S := exS, nhawks := 3, warmups := some 7, ngen := 2, plot := some false, save := some false, split := 1 / 5, net := nn
    stdX := fun xs x => x.map fun v => v / 2, perm := fun _ _ n => (List.range n).reverse }

def exFit : List ℚ → ℚ := fun x => 100 + (x.map (fun v => v * v)).sum

def exD : Draws ℚ :=
  { uW := fun i j => ((i + 3 * j) % 4 : ℕ) / 4, shW := fun i l => if i = 0 then l.reverse else l, uP := fun _ j => (j % 2 : ℕ) / 2, shP := fun _ l => l
    hawk := fun t i => { e0 := if i = 1 then 9 / 10 else 6 / 10, q := 1 / 4, hawk := 1, u1 := 1 / 2, u2 := 1 / 3, r := if i = 0 then 1 / 4 else 3 / 4, uJ := 1 / 2
                         jump := fun _ => 1, dY := fun _ => (1 / 2, 0), dZ := fun _ => (1 / 2, 0), dF := fun _ => (1 / 2, 0) } }

example : exS.OK := Space.ok_of_okB (by decide +kernel)
example : exC.plot.isSome ∧ exC.save.isSome ∧ 0 < exC.nhawks ∧ 0 < exC.split ∧ exC.split < 1 := by decide +kernel
example : ∀ i < 3, ⌈exC.split * (partSize exC.nwarm i : ℚ)⌉ < (partSize exC.nwarm i : ℤ) := by decide +kernel
theorem exD_ok : exD.OK := by
  have h4 : ∀ n : ℕ, 0 ≤ ((n % 4 : ℕ) : ℚ) / 4 ∧ ((n % 4 : ℕ) : ℚ) / 4 < 1 := by
    intro n
    have : ((n % 4 : ℕ) : ℚ) < 4 := by exact_mod_cast Nat.mod_lt n (by norm_num)
    exact ⟨by positivity, by rw [div_lt_one (by norm_num)]; exact this⟩
  have h2 : ∀ n : ℕ, 0 ≤ ((n % 2 : ℕ) : ℚ) / 2 ∧ ((n % 2 : ℕ) : ℚ) / 2 < 1 := by
    intro n
    have : ((n % 2 : ℕ) : ℚ) < 2 := by exact_mod_cast Nat.mod_lt n (by norm_num)
    exact ⟨by positivity, by rw [div_lt_one (by norm_num)]; exact this⟩
  refine ⟨fun i j => h4 _, ?_, fun i j => h2 _, fun _ _ => List.Perm.refl _⟩
  intro i l
  show (if i = 0 then l.reverse else l).Perm l
  split_ifs
  · exact List.reverse_perm l
  · exact List.Perm.refl _
theorem nn_averaging : Averaging nn := by
  intro g i train valid x hne
  unfold nn
  cases h : train.argmin (fun e => |e.1.headD 0 - x.headD 0|) with
  | none => exact absurd (List.argmin_eq_none.1 h) hne
  | some e =>
    have := List.argmin_mem h
    exact ⟨e, this, e, this, le_rfl, le_rfl⟩
example : ∀ g i n, (exC.perm g i n).Perm (List.range n) := fun _ _ n => List.reverse_perm _

/-- Minimisation: three hawks, two generations; every reported fitness is 0 although the fitness is at least 100. -/
example : (match evolute exC true exFit none exD with
    | .ok r => decide (r.hawks = [[0, 2], [0, 1]] ∧ r.locals = [0, 0] ∧ r.data.length = 7 ∧ r.evals.length = 11) | .error _ => false) = true := by
  decide +kernel

/-- **C71 (defect).** Maximisation: the hawk returned for the first generation has real fitness 104, another hawk of that generation has 125. -/
theorem C71_max_witness : ∃ (r : Result ℚ) (b : Block ℚ) (x z : List ℚ), evolute exC false exFit none exD = .ok r ∧ r.runs[0]? = some b ∧
    r.hawks[0]? = some x ∧ z ∈ b.pop ∧ b.sur x < b.sur z ∧ exFit x < exFit z := by
  have h : (match evolute exC false exFit none exD with
      | .ok r => (match r.runs[0]?, r.hawks[0]? with
        | some b, some x => b.pop.any fun z => decide (b.sur x < b.sur z ∧ exFit x < exFit z)
        | _, _ => false)
      | .error _ => false) = true := by decide +kernel
  cases he : evolute exC false exFit none exD with
  | error e => rw [he] at h; cases h
  | ok r =>
    rw [he] at h
    dsimp only at h
    cases hb : r.runs[0]? with
    | none => rw [hb] at h; cases h
    | some b =>
      cases hx : r.hawks[0]? with
      | none => rw [hb, hx] at h; cases h
      | some x =>
        rw [hb, hx] at h
        obtain ⟨z, hz, h1⟩ := List.any_eq_true.1 h
        obtain ⟨h2, h3⟩ := of_decide_eq_true h1
        exact ⟨r, b, x, z, rfl, hb, hx, hz, h2, h3⟩

end Neorl.NHHO

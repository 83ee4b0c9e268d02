import Verif.Feasible
import Verif.Best

/-!
# Cuckoo search

Model of `neorl/evolu/cs.py`.  Fitness is an arbitrary function of the encoded vector.  `fit_worker` (line 147) clamps the point it
evaluates but not the stored nest.
-/

set_option linter.unusedSectionVars false
set_option linter.unusedVariables false

namespace Neorl.CS

section
variable {K : Type} [Field K] [LinearOrder K] [IsStrictOrderedRing K] [FloorRing K]

/-- Arguments, `neorl/evolu/cs.py` lines 47-87 and 213. -/
structure Conf (K : Type) where
  S : Space K
  ncuckoos : ℕ
  ngen : ℕ
  pa : K

/-- Draws of one generation.  `levy i j` is the factor `0.01 * step * randn` of coordinate `j` of cuckoo `i` (line 203-207), `scale` is
`random.random()`, `perm1`/`perm2` the two permutations (indices modulo the number of cuckoos), `u` the uniform matrix of line 266. -/
structure Draw (K : Type) where
  levy : ℕ → ℕ → K
  disc1 : ℕ → ℕ → K × ℕ
  scale : K
  perm1 : ℕ → ℕ
  perm2 : ℕ → ℕ
  u : ℕ → ℕ → K
  disc2 : ℕ → ℕ → K × ℕ

/-- `self.a` in generation `g` (counted from 0): line 247. -/
def anneal (c : Conf K) (g : ℕ) : K := 1 - (g : K) * (1 / (c.ngen : K))

/-- One row of `UpdateCuckoos`, lines 201-209.  Line 208 stores the clamped vector, line 209 overwrites it with the discrete
repair of the *unclamped* `s`. -/
def levyRow (c : Conf K) (g : ℕ) (d : Draw K) (best : List K) (i : ℕ) (s : List K) : Py (List K) :=
  c.S.disc (anneal c g) (d.disc1 i) (s.mapIdx fun j x => x + d.levy i j * (x - best.getD j 0))

/-- One row of the discovery phase, lines 267-278: step between two permuted rows, masked, clamped, made discrete. -/
def discoverRow (c : Conf K) (g : ℕ) (d : Draw K) (newnest : List (List K)) (i : ℕ) (s : List K) : Py (List K) :=
  c.S.disc (anneal c g) (d.disc2 i) (c.S.clip (s.mapIdx fun j x =>
    x + d.scale * ((newnest.getD (d.perm1 i % c.ncuckoos) []).getD j 0 - (newnest.getD (d.perm2 i % c.ncuckoos) []).getD j 0)
      * (if d.u i j > c.pa then 1 else 0)))

/-- Replacement, lines 259-263 and 284-288: `fnew[j] <= fitness[j]`. -/
def accept (f : List K → K) : List (List K × K) → List (List K) → List (List K × K)
  | q :: qs, p :: ps => (if f p ≤ q.2 then (p, f p) else q) :: accept f qs ps
  | qs, _ => qs

/-- The logger loop, lines 294-298. -/
def scan : K × List K → List (List K × K) → K × List K
  | b, [] => b
  | b, q :: qs => scan (if q.2 < b.1 then (q.2, q.1) else b) qs

/-- State between generations. -/
structure State (K : Type) where
  nests : List (List K × K)
  best : K × List K
  global : List K
  locals : List K
  log : List (List K)

/-- One generation, lines 245-313.  `np.min(fitness)` of no cuckoo raises. -/
def gen (c : Conf K) (fit : List K → K) (g : ℕ) (d : Draw K) (s : State K) : Py (State K) :=
  let f := fun p => fit (c.S.clip p)
  match mapRows (levyRow c g d s.best.2) 0 (s.nests.map (fun q => q.1)) with
  | .error e => .error e
  | .ok new1 =>
    let n1 := accept f s.nests new1
    match mapRows (discoverRow c g d new1) 0 new1 with
    | .error e => .error e
    | .ok new2 =>
      let n2 := accept f n1 new2
      let best := scan s.best n2
      match n2 with
      | [] => .error .valueError
      | q :: qs =>
        .ok { nests := n2, best := best, global := s.global ++ [best.1], locals := s.locals ++ [(scan (q.2, q.1) qs).1],
              log := s.log ++ new1.map c.S.clip ++ new2.map c.S.clip }

/-- Initial evaluation and `select` (lines 226-244, `np.min`/`np.argmin` of nothing raise), then `g` generations. -/
def run (c : Conf K) (fit : List K → K) (dr : ℕ → Draw K) (pos0 : List (List K)) : ℕ → Py (State K)
  | 0 =>
    match pos0.map (fun p => (p, fit (c.S.clip p))) with
    | [] => .error .valueError
    | q :: qs => .ok { nests := q :: qs, best := scan (q.2, q.1) qs, global := [], locals := [], log := pos0.map c.S.clip }
  | g + 1 =>
    match run c fit dr pos0 g with
    | .error e => .error e
    | .ok s => gen c fit g (dr g) s

/-- What `evolute` returns, plus the ghost log. -/
structure Result (K : Type) where
  x : List K
  y : K
  global : List K
  locals : List K
  lastPop : List (List K × K)
  log : List (List K)

/-- `evolute`, lines 213-344.  With `ngen = 0` the attribute `fitness_best_correct` does not exist. -/
def evolute (c : Conf K) (m : Bool) (userFit : List K → K) (dr : ℕ → Draw K) (pos0 : List (List K)) : Py (Result K) :=
  if pos0.length ≠ c.ncuckoos then .error .assertion else
  match run c (fun x => sgn m (userFit x)) dr pos0 c.ngen with
  | .error e => .error e
  | .ok s =>
    if c.ngen = 0 then .error .unboundLocal else
    .ok { x := s.best.2, y := sgn m s.best.1, global := s.global.map (sgn m), locals := s.locals.map (sgn m),
          lastPop := s.nests.map (fun q => (q.1, sgn m q.2)), log := s.log }

/-! ### Lemmas -/

/-- Specification of what stored nests do satisfy: right length, int coordinates integral and inside their bounds; nothing is claimed
about continuous coordinates. -/
def Half (S : Space K) (v : List K) : Prop :=
  v.length = S.bounds.length ∧ S.Integral v ∧
  ∀ (d : ℕ) (x : K) (b : K × K), S.types[d]? = some VType.int → v[d]? = some x → S.bounds[d]? = some b → b.1 ≤ x ∧ x ≤ b.2

theorem half_of_feasible {S : Space K} {v : List K} (h : S.Feasible v) : Half S v :=
  ⟨h.1.length_eq, h.2, fun d x b _ hx hb => inBox_getElem? h.1 hx hb⟩

theorem half_disc {S : Space K} (hS : S.OK) {alpha : K} {draw : ℕ → K × ℕ} {v v' : List K} (hl : v.length = S.bounds.length)
    (h : S.disc alpha draw v = .ok v') : Half S v' := by
  obtain ⟨h0, hi⟩ := S.disc_integral hS hl h
  obtain ⟨h1, h2, h3⟩ := ensureDiscrete_spec hS.ordered h
  refine ⟨by rw [h0, hl], hi, ?_⟩
  intro d x b ht hx hb
  obtain ⟨n, hn, hn1, hn2⟩ := h2 d (List.getElem?_eq_some_iff.1 hb).1 ht x b hx hb
  obtain ⟨l, u, e1, e2⟩ := hS.intBounds d b ht hb
  rw [e1, truncZ_intCast] at hn1
  rw [e2, truncZ_intCast] at hn2
  rw [hn, e1, e2]
  exact ⟨by exact_mod_cast hn1, by exact_mod_cast hn2⟩

theorem Half.clip {S : Space K} (hS : S.OK) {v : List K} (h : Half S v) : S.Feasible (S.clip v) :=
  S.clip_feasible hS h.1 h.2.1

theorem Half.inBox {S : Space K} (hS : S.OK) {v : List K} (h : Half S v) (ht : ∀ t ∈ S.types, t = VType.int) : S.Feasible v := by
  refine ⟨inBox_of_getElem? h.1 ?_, h.2.1⟩
  intro d x b hx hb
  have hd : d < S.types.length := by rw [hS.ntypes]; exact (List.getElem?_eq_some_iff.1 hb).1
  exact h.2.2 d x b (by rw [List.getElem?_eq_getElem hd, ht _ (List.getElem_mem _)]) hx hb

theorem scan_spec (qs : List (List K × K)) (b : K × List K) :
    (scan b qs).1 ≤ b.1 ∧ (∀ q ∈ qs, (scan b qs).1 ≤ q.2) ∧ (scan b qs = b ∨ ((scan b qs).2, (scan b qs).1) ∈ qs) := by
  induction qs generalizing b with
  | nil => simp [scan]
  | cons q qs ih =>
    simp only [scan]
    by_cases hq : q.2 < b.1
    · rw [if_pos hq]
      obtain ⟨h1, h2, h3⟩ := ih (q.2, q.1)
      refine ⟨h1.trans hq.le, ?_, Or.inr ?_⟩
      · intro w hw
        rcases List.mem_cons.1 hw with rfl | hw
        · exact h1
        · exact h2 w hw
      · rcases h3 with h3 | h3
        · rw [h3]; simp
        · simp [h3]
    · rw [if_neg hq]
      obtain ⟨h1, h2, h3⟩ := ih b
      refine ⟨h1, ?_, ?_⟩
      · intro w hw
        rcases List.mem_cons.1 hw with rfl | hw
        · exact h1.trans (not_lt.1 hq)
        · exact h2 w hw
      · rcases h3 with h3 | h3
        · exact Or.inl h3
        · exact Or.inr (by simp [h3])

theorem accept_spec {f : List K → K} {qs : List (List K × K)} {ps : List (List K)} (hl : ps.length = qs.length) :
    (accept f qs ps).length = qs.length ∧
    ∀ (i : ℕ) (r : List K × K), (accept f qs ps)[i]? = some r →
      ∃ q p, qs[i]? = some q ∧ ps[i]? = some p ∧ r = if f p ≤ q.2 then (p, f p) else q := by
  induction qs generalizing ps with
  | nil => simp [accept]
  | cons q qs ih =>
    cases ps with
    | nil => simp at hl
    | cons p ps =>
      obtain ⟨h1, h2⟩ := ih (ps := ps) (by simpa using hl)
      refine ⟨by simp [accept, h1], ?_⟩
      intro i r hr
      cases i with
      | zero => simp [accept] at hr; exact ⟨q, p, rfl, rfl, hr.symm⟩
      | succ i =>
        simp [accept] at hr
        obtain ⟨q', p', e1, e2, e3⟩ := h2 i r hr
        exact ⟨q', p', by simpa using e1, by simpa using e2, e3⟩

/-- Memory invariant after `G` rounds of evaluation of all nests. -/
structure Mem (c : Conf K) (fit : List K → K) (G : ℕ) (log : List (List K)) (nests : List (List K × K)) : Prop where
  nn : nests.length = c.ncuckoos
  len : log.length = G * c.ncuckoos
  half : ∀ q ∈ nests, Half c.S q.1
  slots : ∀ (i : ℕ) (q : List K × K), nests[i]? = some q → SlotBest true fit c.ncuckoos G log i (c.S.clip q.1) q.2

theorem Mem.cover {c : Conf K} {fit : List K → K} {G : ℕ} {log : List (List K)} {nests : List (List K × K)}
    (h : Mem c fit G log nests) : ∀ z ∈ log, ∃ q ∈ nests, q.2 ≤ fit z := by
  intro z hz
  obtain ⟨k, hk⟩ := List.mem_iff_getElem?.1 hz
  have hkl := (List.getElem?_eq_some_iff.1 hk).1
  rw [h.len] at hkl
  have hn : 0 < c.ncuckoos := by
    rcases Nat.eq_zero_or_pos c.ncuckoos with h0 | h0
    · rw [h0] at hkl; simp at hkl
    · exact h0
  have hi : k % c.ncuckoos < nests.length := by rw [h.nn]; exact Nat.mod_lt _ hn
  refine ⟨nests[k % c.ncuckoos], List.getElem_mem _, ?_⟩
  have := (h.slots _ _ (List.getElem?_eq_getElem hi)).2.2 (k / c.ncuckoos) (Nat.div_lt_of_lt_mul (by rw [Nat.mul_comm]; exact hkl)) z
    (by rw [Nat.div_add_mod']; exact hk)
  simpa [NotWorse] using this

theorem Mem.own {c : Conf K} {fit : List K → K} {G : ℕ} {log : List (List K)} {nests : List (List K × K)}
    (h : Mem c fit G log nests) : ∀ q ∈ nests, q.2 = fit (c.S.clip q.1) ∧ c.S.clip q.1 ∈ log := by
  intro q hq
  obtain ⟨i, hi⟩ := List.mem_iff_getElem?.1 hq
  obtain ⟨⟨k, -, e⟩, e2, -⟩ := h.slots i q hi
  exact ⟨e2, List.mem_of_getElem? e⟩

theorem Mem.accept {c : Conf K} {fit : List K → K} {G : ℕ} {log : List (List K)} {nests : List (List K × K)}
    (h : Mem c fit G log nests) {ps : List (List K)} (hl : ps.length = c.ncuckoos) (hh : ∀ p ∈ ps, Half c.S p) :
    Mem c fit (G + 1) (log ++ ps.map c.S.clip) (accept (fun p => fit (c.S.clip p)) nests ps) := by
  obtain ⟨h1, h2⟩ := accept_spec (f := fun p => fit (c.S.clip p)) (qs := nests) (ps := ps) (by rw [hl, h.nn])
  refine ⟨by rw [h1, h.nn], by simp [h.len, hl]; ring, ?_, ?_⟩
  · intro r hr
    obtain ⟨i, hi⟩ := List.mem_iff_getElem?.1 hr
    obtain ⟨q, p, e1, e2, rfl⟩ := h2 i r hi
    split_ifs
    · exact hh p (List.mem_of_getElem? e2)
    · exact h.half q (List.mem_of_getElem? e1)
  · intro i r hr
    obtain ⟨q, p, e1, e2, rfl⟩ := h2 i r hr
    refine (h.slots i q e1).step h.len (by simp [hl]) (by rw [List.getElem?_map, e2]; rfl) ?_
    split_ifs with hc
    · exact Or.inl ⟨rfl, rfl, by simpa [NotWorse] using hc⟩
    · exact Or.inr ⟨rfl, rfl, by simpa [NotWorse] using (not_le.1 hc).le⟩

/-- Everything known about the state after `g` generations. -/
structure Inv (c : Conf K) (fit : List K → K) (g : ℕ) (s : State K) : Prop where
  mem : Mem c fit (1 + 2 * g) s.log s.nests
  flog : ∀ z ∈ s.log, c.S.Feasible z
  bhalf : Half c.S s.best.2
  best : IsBest true fit s.log (c.S.clip s.best.2) s.best.1
  hist : HistBest true fit c.ncuckoos (2 * c.ncuckoos) s.log s.global
  lens : s.global.length = g
  locals : s.locals = s.global
  lastg : g ≠ 0 → s.global.getLast? = some s.best.1

theorem run_inv {c : Conf K} (hS : c.S.OK) {fit : List K → K} {dr : ℕ → Draw K} {pos0 : List (List K)}
    (hn : pos0.length = c.ncuckoos) (hf : ∀ p ∈ pos0, c.S.Feasible p) {g : ℕ} {s : State K}
    (h : run c fit dr pos0 g = .ok s) : Inv c fit g s := by
  induction g generalizing s with
  | zero =>
    simp only [run] at h
    split at h
    · cases h
    rename_i q qs hq
    cases h
    have hmem : Mem c fit 1 (pos0.map c.S.clip) (q :: qs) := by
      rw [← hq]
      refine ⟨by simp [hn], by simp [hn], ?_, ?_⟩
      · intro r hr
        obtain ⟨p, hp, rfl⟩ := List.mem_map.1 hr
        exact half_of_feasible (hf p hp)
      · intro i r hr
        rw [List.getElem?_map] at hr
        cases e : pos0[i]? with
        | none => rw [e] at hr; cases hr
        | some p =>
          rw [e] at hr; cases hr
          exact slotBest_init (by rw [List.getElem?_map, e]; rfl)
    obtain ⟨s1, s2, s3⟩ := scan_spec qs (q.2, q.1)
    have hin : ((scan (q.2, q.1) qs).2, (scan (q.2, q.1) qs).1) ∈ q :: qs := by
      rcases s3 with s3 | s3
      · rw [s3]; simp
      · simp [s3]
    refine ⟨hmem, ?_, hmem.half _ hin, ?_, ?_, rfl, rfl, by simp⟩
    · intro z hz
      obtain ⟨p, hp, rfl⟩ := List.mem_map.1 hz
      exact (half_of_feasible (hf p hp)).clip hS
    · obtain ⟨o1, o2⟩ := hmem.own _ hin
      refine ⟨o2, o1, ?_⟩
      intro z hz
      obtain ⟨r, hr, hle⟩ := hmem.cover z hz
      simp only [NotWorse, if_true]
      refine le_trans ?_ hle
      rcases List.mem_cons.1 hr with rfl | hr
      · exact s1
      · exact s2 r hr
    · have := histBest_nil true fit (2 * c.ncuckoos) (pos0.map c.S.clip)
      simpa [hn] using this
  | succ g ih =>
    simp only [run] at h
    split at h
    · cases h
    rename_i s0 h0
    have hi := ih h0
    simp only [gen] at h
    split at h
    · cases h
    rename_i new1 hnew1
    split at h
    · cases h
    rename_i new2 hnew2
    split at h
    · cases h
    rename_i q qs hqq
    have hl1 : new1.length = c.ncuckoos := by rw [(mapRows_ok hnew1).1]; simp [hi.mem.nn]
    have hl2 : new2.length = c.ncuckoos := by rw [(mapRows_ok hnew2).1, hl1]
    have hh1 : ∀ p ∈ new1, Half c.S p :=
      mapRows_forall (P := fun x : List K => x.length = c.S.bounds.length) hnew1
        (fun p hp => by obtain ⟨q, hq, rfl⟩ := List.mem_map.1 hp; exact (hi.mem.half q hq).1)
        (fun i x y hx h => half_disc hS (by simp [hx]) h)
    have hh2 : ∀ p ∈ new2, Half c.S p :=
      mapRows_forall (P := fun x : List K => x.length = c.S.bounds.length) hnew2 (fun p hp => (hh1 p hp).1)
        (fun i x y hx h => half_disc hS (by rw [Space.length_clip hS (by simp [hx])]) h)
    have hm1 := hi.mem.accept hl1 hh1
    have hm2 := hm1.accept hl2 hh2
    rw [hqq] at h hm2
    cases h
    have hm : Mem c fit (1 + 2 * (g + 1)) (s0.log ++ new1.map c.S.clip ++ new2.map c.S.clip) (q :: qs) := by
      rw [show 1 + 2 * (g + 1) = 1 + 2 * g + 1 + 1 by ring]
      exact hm2
    obtain ⟨s1, s2, s3⟩ := scan_spec (q :: qs) s0.best
    have hb : Half c.S (scan s0.best (q :: qs)).2 ∧
        IsBest true fit (s0.log ++ new1.map c.S.clip ++ new2.map c.S.clip) (c.S.clip (scan s0.best (q :: qs)).2) (scan s0.best (q :: qs)).1 := by
      have hlow : ∀ z ∈ s0.log ++ new1.map c.S.clip ++ new2.map c.S.clip, (scan s0.best (q :: qs)).1 ≤ fit z := by
        intro z hz
        obtain ⟨r, hr, hle⟩ := hm.cover z hz
        exact (s2 r hr).trans hle
      rcases s3 with s3 | s3
      · rw [s3] at hlow ⊢
        refine ⟨hi.bhalf, ?_, hi.best.2.1, fun z hz => by simpa [NotWorse] using hlow z hz⟩
        rw [List.append_assoc]
        exact List.mem_append_left _ hi.best.1
      · obtain ⟨o1, o2⟩ := hm.own _ s3
        exact ⟨hm.half _ s3, o2, o1, fun z hz => by simpa [NotWorse] using hlow z hz⟩
    have hloc : (scan (q.2, q.1) qs).1 = (scan s0.best (q :: qs)).1 := by
      obtain ⟨t1, t2, t3⟩ := scan_spec qs (q.2, q.1)
      have hin : ((scan (q.2, q.1) qs).2, (scan (q.2, q.1) qs).1) ∈ q :: qs := by
        rcases t3 with t3 | t3
        · rw [t3]; simp
        · simp [t3]
      apply le_antisymm
      · obtain ⟨z, hz⟩ := hb.2
        obtain ⟨r, hr, hle⟩ := hm.cover _ z
        rw [hz.1]
        refine le_trans ?_ hle
        rcases List.mem_cons.1 hr with rfl | hr
        · exact t1
        · exact t2 r hr
      · exact s2 _ hin
    refine ⟨hm, ?_, hb.1, hb.2, ?_, by simp [hi.lens], by rw [hi.locals, hloc], by simp⟩
    · intro z hz
      rcases List.mem_append.1 hz with hz | hz
      · rcases List.mem_append.1 hz with hz | hz
        · exact hi.flog z hz
        · obtain ⟨p, hp, rfl⟩ := List.mem_map.1 hz
          exact (hh1 p hp).clip hS
      · obtain ⟨p, hp, rfl⟩ := List.mem_map.1 hz
        exact (hh2 p hp).clip hS
    · show HistBest true fit _ _ (s0.log ++ new1.map c.S.clip ++ new2.map c.S.clip) _
      rw [List.append_assoc]
      refine hi.hist.step (by simp [hl1, hl2]; ring) ?_
      rw [← List.append_assoc]
      obtain ⟨z1, z2, z3⟩ := hb.2
      exact ⟨⟨_, z1, z2.symm⟩, z3⟩

end
end Neorl.CS

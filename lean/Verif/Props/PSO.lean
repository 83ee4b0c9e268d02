import Verif.PSO

/-!
# Property theorems C15: particle swarm optimisation
-/

set_option linter.unusedSectionVars false
set_option linter.unusedVariables false

namespace Neorl.PSO

section
variable {K : Type} [Field K] [LinearOrder K] [IsStrictOrderedRing K] [FloorRing K]

/-- **C15.** The returned pair is the best of everything evaluated (initial swarm included) with its own fitness; `npar * (ngen + 1)`
evaluations, all feasible; `local_fitness` is the best of each generation; `global_fitness` is the best so far *since the first
generation* (the initial swarm is not part of it) and never gets worse; the returned last population is the last swarm with its own fitness,
best first. -/
theorem C15_evolute {c : Conf K} (hS : c.S.OK) {m : Bool} {userFit : List K → K} {dr : ℕ → ℕ → Draw K}
    {pos0 : List (List K)} (hf : ∀ p ∈ pos0, c.S.Feasible p) {r : Result K} (h : evolute c m userFit dr pos0 = .ok r) :
    IsBest m userFit r.log r.x r.y ∧ c.S.Feasible r.x ∧ r.log.length = c.npar * (c.ngen + 1) ∧ r.log.take c.npar = pos0 ∧
    (∀ x ∈ r.log, c.S.Feasible x) ∧
    BlockBest m userFit c.npar c.npar r.log r.locals ∧ r.locals.length = c.ngen ∧
    HistBest m userFit 0 c.npar (r.log.drop c.npar) r.global ∧ r.global.Pairwise (NotWorse m) ∧ r.global.length = c.ngen ∧
    r.lastPop.Perm ((r.log.drop (c.ngen * c.npar)).map (fun x => (x, userFit x))) ∧
    r.lastPop.Pairwise (fun a b => NotWorse m b.2 a.2) := by
  unfold evolute at h
  by_cases hn : pos0.length = c.npar
  swap
  · rw [if_pos hn] at h; cases h
  rw [if_neg (by simpa using hn)] at h
  split at h
  · cases h
  rename_i s hs
  have hi := run_inv hS hn hf hs
  by_cases h0 : c.ngen = 0
  · rw [if_pos h0] at h; cases h
  rw [if_neg h0] at h
  cases h
  have hblk := hi.scores.flip
  have hlen : s.log.length = c.npar * (c.ngen + 1) := by rw [hi.len]; ring
  have hblk0 : BlockBest m userFit 0 c.npar (s.log.drop c.npar) (s.scores.map (sgn (!m))) := by
    intro k y hy
    have := hblk k y hy
    rw [List.drop_drop]
    simpa using this
  have hhist := hblk0.histBest (by rw [List.length_drop, hlen, List.length_map, hi.nscores]; rw [Nat.mul_add, Nat.mul_comm c.ngen]; omega)
  have hprefix : ∀ (g : ℕ) (t : State K), run c (fun x => sgn (!m) (userFit x)) dr pos0 g = .ok t → t.log.take c.npar = pos0 := by
    intro g
    induction g with
    | zero =>
      intro t ht
      simp only [run, init] at ht
      split at ht <;> cases ht
      simp only [Space.map_clip hf]
      exact List.take_of_length_le (by omega)
    | succ g ih =>
      intro t ht
      simp only [run] at ht
      split at ht
      · cases ht
      rename_i t0 ht0
      have hl0 := (run_inv hS hn hf ht0).len
      have := ih t0 ht0
      simp only [gen] at ht
      split at ht
      · cases ht
      split at ht
      · cases ht
      split at ht
      · cases ht
      cases ht
      show List.take c.npar (t0.log ++ _) = pos0
      rw [List.take_append_of_le_length (by rw [hl0]; nlinarith [Nat.zero_le (g * c.npar)])]
      exact this
  have hmap : s.swarm.map (fun p => (p.pos, sgn (!m) (userFit (c.S.clip p.pos)))) =
      (s.log.drop (c.ngen * c.npar)).map (fun x => (x, sgn (!m) (userFit x))) := by
    rw [← hi.pos, List.map_map]
    apply List.map_congr_left
    intro p hp
    have : p.pos ∈ s.log.drop (c.ngen * c.npar) := by rw [← hi.pos]; exact List.mem_map_of_mem hp
    simp only [Function.comp]
    rw [Space.clip_of_inBox (hi.feas _ (List.mem_of_mem_drop this)).1]
  refine ⟨hi.best.flip, hi.feas _ hi.best.1, hlen, hprefix _ s hs, hi.feas, hblk, by simp [hi.nscores], hhist, hhist.pairwise,
    by simp [length_acc, hi.nscores], ?_, ?_⟩
  · simp only
    rw [List.take_of_length_le (by rw [length_sortDesc]; simp [hi.nswarm]), hmap]
    refine ((sortDesc_perm _ _).map _).trans ?_
    rw [List.map_map]
    exact List.Perm.of_eq (List.map_congr_left (fun x _ => by simp))
  · simp only
    rw [List.take_of_length_le (by rw [length_sortDesc]; simp [hi.nswarm])]
    rw [List.pairwise_map]
    exact (sortDesc_sorted _ _).imp (fun h => notWorse_flip.2 h)

/-- **C15.** After `g` generations each particle memory is the best of the `g + 1` positions that particle took, with its own fitness,
and the swarm best is the best of everything. -/
theorem C15_memory {c : Conf K} (hS : c.S.OK) {fit : List K → K} {dr : ℕ → ℕ → Draw K} {pos0 : List (List K)}
    (hn : pos0.length = c.npar) (hf : ∀ p ∈ pos0, c.S.Feasible p) {g : ℕ} {s : State K} (h : run c fit dr pos0 g = .ok s) :
    s.mem.length = c.npar ∧ (∀ i x y, s.mem[i]? = some (x, y) → SlotBest false fit c.npar (g + 1) s.log i x y) ∧
    IsBest false fit s.log s.swm.1 s.swm.2 ∧ ∀ l ∈ s.mem, l.2 ≤ s.swm.2 :=
  let hi := run_inv hS hn hf h
  ⟨hi.nmem, hi.slots, hi.best, hi.mem_le⟩

/-- What `random.choice` needs: for every non-degenerate int dimension an index of the remaining choices. -/
def PickOK (S : Space K) (d : Draw K) : Prop :=
  ∀ (i : ℕ) (b : K × K), S.types[i]? = some .int → S.bounds[i]? = some b → truncZ b.1 ≠ truncZ b.2 →
    (d.pick i : ℤ) < truncZ b.2 - truncZ b.1

theorem newPos_total {c : Conf K} (hS : c.S.OK) {d : Draw K} (hd : PickOK c.S d)
    (hk : (∀ i : ℕ, c.S.types[i]? ≠ some VType.int) ∨ c.intArr = true) {p : List K} (hp : c.S.Feasible p) {i : ℕ} {x : K} (hx : p[i]? = some x) (v : K) :
    ∃ y, newPos c d i x v = .ok y := by
  have hil : i < p.length := (List.getElem?_eq_some_iff.1 hx).1
  have hl := hp.1.length_eq
  have hb : c.S.bounds[i]? = some (c.S.bounds[i]'(by omega)) := List.getElem?_eq_getElem _
  have ht : c.S.types[i]? = some (c.S.types[i]'(by rw [hS.ntypes]; omega)) := List.getElem?_eq_getElem _
  set b := c.S.bounds[i]'(by omega)
  cases hty : c.S.types[i]'(by rw [hS.ntypes]; omega) with
  | float => rw [hty] at ht; simp only [newPos, ht, hb]; exact ⟨_, rfl⟩
  | int =>
    rw [hty] at ht
    have hia : c.intArr = true := by
      rcases hk with hk | hk
      · exact absurd ht (hk i)
      · exact hk
    simp only [newPos, ht, hb, hia, Bool.true_eq_false, if_false]
    split_ifs with h1 h2 h4
    · exact ⟨_, rfl⟩
    · obtain ⟨l, u, e1, e2⟩ := hS.intBounds i b ht hb
      have hxb := inBox_getElem? hp.1 hx hb
      have htr := truncZ_bounds (lb := l) (ub := u) (x := x) (by rw [← e1]; exact hxb.1) (by rw [← e2]; exact hxb.2)
      have hp' := hd i b ht hb h2
      rw [e1, e2, truncZ_intCast, truncZ_intCast] at hp' ⊢
      obtain ⟨r, hr⟩ := flipChoice_total htr.1 htr.2 hp'
      rw [hr]
      exact ⟨_, rfl⟩
    · exfalso
      obtain ⟨n, hn⟩ := hp.2 i x ht hx
      apply h4
      rw [hn, truncZ_intCast]
    · exact ⟨_, rfl⟩

/-- **C15.** On a space without int variables, or with only integer bounds, a non-empty swarm and at least one generation, the call
returns (inertia weights supplied by keyword must have one entry per generation). -/
theorem C15_total {c : Conf K} (hS : c.S.OK) (hk : (∀ i : ℕ, c.S.types[i]? ≠ some VType.int) ∨ c.intArr = true)
    (hw : ∀ ws, c.kwW = some ws → ws.length = c.ngen) {m : Bool} {userFit : List K → K}
    {dr : ℕ → ℕ → Draw K} (hd : ∀ g i, PickOK c.S (dr g i)) {pos0 : List (List K)} (hf : ∀ p ∈ pos0, c.S.Feasible p) (hn : pos0.length = c.npar)
    (h0 : 0 < c.npar) (hg : 0 < c.ngen) : ∃ r, evolute c m userFit dr pos0 = .ok r := by
  have hr : ∀ g, g ≤ c.ngen → ∃ s, run c (fun x => sgn (!m) (userFit x)) dr pos0 g = .ok s := by
    intro g
    induction g with
    | zero =>
      intro _
      cases hfin : run c (fun x => sgn (!m) (userFit x)) dr pos0 0 with
      | ok s' => exact ⟨s', rfl⟩
      | error e =>
        exfalso
        simp only [run, init] at hfin
        split at hfin
        · rename_i hnone
          have : (sortDesc (fun e : List K × K => e.2) (pos0.map fun p => (p, sgn (!m) (userFit (c.S.clip p))))).length = 0 := by
            rw [List.head?_eq_none_iff.1 hnone]; rfl
          simp at this
          subst this
          simp at hn; omega
        · cases hfin
    | succ g ih =>
      intro hgl
      obtain ⟨s, hs⟩ := ih (by omega)
      have hi := run_inv hS hn hf hs
      have hposF : ∀ p ∈ s.swarm, c.S.Feasible p.pos := by
        intro p hp
        have : p.pos ∈ s.log.drop (g * c.npar) := by rw [← hi.pos]; exact List.mem_map_of_mem hp
        exact hi.feas _ (List.mem_of_mem_drop this)
      have hgen : ∃ off, genSwarm c s.w s.swm (dr g) (s.swarm.zip s.mem) = .ok off := by
        refine mapRows_total (P := fun x : Part K × (List K × K) => c.S.Feasible x.1.pos)
          (fun x hx => hposF _ (List.of_mem_zip (a := x.1) (b := x.2) hx).1) ?_
        intro k pl hpl
        have : ∀ f : ℕ → K, ∃ pos, mapRows (fun i x => newPos c (dr g k) i x (f i)) 0 pl.1.pos = .ok pos := by
          intro f
          have key : ∀ (xs : List K) (i0 : ℕ), (∀ i x, xs[i]? = some x → pl.1.pos[i0 + i]? = some x) →
              ∃ pos, mapRows (fun i x => newPos c (dr g k) i x (f i)) i0 xs = .ok pos := by
            intro xs
            induction xs with
            | nil => intro i0 _; exact ⟨[], rfl⟩
            | cons x xs ihx =>
              intro i0 hx
              obtain ⟨y, hy⟩ := newPos_total hS (hd g k) hk hpl (hx 0 x rfl) (f i0)
              obtain ⟨ys, hys⟩ := ihx (i0 + 1) (fun i z hz => by
                have := hx (i + 1) z (by simpa using hz)
                rwa [show i0 + (i + 1) = i0 + 1 + i by ring] at this)
              exact ⟨y :: ys, by simp only [mapRows]; rw [Nat.add_zero] at hy; rw [hy]; simp only [hys]⟩
          exact key pl.1.pos 0 (fun i x hx => by rwa [Nat.zero_add])
        simp only [updateParticle]
        obtain ⟨pos, hpos⟩ := this (fun i => (pl.1.vel.mapIdx fun i v => newVel c s.w s.swm.2 pl.2.2 (dr g k) i (pl.1.pos.getD i 0) v
          (pl.2.1.getD i 0) (s.swm.1.getD i 0)).getD i 0)
        rw [hpos]
        exact ⟨_, rfl⟩
      obtain ⟨off, hoff⟩ := hgen
      have hlo : off.length = c.npar := by rw [(mapRows_ok hoff).1]; simp [hi.nswarm, hi.nmem]
      have hnw : ∃ w, nextW c g s.w = .ok w := by
        unfold nextW
        split
        · split
          · rename_i ws hws
            rw [if_neg (by simpa using hw ws hws), List.getElem?_eq_getElem (by rw [hw ws hws]; omega)]
            exact ⟨_, rfl⟩
          · exact ⟨_, rfl⟩
        · exact ⟨_, rfl⟩
      obtain ⟨w, hw'⟩ := hnw
      have hmx : ∃ mx, listMax ((off.map fun p => p.pos).map (fun p => sgn (!m) (userFit (c.S.clip p)))) = .ok mx := by
        cases off with
        | nil => simp at hlo; omega
        | cons q qs => exact ⟨_, rfl⟩
      obtain ⟨mx, hmx⟩ := hmx
      cases hfin : run c (fun x => sgn (!m) (userFit x)) dr pos0 (g + 1) with
      | ok s' => exact ⟨s', rfl⟩
      | error e => simp only [run, hs, gen, hoff, hw', hmx] at hfin; cases hfin
  obtain ⟨s, hs⟩ := hr c.ngen le_rfl
  unfold evolute
  rw [if_neg (by simpa using hn), hs]
  simp only
  rw [if_neg (by omega)]
  exact ⟨_, rfl⟩

/-! ### Concrete runs -/

def exS : Space ℚ := { bounds := [(-5, 5), (0, 3)], types := [.int, .int], method := .nearestInt, expf := fun x => x }
def exC : Conf ℚ := { S := exS, npar := 3, ngen := 2, c1 := 2, c2 := 2, mech := .timew, w0 := 9 / 10, wmin := 4 / 10, wmax := 9 / 10, kwW := none, sig := fun v => if v < 0 then 1 / 4 else 3 / 4, intArr := true }
def exFit : List ℚ → ℚ := fun x => (x.map (fun v => v * v)).sum
def exPos : List (List ℚ) := [[3, 1], [-2, 2], [1, 1]]
def exDr : ℕ → ℕ → Draw ℚ := fun g i => { r1 := fun _ => 1 / 2, r2 := fun _ => 1 / 3, wr := fun _ => 1 / 2, u := fun j => if j = 0 then 1 / 2 else 1 / 8, pick := fun _ => g % 2 }

example : exS.OK := Space.ok_of_okB (by decide +kernel)
example : ∀ p ∈ exPos, exS.Feasible p := Space.feasible_all (by decide +kernel)
example : ∀ g i, PickOK exS (exDr g i) := by
  intro g i j b ht hb hne
  have hj : j < 2 := (List.getElem?_eq_some_iff.1 hb).1
  have hb' : b = (-5, 5) ∨ b = (0, 3) := by
    match j, hj, hb with
    | 0, _, hb => left; exact (Option.some.inj hb).symm
    | 1, _, hb => right; exact (Option.some.inj hb).symm
  show ((g % 2 : ℕ) : ℤ) < _
  have h5 : truncZ (5 : ℚ) = 5 := by have := truncZ_intCast (K := ℚ) 5; push_cast at this; exact this
  have hm5 : truncZ (-5 : ℚ) = -5 := by have := truncZ_intCast (K := ℚ) (-5); push_cast at this; exact this
  have h3 : truncZ (3 : ℚ) = 3 := by have := truncZ_intCast (K := ℚ) 3; push_cast at this; exact this
  have h0 : truncZ (0 : ℚ) = 0 := by have := truncZ_intCast (K := ℚ) 0; push_cast at this; exact this
  rcases hb' with rfl | rfl
  · simp only [h5, hm5]; omega
  · simp only [h3, h0]; omega
example : (match evolute exC true exFit exDr exPos with
    | .ok r => decide (r.log.length = 9 ∧ r.y = exFit r.x) | _ => false) = true := by decide +kernel

/-- Moves that always leave a good start: every int coordinate is forced away from its value. -/
def exDr2 : ℕ → ℕ → Draw ℚ := fun g i => { r1 := fun _ => 0, r2 := fun _ => 0, wr := fun _ => 0, u := fun _ => 0, pick := fun _ => 1 }

/-- **C15, defect.** `global_fitness` leaves out the initial swarm: here the returned fitness is strictly better than the last (and
best) entry of the recorded history. -/
theorem C15_history_misses_start : ∃ (c : Conf ℚ) (dr : ℕ → ℕ → Draw ℚ) (pos0 : List (List ℚ)) (r : Result ℚ) (y : ℚ),
    evolute c true exFit dr pos0 = .ok r ∧ r.global.getLast? = some y ∧ r.y < y := by
  refine ⟨{ exC with npar := 1, ngen := 1 }, exDr2, [[0, 0]], ?_⟩
  have key : (match evolute { exC with npar := 1, ngen := 1 } true exFit exDr2 [[0, 0]] with
    | .ok r => decide (r.y = 0 ∧ r.global.getLast? = some 20) | _ => false) = true := by decide +kernel
  split at key
  · rename_i r hr
    simp only [decide_eq_true_eq] at key
    exact ⟨r, 20, hr, key.2, by rw [key.1]; norm_num⟩
  · cases key

/-- **C15, defect.** On a space with both int and float variables, as soon as an int variable is to move the call raises a `TypeError`
(`range` of a numpy float), for every fitness function. -/
theorem C15_mixed_space_raises {c : Conf K} (hS : c.S.OK) (hmix : c.intArr = false) {d : Draw K} {i : ℕ} {b : K × K}
    (ht : c.S.types[i]? = some .int) (hb : c.S.bounds[i]? = some b) (hne : truncZ b.1 ≠ truncZ b.2) {x v : K} (hu : d.u i < c.sig v) :
    newPos c d i x v = .error .typeError := by
  simp only [newPos, ht, hb, hmix, hu, if_true, if_neg hne]

example : (match evolute { exC with S := { exS with types := [.float, .int] }, intArr := false } true exFit exDr exPos with
    | .error .typeError => true | _ => false) = true := by decide +kernel

end
end Neorl.PSO

import Verif.Swarm
import Verif.Sort
import Verif.Round

/-!
# Moth-flame optimisation

Model of `neorl/evolu/mfo.py`.  Fitness is an arbitrary function of the encoded vector; `exp(b t) cos(2 pi t)` is an arbitrary function
`spiral`.  `np.argsort` does not promise an order for ties, so sorting is a parameter `srt` that is only assumed to sort (`SortOK`).
-/

set_option linter.unusedSectionVars false
set_option linter.unusedVariables false

namespace Neorl.MFO

section
variable {K : Type} [Field K] [LinearOrder K] [IsStrictOrderedRing K] [FloorRing K]

/-- Arguments, `neorl/evolu/mfo.py` lines 44-90 and 186; `kwR` is the keyword argument `r`. -/
structure Conf (K : Type) where
  S : Space K
  nmoths : ℕ
  ngen : ℕ
  kwR : Option (List K)
  spiral : K → K
  srt : List (List K × K) → List (List K × K)

/-- What is assumed of `np.argsort` / `np.sort` (lines 251-254, 265-271): the same pairs, in ascending order of fitness. -/
def SortOK (srt : List (List K × K) → List (List K × K)) : Prop :=
  ∀ l, (srt l).Perm l ∧ (srt l).Pairwise (fun a b => a.2 ≤ b.2)

/-- Draws for one moth: `random.random()` per coordinate and those of the discrete repair. -/
structure Draw (K : Type) where
  u : ℕ → K
  disc : ℕ → K × ℕ

/-- `Flame_no`, line 228; generation `g` counts from 0 (`gen = g + 1`). -/
def flameNo (n ngen g : ℕ) : ℤ := roundHE ((n : ℚ) - ((g + 1 : ℕ) : ℚ) * (((n : ℚ) - 1) / ((ngen : ℚ) + 1)))

/-- Lines 287-293. -/
def coefR (c : Conf K) (g : ℕ) : Py K :=
  match c.kwR with
  | none => .ok (-1 + ((g + 1 : ℕ) : K) * (-1 / (c.ngen : K)))
  | some rs =>
    if rs.length = c.ngen then
      match rs[g]? with
      | some r => .ok r
      | none => .error .indexError
    else .error .assertion

/-- The flame moth `i` flies around, lines 298 and 307: row `i` up to `Flame_no`, then row `Flame_no`.  (A negative `Flame_no` would
index from the end; `C22_flame_count` excludes it.) -/
def flameIdx (n ngen g i : ℕ) : ℕ := if (i : ℤ) ≤ flameNo n ngen g then i else (flameNo n ngen g).toNat

/-- Lines 296-318 for one moth. -/
def moveMoth (c : Conf K) (g : ℕ) (r : K) (flames : List (List K × K)) (dr : ℕ → Draw K) (i : ℕ) (row : List K) : Py (List K) :=
  match flames[flameIdx c.nmoths c.ngen g i]? with
  | none => .error .indexError
  | some fl =>
    c.S.disc (1 - ((g + 1 : ℕ) : K) * (1 / (c.ngen : K))) (dr i).disc
      (c.S.clip (row.mapIdx fun j x => |fl.1.getD j 0 - x| * c.spiral ((r - 1) * (dr i).u j + 1) + fl.1.getD j 0))

/-- State between generations. -/
structure State (K : Type) where
  pos : List (List K)
  best : WithTop K × List K
  /-- `best_flames` with `best_flame_fitness` -/
  flames : List (List K × K)
  /-- `previous_population` with `previous_fitness` -/
  prev : List (List K × K)
  global : List (WithTop K)
  locals : List K
  log : List (List K)

/-- One generation, lines 226-336.  Generation 0 sorts the moths themselves (248-259); later generations merge the *previous* moths
with the flames (261-276). -/
def gen (c : Conf K) (fit : List K → K) (g : ℕ) (dr : ℕ → Draw K) (s : State K) : Py (State K) :=
  let f := fun p => fit (c.S.clip p)
  let cur := s.pos.map (fun p => (p, f p))
  let best := updAll f s.best s.pos
  let flames := if g = 0 then c.srt cur else (c.srt (s.prev ++ s.flames)).take c.nmoths
  match flames[0]? with
  | none => .error .indexError
  | some top =>
    match coefR c g with
    | .error e => .error e
    | .ok r =>
      match mapRows (moveMoth c g r flames dr) 0 s.pos with
      | .error e => .error e
      | .ok pos =>
        .ok { pos := pos, best := best, flames := flames, prev := cur, global := s.global ++ [best.1], locals := s.locals ++ [top.2],
              log := s.log ++ s.pos.map c.S.clip }

/-- `g` generations from the initial moths (lines 200-222). -/
def run (c : Conf K) (fit : List K → K) (dr : ℕ → ℕ → Draw K) (pos0 : List (List K)) : ℕ → Py (State K)
  | 0 => .ok { pos := pos0, best := (⊤, []), flames := [], prev := [], global := [], locals := [], log := [] }
  | g + 1 =>
    match run c fit dr pos0 g with
    | .error e => .error e
    | .ok s => gen c fit g (dr g) s

/-- What `evolute` returns, plus the ghost log. -/
structure Result (K : Type) where
  x : List K
  y : K
  global : List (Option K)
  locals : List K
  lastPop : List (List K × K)
  log : List (List K)

/-- `evolute`, lines 186-374.  Without a generation `self.best_position` does not exist. -/
def evolute (c : Conf K) (m : Bool) (userFit : List K → K) (dr : ℕ → ℕ → Draw K) (pos0 : List (List K)) : Py (Result K) :=
  if pos0.length ≠ c.nmoths then .error .assertion else
  match run c (fun x => sgn m (userFit x)) dr pos0 c.ngen with
  | .error e => .error e
  | .ok s =>
    match outScore m s.best.1 with
    | none => .error .unboundLocal
    | some y =>
      .ok { x := s.best.2, y := y, global := s.global.map (outScore m), locals := s.locals.map (sgn m),
            lastPop := s.prev.map (fun p => (p.1, sgn m p.2)), log := s.log }

/-! ### Lemmas -/

theorem flameNo_mem {n ngen g : ℕ} (hn : 1 ≤ n) (hg : g < ngen) : 1 ≤ flameNo n ngen g ∧ flameNo n ngen g ≤ n := by
  have h1 : (0 : ℚ) ≤ (n : ℚ) - 1 := by
    have : (1 : ℚ) ≤ n := by exact_mod_cast hn
    linarith
  have hd : (0 : ℚ) < (ngen : ℚ) + 1 := by positivity
  have h2 : ((g + 1 : ℕ) : ℚ) ≤ (ngen : ℚ) := by exact_mod_cast hg
  have h3 : ((g + 1 : ℕ) : ℚ) * (((n : ℚ) - 1) / ((ngen : ℚ) + 1)) ≤ (n : ℚ) - 1 := by
    rw [mul_div_assoc', div_le_iff₀ hd]
    nlinarith
  have h4 : (0 : ℚ) ≤ ((g + 1 : ℕ) : ℚ) * (((n : ℚ) - 1) / ((ngen : ℚ) + 1)) := by positivity
  have := roundHE_mem (K := ℚ) (x := (n : ℚ) - ((g + 1 : ℕ) : ℚ) * (((n : ℚ) - 1) / ((ngen : ℚ) + 1))) (a := 1) (b := (n : ℤ))
    (by push_cast; push_cast at h3; linarith) (by push_cast; push_cast at h4; linarith)
  exact this

theorem flameNo_anti {n ngen g g' : ℕ} (hn : 1 ≤ n) (h : g ≤ g') : flameNo n ngen g' ≤ flameNo n ngen g := by
  apply roundHE_mono
  have h1 : (0 : ℚ) ≤ ((n : ℚ) - 1) / ((ngen : ℚ) + 1) := by
    have : (1 : ℚ) ≤ n := by exact_mod_cast hn
    exact div_nonneg (by linarith) (by positivity)
  have h2 : ((g + 1 : ℕ) : ℚ) ≤ ((g' + 1 : ℕ) : ℚ) := by exact_mod_cast Nat.succ_le_succ h
  have := mul_le_mul_of_nonneg_right h2 h1
  linarith

theorem flameIdx_lt {n ngen g i : ℕ} (hi : i < n) (hg : g < ngen) : flameIdx n ngen g i < n := by
  obtain ⟨h1, h2⟩ := flameNo_mem (n := n) (by omega) hg
  unfold flameIdx
  split_ifs with h <;> omega

/-- Everything known about the state after `g` generations. -/
structure Inv (c : Conf K) (fit : List K → K) (g : ℕ) (s : State K) : Prop where
  npos : s.pos.length = c.nmoths
  feas : ∀ p ∈ s.pos, c.S.Feasible p
  best : RunMin fit s.log s.best
  flog : ∀ p ∈ s.log, c.S.Feasible p
  hist : HistTop fit 0 c.nmoths s.log s.global
  len : s.log.length = g * c.nmoths
  lens : s.global.length = g ∧ s.locals.length = g
  prev : s.prev = (s.log.drop ((g - 1) * c.nmoths)).map (fun p => (p, fit p))
  nfl : g ≠ 0 → s.flames.length = c.nmoths
  sorted : s.flames.Pairwise (fun a b => a.2 ≤ b.2)
  own : ∀ fl ∈ s.flames, fl.1 ∈ s.log.take (max 1 (g - 1) * c.nmoths) ∧ fl.2 = fit fl.1
  keep : ∀ z ∈ s.log.take (max 1 (g - 1) * c.nmoths), (z, fit z) ∈ s.flames ∨ ∀ fl ∈ s.flames, fl.2 ≤ fit z
  locals : ∀ (k : ℕ) (y : K), s.locals[k]? = some y → MinOn fit (s.log.take (max 1 k * c.nmoths)) y
  lastg : g ≠ 0 → s.global.getLast? = some s.best.1

theorem move_feasible {c : Conf K} (hS : c.S.OK) {g : ℕ} {r : K} {flames : List (List K × K)} {dr : ℕ → Draw K} {i : ℕ}
    {row row' : List K} (hl : row.length = c.S.bounds.length) (h : moveMoth c g r flames dr i row = .ok row') :
    c.S.Feasible row' := by
  unfold moveMoth at h
  split at h
  · cases h
  · exact Space.disc_feasible hS (c.S.clip_inBox hS (by simp [hl])) h

theorem run_inv {c : Conf K} (hS : c.S.OK) (hsrt : SortOK c.srt) {fit : List K → K} {dr : ℕ → ℕ → Draw K} {pos0 : List (List K)}
    (hn : pos0.length = c.nmoths) (hf : ∀ p ∈ pos0, c.S.Feasible p) {g : ℕ} {s : State K}
    (h : run c fit dr pos0 g = .ok s) : Inv c fit g s := by
  induction g generalizing s with
  | zero =>
    cases h
    exact ⟨hn, hf, runMin_nil _ _, by simp, histTop_nil fit c.nmoths [], by simp, by simp, by simp, by simp, by simp, by simp, by simp, by simp, by simp⟩
  | succ g ih =>
    simp only [run] at h
    split at h
    · cases h
    rename_i s0 h0
    have hi := ih h0
    simp only [gen] at h
    split at h
    · cases h
    rename_i top htop
    split at h
    · cases h
    rename_i r hr
    split at h
    · cases h
    rename_i pos hp
    cases h
    have hcong : ∀ p ∈ s0.pos, fit (c.S.clip p) = fit p := fun p hp => by rw [Space.clip_of_inBox (hi.feas p hp).1]
    have hcur : s0.pos.map (fun p => (p, fit (c.S.clip p))) = s0.pos.map (fun p => (p, fit p)) :=
      List.map_congr_left (fun p hp => by rw [hcong p hp])
    simp only [hcur] at htop hp
    simp only [Space.map_clip hi.feas, updAll_congr hcong, hcur]
    set flames := if g = 0 then c.srt (s0.pos.map (fun p => (p, fit p))) else (c.srt (s0.prev ++ s0.flames)).take c.nmoths with hfl
    have hlen' : (s0.log ++ s0.pos).length = (g + 1) * c.nmoths := by
      rw [List.length_append, hi.len, hi.npos]; ring
    have hmax : (s0.log ++ s0.pos).take (max 1 (g + 1 - 1) * c.nmoths) = if g = 0 then s0.pos else s0.log := by
      split_ifs with h0
      · subst h0
        have : s0.log = [] := List.eq_nil_of_length_eq_zero (by rw [hi.len]; simp)
        rw [this, List.nil_append]
        exact List.take_of_length_le (by rw [hi.npos]; simp)
      · have : max 1 (g + 1 - 1) = g := by omega
        rw [this]
        rw [← hi.len]
        exact List.take_left
    have hprev : g ≠ 0 → s0.prev = (s0.log.drop ((g - 1) * c.nmoths)).map (fun p => (p, fit p)) := fun _ => hi.prev
    have hsortd : flames.Pairwise (fun a b => a.2 ≤ b.2) := by
      rw [hfl]; split_ifs
      · exact (hsrt _).2
      · exact (hsrt _).2.sublist (List.take_sublist _ _)
    have hown : ∀ fl ∈ flames, fl.1 ∈ (s0.log ++ s0.pos).take (max 1 (g + 1 - 1) * c.nmoths) ∧ fl.2 = fit fl.1 := by
      rw [hmax]
      intro fl hmem
      rw [hfl] at hmem
      split_ifs at hmem ⊢ with h0
      · have := (hsrt _).1.mem_iff.1 hmem
        obtain ⟨p, hp, rfl⟩ := List.mem_map.1 this
        exact ⟨hp, rfl⟩
      · have := (hsrt _).1.mem_iff.1 (List.mem_of_mem_take hmem)
        rcases List.mem_append.1 this with h | h
        · rw [hi.prev] at h
          obtain ⟨p, hp, rfl⟩ := List.mem_map.1 h
          exact ⟨List.mem_of_mem_drop hp, rfl⟩
        · exact ⟨List.mem_of_mem_take (hi.own fl h).1, (hi.own fl h).2⟩
    have hnfl : flames.length = c.nmoths := by
      rw [hfl]; split_ifs with h0
      · rw [(hsrt _).1.length_eq]; simp [hi.npos]
      · rw [List.length_take, (hsrt _).1.length_eq, List.length_append, hi.nfl h0]; omega
    have hkeep : ∀ z ∈ (s0.log ++ s0.pos).take (max 1 (g + 1 - 1) * c.nmoths), (z, fit z) ∈ flames ∨ ∀ fl ∈ flames, fl.2 ≤ fit z := by
      rw [hmax]
      intro z hz
      split_ifs at hz with h0
      · left
        rw [hfl, if_pos h0]
        exact (hsrt _).1.mem_iff.2 (List.mem_map.2 ⟨z, hz, rfl⟩)
      · rw [hfl, if_neg h0]
        -- first: if the pair is in the merged pool
        have hpool : (z, fit z) ∈ s0.prev ++ s0.flames →
            (z, fit z) ∈ (c.srt (s0.prev ++ s0.flames)).take c.nmoths ∨
              ∀ fl ∈ (c.srt (s0.prev ++ s0.flames)).take c.nmoths, fl.2 ≤ fit z := by
          intro hm
          have hm' := (hsrt _).1.mem_iff.2 hm
          rw [← List.take_append_drop c.nmoths (c.srt (s0.prev ++ s0.flames))] at hm'
          rcases List.mem_append.1 hm' with h | h
          · exact Or.inl h
          · right
            intro fl hfl'
            have hs2 := (hsrt (s0.prev ++ s0.flames)).2
            rw [← List.take_append_drop c.nmoths (c.srt (s0.prev ++ s0.flames)), List.pairwise_append] at hs2
            exact hs2.2.2 fl hfl' _ h
        -- `z` is a recent moth or an old one
        have hz' : z ∈ s0.log.take ((g - 1) * c.nmoths) ∨ z ∈ s0.log.drop ((g - 1) * c.nmoths) := by
          rw [← List.mem_append, List.take_append_drop]; exact hz
        rcases hz' with hz' | hz'
        · have hz2 : z ∈ s0.log.take (max 1 (g - 1) * c.nmoths) :=
            (List.take_sublist_take_left (by gcongr; omega)).subset hz'
          rcases hi.keep z hz2 with h | h
          · exact hpool (List.mem_append_right _ h)
          · right
            apply sorted_take_small (key := fun p : List K × K => p.2) (hsrt _).2
            rw [(hsrt _).1.countP_eq, List.countP_append]
            have : s0.flames.countP (fun p => decide (p.2 ≤ fit z)) = s0.flames.length := by
              rw [List.countP_eq_length]
              intro a ha
              simpa using h a ha
            rw [this, hi.nfl h0]
            omega
        · apply hpool
          apply List.mem_append_left
          rw [hi.prev]
          exact List.mem_map.2 ⟨z, hz', rfl⟩
    refine ⟨by rw [(mapRows_ok hp).1, hi.npos], ?_, hi.best.updAll _, ?_, ?_, hlen', by simp [hi.lens], ?_, fun _ => hnfl, hsortd, hown,
      hkeep, ?_, by simp⟩
    · exact mapRows_forall (P := fun x : List K => x.length = c.S.bounds.length) hp (fun p hp => (hi.feas p hp).1.length_eq)
        (fun i x y hx h => move_feasible hS hx h)
    · intro p hp
      rcases List.mem_append.1 hp with hp | hp
      · exact hi.flog p hp
      · exact hi.feas p hp
    · refine hi.hist.step hi.npos ((hi.best.updAll s0.pos).minOn ?_)
      intro he
      have h1 : 0 < flames.length := (List.getElem?_eq_some_iff.1 htop).1
      have h2 := hi.npos
      rw [List.append_eq_nil_iff] at he
      rw [he.2] at h2
      simp at h2
      omega
    · rw [Nat.add_sub_cancel, ← hi.len, List.drop_left]
    · intro k y hy
      rcases Nat.lt_or_ge k g with hk | hk
      · rw [List.getElem?_append_left (by rw [hi.lens.2]; exact hk)] at hy
        have h1 : max 1 k * c.nmoths ≤ g * c.nmoths := Nat.mul_le_mul_right _ (by omega)
        rw [List.take_append_of_le_length (by rw [hi.len]; exact h1)]
        exact hi.locals k y hy
      · rw [List.getElem?_append_right (by rw [hi.lens.2]; exact hk)] at hy
        have hk' : k = g := by
          have := (List.getElem?_eq_some_iff.1 hy).1
          simp [hi.lens.2] at this; omega
        subst hk'
        simp [hi.lens.2] at hy
        subst hy
        have htm : top ∈ flames := List.mem_of_getElem? htop
        obtain ⟨o1, o2⟩ := hown top htm
        rw [Nat.add_sub_cancel] at o1 hkeep
        refine ⟨⟨top.1, o1, o2.symm⟩, ?_⟩
        intro z hz
        have htopmin : ∀ fl ∈ flames, top.2 ≤ fl.2 := by
          intro fl hm
          cases hfl' : flames with
          | nil => rw [hfl'] at hm; cases hm
          | cons a l =>
            rw [hfl'] at htop hm hsortd
            simp at htop
            subst htop
            rcases List.mem_cons.1 hm with rfl | hm
            · exact le_rfl
            · exact (List.pairwise_cons.1 hsortd).1 fl hm
        rcases hkeep z hz with h | h
        · exact htopmin _ h
        · exact h top htm

end
end Neorl.MFO

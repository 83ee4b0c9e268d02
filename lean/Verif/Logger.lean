import Verif.Best

/-!
# The logger of the RL agents

Model of `RLLogger` (`neorl/utils/neorlcalls.py` lines 210-330) together with the counter of `BaseCallback.on_step`
(`neorl/rl/baselines/shared/callbacks.py` lines 87-99).  One call sees the rewards and the individuals `info['x']` of all parallel environments
(a single entry for DQN).  Saving the network is recorded as the call number at which it happens.  Plotting and printing are not modelled.
-/

set_option linter.unusedSectionVars false
set_option linter.unusedVariables false

namespace Neorl.Logger

section
variable {K : Type} [Field K] [LinearOrder K] [IsStrictOrderedRing K] {X : Type}

/-- Constructor arguments (`check_freq`, `save_model`, `save_best_only`) and the mode, lines 224-256. -/
structure Conf where
  minMode : Bool
  freq : ℕ
  save : Bool
  bestOnly : Bool

/-- `_init_callback`, lines 243-256: the mode of the environment if it has one and it is valid, else `max`; `true` means `min`. -/
def initMode (mode : Option String) : Bool := decide (mode = some "min")

/-- Attributes of the logger; `none` stands for `-np.inf` (and for the missing attribute `xbest`). -/
structure Log (X K : Type) where
  calls : ℕ
  rbestMax : Option K
  rbest : Option K
  xbest : Option X
  rhist : List K
  xhist : List X
  saved : List ℕ

/-- The logger after construction, lines 224-241. -/
def init : Log X K := { calls := 0, rbestMax := none, rbest := none, xbest := none, rhist := [], xhist := [], saved := [] }

/-- `rwd > self.rbest_maxonly`, line 287. -/
def improves (r : K) : Option K → Bool
  | none => true
  | some b => decide (b < r)

/-- Lines 282-285 and 287-301: saving and the update of the best. -/
def update (c : Conf) (r : K) (x : X) (s : Log X K) : Log X K :=
  let s1 := if c.save = true ∧ c.bestOnly = false then { s with saved := s.saved ++ [s.calls] } else s
  if improves r s1.rbestMax = true then
    { s1 with xbest := some x, rbestMax := some r, rbest := some (if c.minMode then -r else r),
              saved := if c.save = true ∧ c.bestOnly = true then s1.saved ++ [s1.calls] else s1.saved }
  else s1

/-- Lines 303-308: the histories. -/
def record (c : Conf) (r : K) (x : X) (s : Log X K) : Log X K :=
  { s with rhist := s.rhist ++ [if c.minMode then -r else r], xhist := s.xhist ++ [x] }

/-- `on_step` and `_on_step`, lines 262-316.  `envs` are the rewards and individuals of the parallel environments; the first one is used. -/
def onStep (c : Conf) (envs : List (K × X)) (s0 : Log X K) : Py (Log X K) :=
  let s := { s0 with calls := s0.calls + 1 }
  if c.freq = 0 then .error .zeroDivision else
  if s.calls % c.freq = 0 then
    match envs with
    | [] => .error .indexError
    | (r, x) :: _ => .ok (record c r x (update c r x s))
  else .ok s

/-- A training run: one `on_step` per call of `env.step()`. -/
def feed (c : Conf) : List (List (K × X)) → Log X K → Py (Log X K)
  | [], s => .ok s
  | e :: es, s =>
    match onStep c e s with
    | .error err => .error err
    | .ok s' => feed c es s'

/-! ### Lemmas -/

theorem feed_append (c : Conf) (l : List (List (K × X))) (e : List (K × X)) (s : Log X K) :
    feed c (l ++ [e]) s = match feed c l s with | .error err => .error err | .ok s' => onStep c e s' := by
  induction l generalizing s with
  | nil =>
    simp only [List.nil_append, feed]
    cases onStep c e s <;> rfl
  | cons a l ih =>
    simp only [List.cons_append, feed]
    cases onStep c a s with
    | error err => rfl
    | ok s' => exact ih s'

/-- Which call numbers are recorded. -/
theorem mult_succ {n f : ℕ} (hf : 0 < f) (h : (n + 1) % f = 0) : (n + 1) / f = n / f + 1 ∧ (n / f + 1) * f = n + 1 := by
  have h1 : (n + 1) / f * f = n + 1 := Nat.div_mul_cancel (Nat.dvd_of_mod_eq_zero h)
  have h2 : (n + 1) / f = n / f + 1 := by rw [Nat.succ_div, if_pos (Nat.dvd_of_mod_eq_zero h)]
  exact ⟨h2, by rw [← h2]; exact h1⟩

theorem not_mult_succ {n f : ℕ} (h : ¬ (n + 1) % f = 0) : (n + 1) / f = n / f := by
  rw [Nat.succ_div, if_neg (fun hd => h (Nat.mod_eq_zero_of_dvd hd))]; rfl

/-- The invariant of a run: what has been recorded after the calls `l`. -/
structure Inv (c : Conf) (l : List (List (K × X))) (s : Log X K) : Prop where
  calls : s.calls = l.length
  nx : s.xhist.length = l.length / c.freq
  nr : s.rhist.length = l.length / c.freq
  hx : ∀ i : ℕ, s.xhist[i]? = (l[(i + 1) * c.freq - 1]?).bind (fun e => e.head?.map Prod.snd)
  hr : ∀ i : ℕ, s.rhist[i]? = (l[(i + 1) * c.freq - 1]?).bind (fun e => e.head?.map (fun p => if c.minMode then -p.1 else p.1))
  best : (s.xhist = [] ∧ s.xbest = none ∧ s.rbest = none ∧ s.rbestMax = none) ∨
    ∃ (i : ℕ) (x : X) (y : K), s.xhist[i]? = some x ∧ s.rhist[i]? = some y ∧ s.xbest = some x ∧ s.rbest = some y ∧
      s.rbestMax = some (if c.minMode then -y else y) ∧ (∀ (j : ℕ) z, s.rhist[j]? = some z → NotWorse c.minMode z y) ∧
      (∀ (j : ℕ) z, j < i → s.rhist[j]? = some z → z ≠ y) ∧
      (c.save = true → c.bestOnly = true → s.saved.getLast? = some ((i + 1) * c.freq))
  noSave : c.save = false → s.saved = []
  allSave : c.save = true → c.bestOnly = false → s.saved = (List.range (l.length / c.freq)).map (fun i => (i + 1) * c.freq)

theorem inv_init (c : Conf) : Inv c ([] : List (List (K × X))) init where
  calls := rfl
  nx := by simp [init]
  nr := by simp [init]
  hx := by simp [init]
  hr := by simp [init]
  best := Or.inl ⟨rfl, rfl, rfl, rfl⟩
  noSave := fun _ => rfl
  allSave := by simp [init]

theorem getElem?_snoc_of_lt {α : Type} {l : List α} {a : α} {i : ℕ} (h : i < l.length) : (l ++ [a])[i]? = l[i]? :=
  List.getElem?_append_left h

theorem inv_step {c : Conf} (hf : 0 < c.freq) {l : List (List (K × X))} {e : List (K × X)} {s s' : Log X K} (hi : Inv c l s)
    (h : onStep c e s = .ok s') : Inv c (l ++ [e]) s' := by
  unfold onStep at h
  dsimp only at h
  rw [if_neg (by omega), hi.calls] at h
  split_ifs at h with hm
  · obtain ⟨m1, m2⟩ := mult_succ hf hm
    cases e with
    | nil => cases h
    | cons p es =>
      obtain ⟨r, x⟩ := p
      dsimp only at h
      cases h
      have hlen : ∀ i : ℕ, i < l.length / c.freq → (i + 1) * c.freq - 1 < l.length := by
        intro i hi'
        have : (i + 1) * c.freq ≤ l.length / c.freq * c.freq := Nat.mul_le_mul_right _ hi'
        have := Nat.div_mul_le_self l.length c.freq
        have : 0 < (i + 1) * c.freq := Nat.mul_pos (Nat.succ_pos _) hf
        omega
      have hbig : ∀ i : ℕ, l.length / c.freq < i → l.length < (i + 1) * c.freq - 1 := by
        intro i hi'
        have : (l.length / c.freq + 2) * c.freq ≤ (i + 1) * c.freq := Nat.mul_le_mul_right _ (by omega)
        have : (l.length / c.freq + 2) * c.freq = (l.length / c.freq + 1) * c.freq + c.freq := by ring
        omega
      have hbest : ∀ z : K, improves r s.rbestMax = true ↔ ∀ b, s.rbestMax = some b → b < r := by
        intro _
        cases hb : s.rbestMax <;> simp [improves]
      refine ⟨by simp [record, update]; split_ifs <;> rfl, ?_, ?_, ?_, ?_, ?_, ?_, ?_⟩
      · have : (record c r x (update c r x { s with calls := l.length + 1 })).xhist = s.xhist ++ [x] := by
          simp only [record, update]; split_ifs <;> rfl
        rw [this]; simp [hi.nx, m1]
      · have : (record c r x (update c r x { s with calls := l.length + 1 })).rhist = s.rhist ++ [if c.minMode then -r else r] := by
          simp only [record, update]; split_ifs <;> rfl
        rw [this]; simp [hi.nr, m1]
      · intro i
        have : (record c r x (update c r x { s with calls := l.length + 1 })).xhist = s.xhist ++ [x] := by
          simp only [record, update]; split_ifs <;> rfl
        rw [this]
        rcases lt_trichotomy i (l.length / c.freq) with hlt | rfl | hgt
        · rw [List.getElem?_append_left (by rw [hi.nx]; exact hlt), List.getElem?_append_left (hlen i hlt), hi.hx i]
        · rw [← hi.nx, List.getElem?_concat_length, hi.nx, m2]; simp
        · rw [List.getElem?_eq_none (by simp [hi.nx]; omega), List.getElem?_eq_none (by simp; have := hbig i hgt; omega)]; rfl
      · intro i
        have : (record c r x (update c r x { s with calls := l.length + 1 })).rhist = s.rhist ++ [if c.minMode then -r else r] := by
          simp only [record, update]; split_ifs <;> rfl
        rw [this]
        rcases lt_trichotomy i (l.length / c.freq) with hlt | rfl | hgt
        · rw [List.getElem?_append_left (by rw [hi.nr]; exact hlt), List.getElem?_append_left (hlen i hlt), hi.hr i]
        · rw [← hi.nr, List.getElem?_concat_length, hi.nr, m2]; simp
        · rw [List.getElem?_eq_none (by simp [hi.nr]; omega), List.getElem?_eq_none (by simp; have := hbig i hgt; omega)]; rfl
      · -- the best
        right
        have ex : (record c r x (update c r x { s with calls := l.length + 1 })).xhist = s.xhist ++ [x] := by
          simp only [record, update]; split_ifs <;> rfl
        have er : (record c r x (update c r x { s with calls := l.length + 1 })).rhist = s.rhist ++ [if c.minMode then -r else r] := by
          simp only [record, update]; split_ifs <;> rfl
        by_cases hg : improves r s.rbestMax = true
        · refine ⟨l.length / c.freq, x, if c.minMode then -r else r, ?_, ?_, ?_, ?_, ?_, ?_, ?_, ?_⟩
          · rw [ex, ← hi.nx, List.getElem?_concat_length]
          · rw [er, ← hi.nr, List.getElem?_concat_length]
          · simp only [record, update]; split_ifs <;> simp_all
          · simp only [record, update]; split_ifs <;> simp_all
          · simp only [record, update]; split_ifs <;> simp_all
          · intro j z hz
            rw [er] at hz
            rcases hi.best with ⟨h1, h2, h3, h4⟩ | ⟨i, x', y, h1, h2, h3, h4, h5, h6, h7, h8⟩
            · have : s.rhist = [] := by
                apply List.eq_nil_of_length_eq_zero
                rw [hi.nr, ← hi.nx, h1]; rfl
              rw [this] at hz
              cases j with
              | zero => simp at hz; rw [← hz]; exact NotWorse.refl _
              | succ j => simp at hz
            · have hb := (hbest 0).1 hg _ h5
              have hy : NotWorse c.minMode y (if c.minMode then -r else r) := by
                cases hmm : c.minMode <;> rw [hmm] at hb <;> simp [NotWorse] at hb ⊢ <;> linarith
              by_cases hj : j < s.rhist.length
              · rw [List.getElem?_append_left hj] at hz
                exact (h6 j z hz).trans hy
              · rw [List.getElem?_append_right (by omega)] at hz
                have : j - s.rhist.length = 0 := by
                  by_contra hne
                  rw [List.getElem?_eq_none (by simp; omega)] at hz
                  cases hz
                rw [this] at hz
                simp at hz
                rw [← hz]; exact NotWorse.refl _
          · intro j z hj hz
            rw [er, List.getElem?_append_left (by rw [hi.nr]; exact hj)] at hz
            rcases hi.best with ⟨h1, h2, h3, h4⟩ | ⟨i, x', y, h1, h2, h3, h4, h5, h6, h7, h8⟩
            · have : s.rhist.length = 0 := by rw [hi.nr, ← hi.nx, h1]; rfl
              have := (List.getElem?_eq_some_iff.1 hz).1
              omega
            · have hb := (hbest 0).1 hg _ h5
              have h9 := h6 j z hz
              intro he
              subst he
              cases hmm : c.minMode <;> rw [hmm] at hb h9 <;> simp [NotWorse] at hb h9 <;> linarith
          · intro hs hb
            rw [m2]
            simp only [record, update, hs, hb]
            simp [hg]
        · rcases hi.best with ⟨h1, h2, h3, h4⟩ | ⟨i, x', y, h1, h2, h3, h4, h5, h6, h7, h8⟩
          · exact absurd (by rw [h4]; rfl) hg
          · have hnl : ¬ ∀ b, s.rbestMax = some b → b < r := fun hh => hg ((hbest 0).2 hh)
            have hle : r ≤ if c.minMode then -y else y := by
              by_contra hcon
              exact hnl (fun b hb => by rw [h5] at hb; cases hb; exact not_le.1 hcon)
            refine ⟨i, x', y, ?_, ?_, ?_, ?_, ?_, ?_, ?_, ?_⟩
            · rw [ex, List.getElem?_append_left (List.getElem?_eq_some_iff.1 h1).1, h1]
            · rw [er, List.getElem?_append_left (List.getElem?_eq_some_iff.1 h2).1, h2]
            · simp only [record, update]; split_ifs <;> simp_all
            · simp only [record, update]; split_ifs <;> simp_all
            · simp only [record, update]; split_ifs <;> simp_all
            · intro j z hz
              rw [er] at hz
              by_cases hj : j < s.rhist.length
              · rw [List.getElem?_append_left hj] at hz
                exact h6 j z hz
              · rw [List.getElem?_append_right (by omega)] at hz
                have : j - s.rhist.length = 0 := by
                  by_contra hne
                  rw [List.getElem?_eq_none (by simp; omega)] at hz
                  cases hz
                rw [this] at hz
                simp at hz
                rw [← hz]
                cases hmm : c.minMode <;> rw [hmm] at hle <;> simp [NotWorse] at hle ⊢ <;> linarith
            · intro j z hj hz
              rw [er, List.getElem?_append_left (lt_trans hj (List.getElem?_eq_some_iff.1 h2).1)] at hz
              exact h7 j z hj hz
            · intro hs hb
              rw [← h8 hs hb]
              simp only [record, update, hs, hb]
              simp [hg]
      · intro hs
        simp only [record, update, hs]
        simp [hi.noSave hs]
        split_ifs <;> rfl
      · intro hs hb
        simp only [record, update, hs, hb]
        rw [List.length_append, List.length_singleton, m1, List.range_succ, List.map_append, ← hi.allSave hs hb]
        simp [m2]
        split_ifs <;> simp
  · have m1 := not_mult_succ hm
    cases h
    have hnone : ∀ i : ℕ, (l ++ [e])[(i + 1) * c.freq - 1]? = l[(i + 1) * c.freq - 1]? := by
      intro i
      rcases lt_trichotomy ((i + 1) * c.freq - 1) l.length with hlt | heq | hgt
      · exact List.getElem?_append_left hlt
      · exfalso
        apply hm
        have : 0 < (i + 1) * c.freq := Nat.mul_pos (Nat.succ_pos _) hf
        rw [show l.length + 1 = (i + 1) * c.freq by omega]
        exact Nat.mul_mod_left _ _
      · rw [List.getElem?_eq_none (by rw [List.length_append, List.length_singleton]; omega), List.getElem?_eq_none (by omega)]
    refine ⟨by simp, by simp [m1, hi.nx], by simp [m1, hi.nr], fun i => by rw [hnone]; exact hi.hx i, fun i => by rw [hnone]; exact hi.hr i,
      hi.best, hi.noSave, fun hs hb => ?_⟩
    rw [List.length_append, List.length_singleton, m1]
    exact hi.allSave hs hb

theorem inv_feed {c : Conf} (hf : 0 < c.freq) {l : List (List (K × X))} {s : Log X K} (h : feed c l init = .ok s) : Inv c l s := by
  induction l using List.reverseRecOn generalizing s with
  | nil => cases h; exact inv_init c
  | append_singleton l e ih =>
    rw [feed_append] at h
    split at h
    · cases h
    · rename_i s1 h1
      exact inv_step hf (ih h1) h

end
end Neorl.Logger

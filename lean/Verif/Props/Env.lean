import Verif.Env
import Verif.Props.Grid

/-!
# C46 and C47: the RL environment and its action codecs
-/

set_option linter.unusedSectionVars false
set_option linter.unusedVariables false

namespace Neorl.Env

section
variable {K : Type} [Field K] [LinearOrder K] [IsStrictOrderedRing K] [FloorRing K]

/-! ### C47: codecs -/

/-- **C47.** The action map sends the normalised interval onto the interval of the variable: end points to end points, strictly increasing (so
injective) for a proper interval, and every point of the interval is hit by an action of the normalised interval. -/
theorem C47_action_map {lbn ubn lb ub : K} (hn : lbn < ubn) (hb : lb ≤ ub) :
    actionMap lbn ubn [(lb, ub)] [lbn] = [lb] ∧ actionMap lbn ubn [(lb, ub)] [ubn] = [ub] ∧
    (∀ x, lbn ≤ x → x ≤ ubn → ∃ y, actionMap lbn ubn [(lb, ub)] [x] = [y] ∧ lb ≤ y ∧ y ≤ ub) ∧
    (∀ y, lb ≤ y → y ≤ ub → ∃ x, lbn ≤ x ∧ x ≤ ubn ∧ actionMap lbn ubn [(lb, ub)] [x] = [y]) ∧
    (lb < ub → ∀ x x' y y', x < x' → actionMap lbn ubn [(lb, ub)] [x] = [y] → actionMap lbn ubn [(lb, ub)] [x'] = [y'] → y < y') ∧
    ∀ x x' t, actionMap lbn ubn [(lb, ub)] [(1 - t) * x + t * x'] =
      List.zipWith (fun y y' => (1 - t) * y + t * y') (actionMap lbn ubn [(lb, ub)] [x]) (actionMap lbn ubn [(lb, ub)] [x']) := by
  have hd : 0 < ubn - lbn := by linarith
  have hd' := hd.ne'
  simp only [actionMap, List.zipWith_cons_cons, List.zipWith_nil_right, List.cons.injEq, and_true]
  refine ⟨by simp, by field_simp; ring, ?_, ?_, ?_, ?_⟩
  · intro x h1 h2
    refine ⟨_, rfl, ?_, ?_⟩
    · have : 0 ≤ (x - lbn) * (ub - lb) / (ubn - lbn) := div_nonneg (mul_nonneg (by linarith) (by linarith)) hd.le
      linarith
    · have : (x - lbn) * (ub - lb) / (ubn - lbn) ≤ ub - lb := by
        rw [div_le_iff₀ hd]
        have := mul_le_mul_of_nonneg_right (show x - lbn ≤ ubn - lbn by linarith) (show 0 ≤ ub - lb by linarith)
        linarith
      linarith
  · intro y h1 h2
    rcases eq_or_lt_of_le hb with e | e
    · refine ⟨lbn, le_rfl, hn.le, ?_⟩
      have : y = lb := le_antisymm (by rw [e]; exact h2) h1
      rw [this]
      simp
    · have hw : 0 < ub - lb := by linarith
      refine ⟨(y - lb) * (ubn - lbn) / (ub - lb) + lbn, ?_, ?_, ?_⟩
      · have : 0 ≤ (y - lb) * (ubn - lbn) / (ub - lb) := div_nonneg (mul_nonneg (by linarith) hd.le) hw.le
        linarith
      · have : (y - lb) * (ubn - lbn) / (ub - lb) ≤ ubn - lbn := by
          rw [div_le_iff₀ hw]
          have := mul_le_mul_of_nonneg_right (show y - lb ≤ ub - lb by linarith) hd.le
          linarith
        linarith
      · have := hw.ne'
        field_simp
        ring
  · intro hlt x x' y y' hx h1 h2
    rw [← h1, ← h2]
    have hw : 0 < ub - lb := by linarith
    have := div_lt_div_of_pos_right (mul_lt_mul_of_pos_right (show x - lbn < x' - lbn by linarith) hw) hd
    linarith
  · intro x x' t
    field_simp
    ring

/-- The map works coordinate by coordinate. -/
theorem C47_action_map_coord (lbn ubn : K) (bs : List (K × K)) (a : List K) (d : ℕ) (b : K × K) (x : K) (hb : bs[d]? = some b) (hx : a[d]? = some x) :
    ∃ y, actionMap lbn ubn [b] [x] = [y] ∧ (actionMap lbn ubn bs a)[d]? = some y := by
  refine ⟨_, rfl, ?_⟩
  unfold actionMap
  rw [List.getElem?_zipWith, hb, hx]

/-- **C47.** The multidiscrete codec is a bijection: valid multidiscrete actions (entries below the advertised sizes) decode to integer points of the
box, different actions to different points, and every integer point of the box is decoded from one; an entry outside raises. -/
theorem C47_multidiscrete {bs : List (K × K)} (hi : ∀ b ∈ bs, ∃ l u : ℤ, b.1 = l ∧ b.2 = u ∧ l ≤ u) :
    (∀ a, a.length = bs.length → ((∃ v, decodeMulti bs a = .ok v) ↔ ∀ p ∈ a.zip (multiSizes bs), p.1 < p.2)) ∧
    (∀ a v, a.length = bs.length → decodeMulti bs a = .ok v → InBox bs v ∧ ∀ x ∈ v, ∃ n : ℤ, x = n) ∧
    (∀ a a' v, a.length = bs.length → a'.length = bs.length → decodeMulti bs a = .ok v → decodeMulti bs a' = .ok v → a = a') ∧
    ∀ v, InBox bs v → (∀ x ∈ v, ∃ n : ℤ, x = n) → ∃ a, a.length = bs.length ∧ decodeMulti bs a = .ok v := by
  induction bs with
  | nil =>
    refine ⟨?_, ?_, ?_, ?_⟩
    · intro a ha
      have : a = [] := List.length_eq_zero_iff.1 ha
      subst this
      simp [decodeMulti]
    · intro a v ha h
      have : a = [] := List.length_eq_zero_iff.1 ha
      subst this
      cases h
      exact ⟨.nil, by simp⟩
    · intro a a' v ha ha' _ _
      rw [List.length_eq_zero_iff.1 ha, List.length_eq_zero_iff.1 ha']
    · intro v hv _
      cases hv
      exact ⟨[], rfl, rfl⟩
  | cons b bs ih =>
    obtain ⟨i1, i2, i3, i4⟩ := ih fun b hb => hi b (List.mem_cons_of_mem _ hb)
    obtain ⟨l, u, e1, e2, hlu⟩ := hi b List.mem_cons_self
    have hlen : (rangeOf b).length = (u - l + 1).toNat := by
      unfold rangeOf
      rw [length_pyRange, e1, e2, Int.floor_intCast, Int.floor_intCast]
      congr 1
      ring
    refine ⟨?_, ?_, ?_, ?_⟩
    · intro a ha
      cases a with
      | nil => simp at ha
      | cons a as =>
        have := i1 as (by simpa using ha)
        rw [decodeMulti, multiSizes, List.map_cons, List.zip_cons_cons, List.forall_mem_cons]
        unfold multiSizes at this
        rw [← this]
        constructor
        · rintro ⟨v, h⟩
          split at h
          · cases h
          · rename_i z hz
            split at h
            · cases h
            · rename_i r hr
              exact ⟨(List.getElem?_eq_some_iff.1 hz).1, r, hr⟩
        · rintro ⟨h1, r, hr⟩
          rw [List.getElem?_eq_getElem h1]
          simp only [hr]
          exact ⟨_, rfl⟩
    · intro a v ha h
      cases a with
      | nil => simp at ha
      | cons a as =>
        rw [decodeMulti] at h
        split at h
        · cases h
        · rename_i z hz
          split at h
          · cases h
          · rename_i r hr
            cases h
            obtain ⟨rfl, hz2⟩ := (rangeOf_get e1 e2).1 hz
            obtain ⟨j1, j2⟩ := i2 as r (by simpa using ha) hr
            refine ⟨.cons ⟨?_, ?_⟩ j1, ?_⟩
            · rw [e1]; push_cast; linarith [(Nat.cast_nonneg a : (0 : K) ≤ a)]
            · rw [e2]; exact_mod_cast hz2
            · intro x hx
              rcases List.mem_cons.1 hx with rfl | hx
              · exact ⟨_, rfl⟩
              · exact j2 x hx
    · intro a a' v ha ha' h h'
      cases a with
      | nil => simp at ha
      | cons a as =>
        cases a' with
        | nil => simp at ha'
        | cons a' as' =>
          rw [decodeMulti] at h h'
          split at h
          · cases h
          · rename_i z hz
            split at h
            · cases h
            · rename_i r hr
              cases h
              split at h'
              · cases h'
              · rename_i z' hz'
                split at h'
                · cases h'
                · rename_i r' hr'
                  obtain ⟨rfl, _⟩ := (rangeOf_get e1 e2).1 hz
                  obtain ⟨rfl, _⟩ := (rangeOf_get e1 e2).1 hz'
                  have h'' := Except.ok.inj h'
                  rw [List.cons.injEq] at h''
                  obtain ⟨h3, rfl⟩ := h''
                  have h4 : l + (a' : ℤ) = l + (a : ℤ) := by exact_mod_cast h3
                  rw [i3 as as' r' (by simpa using ha) (by simpa using ha') hr hr']
                  congr 1
                  omega
    · intro v hv hint
      cases hv with
      | cons hx hxs =>
        rename_i x xs
        obtain ⟨n, hn⟩ := hint x List.mem_cons_self
        obtain ⟨as, ha, hd⟩ := i4 xs hxs fun y hy => hint y (List.mem_cons_of_mem _ hy)
        rw [hn, e1, e2] at hx
        have h1 : l ≤ n := by exact_mod_cast hx.1
        have h2 : n ≤ u := by exact_mod_cast hx.2
        refine ⟨(n - l).toNat :: as, by simp [ha], ?_⟩
        have : (rangeOf b)[(n - l).toNat]? = some n := (rangeOf_get e1 e2).2 ⟨by omega, by omega⟩
        rw [decodeMulti, this]
        simp only [hd]
        rw [hn]

/-! ### C46: what is evaluated -/

/-- A call that fits the environment: an action of the right shape (its values are arbitrary for the Box space) and samples from the observation
space for the methods that use them. -/
def OpOK (c : Conf K) : Op K → Prop
  | .step a r smp =>
    match a with
    | .vec v => v.length = c.S.bounds.length
    | .multi v => v.length = c.S.bounds.length
    | .disc _ => c.S.Feasible smp
  | .reset smp => c.method = .value → c.S.Feasible smp

theorem policyPoint_feasible {c : Conf K} (hS : c.S.OK) {a : Action K} {v : List K} {r : ℕ} {smp : List K} (ha : OpOK c (.step a r smp))
    (h : policyPoint c a = .ok v) : c.S.Feasible v := by
  cases a with
  | vec a =>
    rw [policyPoint] at h
    split_ifs at h with h1
    cases h
    refine c.S.clip_feasible hS ?_ (ensureInt_integral _ _)
    have : a.length = c.S.bounds.length := ha
    rw [length_ensureInt]
    simp [actionMap, this]
  | multi a =>
    rw [policyPoint] at h
    split_ifs at h with h1
    split at h
    · cases h
    · rename_i w hw
      cases h
      refine c.S.clip_feasible hS ?_ (ensureInt_integral _ _)
      have hl : a.length = c.S.bounds.length := ha
      have := ((decodeMulti_spec (int_bounds hS h1) hl).1 hw).length_eq
      rw [length_ensureInt, ← this]
      simp [hl]
  | disc a => cases h

theorem decode_ok {c : Conf K} (hk : (c.orig.map Prod.fst).Nodup) {v : List K} (h : c.S.Feasible v) :
    ∃ x, decode c v = .ok x ∧ InSpace c.orig x := by
  obtain ⟨x, h1, h2, _⟩ := C05_decode_encode hk (y := v.map Val.float) (inSpace_of_feasible (encode_noGrid c.orig) h)
  exact ⟨x, h1, h2⟩

/-- The attribute `full_action` of the discrete methods is always a feasible point. -/
def FullOK (c : Conf K) (s : State K) : Prop := c.method = .value → c.S.Feasible s.full ∧ c.allInt = true

theorem valueStep_ok {c : Conf K} (hS : c.S.OK) (hint : c.allInt = true) {a r : ℕ} {smp : List K} (hsmp : c.S.Feasible smp) {s s' : State K}
    (hs : c.S.Feasible s.full) (h : valueStep c a r smp s = .ok s') : c.S.Feasible s'.full := by
  unfold valueStep at h
  split_ifs at h with h1
  · split at h
    · rename_i v b hv hb
      cases h
      obtain ⟨l, u, e1, e2⟩ := int_bounds hS hint b (List.mem_of_getElem? hb)
      have hlu : l ≤ u := by
        have := hS.ordered b (List.mem_of_getElem? hb)
        rw [e1, e2] at this
        exact_mod_cast this
      refine ⟨inBox_of_getElem? (by simp [hs.1.length_eq]) ?_, ?_⟩
      · intro d x b' hx hb'
        rw [List.getElem?_set] at hx
        split_ifs at hx with hd hd2 hin
        · cases hx
          subst hd
          rw [hb] at hb'
          cases hb'
          exact hin
        · cases hx
          subst hd
          rw [hb] at hb'
          cases hb'
          rw [e1, e2, Int.floor_intCast, Int.floor_intCast]
          have h3 := Int.emod_nonneg (r : ℤ) (show u - l + 1 ≠ 0 by omega)
          have h4 := Int.emod_lt_of_pos (r : ℤ) (show 0 < u - l + 1 by omega)
          constructor
          · exact_mod_cast (by omega : l ≤ l + (r : ℤ) % (u - l + 1))
          · exact_mod_cast (by omega : l + (r : ℤ) % (u - l + 1) ≤ u)
        · exact inBox_getElem? hs.1 hx hb'
      · intro d x ht hx
        rw [List.getElem?_set] at hx
        split_ifs at hx with hd hd2 hin
        · cases hx
          exact ⟨_, rfl⟩
        · cases hx
          exact ⟨_, rfl⟩
        · exact hs.2 d x ht hx
    · cases h
  · cases h
    exact hsmp

theorem step_ok {c : Conf K} (hS : c.S.OK) (hk : (c.orig.map Prod.fst).Nodup) {fit : List (Val K) → K} {a : Action K} {r : ℕ} {smp : List K}
    (ha : OpOK c (.step a r smp)) {s s' : State K} {o : Out K} (hs : FullOK c s) (h : step c fit a r smp s = .ok (s', o)) :
    FullOK c s' ∧ c.S.Feasible o.obs ∧ decode c o.obs = .ok o.x ∧ InSpace c.orig o.x ∧ o.reward = (if c.minMode then - fit o.x else fit o.x) := by
  unfold step at h
  split at h
  · cases h
  · rename_i s1 v hm
    have hmap : FullOK c s1 ∧ c.S.Feasible v := by
      unfold mapper at hm
      split at hm
      · rename_i he
        split at hm
        · cases hm
        · rename_i w hw
          cases hm
          exact ⟨hs, policyPoint_feasible hS ha hw⟩
      · rename_i he
        split at hm
        · rename_i a'
          split at hm
          · cases hm
          · rename_i s2 hs2
            cases hm
            have := valueStep_ok hS (hs he).2 ha (hs he).1 hs2
            exact ⟨fun _ => ⟨this, (hs he).2⟩, this⟩
        · cases hm
      · cases hm
    obtain ⟨x, hx, hin⟩ := decode_ok hk hmap.2
    rw [hx] at h
    simp only at h
    cases h
    refine ⟨?_, hmap.2, hx, hin, ?_⟩
    · intro he
      have := hmap.1 he
      split_ifs <;> exact this
    · cases c.minMode <;> simp [sgn]

/-- **C46.** Whatever the agent does — any actions, any resets — every point handed to the fitness is a member of the user's mixed space, it is the
point reported in `info['x']` and the decoded observation, the observation is in the observation space, and the reward is the fitness of that
point (negated in 'min' mode). -/
theorem C46_feasible {c : Conf K} (hS : c.S.OK) (hk : (c.orig.map Prod.fst).Nodup) {fit : List (Val K) → K} {smp : List K} {s0 : State K}
    (hsmp : c.method = .value → c.S.Feasible smp) (h0 : init c smp = .ok s0) {ops : List (Op K)} (hops : ∀ o ∈ ops, OpOK c o) {s : State K} {outs : List (Out K)}
    (h : exec c fit s0 ops = .ok (s, outs)) :
    ∀ o ∈ outs, c.S.Feasible o.obs ∧ decode c o.obs = .ok o.x ∧ InSpace c.orig o.x ∧ o.reward = (if c.minMode then - fit o.x else fit o.x) := by
  have hinit : FullOK c s0 := by
    unfold init at h0
    split_ifs at h0 with h1
    push Not at h1
    intro he
    have hai : c.allInt = true := by simpa using h1 he
    unfold reset at h0
    rw [he] at h0
    cases h0
    exact ⟨hsmp he, hai⟩
  clear h0 hsmp
  induction ops generalizing s0 outs with
  | nil => cases h; simp
  | cons op ops ih =>
    cases op with
    | step a r smp =>
      rw [exec] at h
      split at h
      · cases h
      · rename_i s1 o1 hst
        obtain ⟨f1, f2⟩ := step_ok hS hk (hops _ List.mem_cons_self) hinit hst
        split at h
        · cases h
        · rename_i s2 os hex
          cases h
          intro o ho
          rcases List.mem_cons.1 ho with rfl | ho
          · exact f2
          · exact ih (fun o ho => hops o (List.mem_cons_of_mem _ ho)) hex f1 o ho
    | reset smp =>
      rw [exec] at h
      split at h
      · cases h
      · rename_i s1 w hr
        refine ih (fun o ho => hops o (List.mem_cons_of_mem _ ho)) h ?_
        have hsm := hops _ List.mem_cons_self
        intro he
        unfold reset at hr
        rw [he] at hr
        cases hr
        exact ⟨hsm he, (hinit he).2⟩

/-! ### Episodes -/

/-- Number of `step` calls in a sequence. -/
def steps (ops : List (Op K)) : ℕ := (ops.filter fun o => match o with | .step _ _ _ => true | .reset _ => false).length

/-- Number of `step` calls before the last `reset` (zero without a reset). -/
def lastReset (n : ℕ) : List (Op K) → ℕ → ℕ
  | [], r => r
  | .step _ _ _ :: ops, r => lastReset (n + 1) ops r
  | .reset _ :: ops, _ => lastReset n ops n

theorem mapper_counter {c : Conf K} {a : Action K} {r : ℕ} {smp : List K} {s s1 : State K} {v : List K} (h : mapper c a r smp s = .ok (s1, v)) :
    s1.counter = s.counter ∧ s1.done = s.done := by
  unfold mapper at h
  split at h
  · split at h
    · cases h
    · cases h; exact ⟨rfl, rfl⟩
  · split at h
    · split at h
      · cases h
      · rename_i s2 hs2
        cases h
        unfold valueStep at hs2
        split_ifs at hs2
        · split at hs2
          · cases hs2; exact ⟨rfl, rfl⟩
          · cases hs2
        · cases hs2; exact ⟨rfl, rfl⟩
    · cases h
  · cases h

/-- After `n` steps, the last reset having been after `r` of them. -/
structure EpInv (c : Conf K) (n r : ℕ) (s : State K) : Prop where
  le : r ≤ n
  counter : s.counter = n % c.epLen
  done : s.done = true ↔ ∃ j, r < j ∧ j ≤ n ∧ c.epLen ∣ j

theorem ep_step {c : Conf K} (hL : 1 ≤ c.epLen) {fit : List (Val K) → K} {a : Action K} {r : ℕ} {smp : List K} {s s' : State K} {o : Out K} {n q : ℕ}
    (inv : EpInv c n q s) (h : step c fit a r smp s = .ok (s', o)) : EpInv c (n + 1) q s' ∧ o.done = s'.done := by
  unfold step at h
  split at h
  · cases h
  · rename_i s1 v hm
    obtain ⟨e1, e2⟩ := mapper_counter hm
    split at h
    · cases h
    · rename_i x hx
      cases h
      refine ⟨?_, rfl⟩
      have hmod : (n + 1) % c.epLen = if s1.counter + 1 = c.epLen then 0 else s1.counter + 1 := by
        rw [e1, inv.counter]
        rw [Nat.add_mod]
        rcases Nat.lt_or_ge (n % c.epLen + 1) c.epLen with hlt | hge
        · rw [if_neg (by omega)]
          rw [Nat.mod_eq_of_lt (show 1 < c.epLen by omega), Nat.mod_eq_of_lt hlt]
        · have := Nat.mod_lt n (show 0 < c.epLen by omega)
          have he : n % c.epLen + 1 = c.epLen := by omega
          rw [if_pos he]
          rcases Nat.eq_or_lt_of_le hL with h1 | h1
          · rw [← h1, Nat.mod_one]
          · rw [Nat.mod_eq_of_lt h1, he, Nat.mod_self]
      have hle := inv.le
      split_ifs at hmod with hc
      · rw [if_pos hc]
        refine ⟨by omega, hmod.symm, ?_⟩
        simp only [true_iff]
        exact ⟨n + 1, by omega, le_rfl, Nat.dvd_of_mod_eq_zero hmod⟩
      · rw [if_neg hc]
        refine ⟨by omega, hmod.symm, ?_⟩
        dsimp only
        rw [e2, inv.done]
        constructor
        · rintro ⟨j, h1, h2, h3⟩
          exact ⟨j, h1, by omega, h3⟩
        · rintro ⟨j, h1, h2, h3⟩
          refine ⟨j, h1, ?_, h3⟩
          rcases Nat.lt_or_ge n j with hj | hj
          · have : j = n + 1 := by omega
            rw [this] at h3
            have := Nat.mod_eq_zero_of_dvd h3
            omega
          · exact hj

theorem ep_exec {c : Conf K} (hL : 1 ≤ c.epLen) {fit : List (Val K) → K} {ops : List (Op K)} : ∀ {s s' : State K} {outs : List (Out K)} {n q : ℕ},
    EpInv c n q s → exec c fit s ops = .ok (s', outs) → EpInv c (n + steps ops) (lastReset n ops q) s' ∧ outs.length = steps ops := by
  induction ops with
  | nil =>
    intro s s' outs n q inv h
    cases h
    exact ⟨inv, rfl⟩
  | cons op ops ih =>
    intro s s' outs n q inv h
    cases op with
    | step a r smp =>
      rw [exec] at h
      split at h
      · cases h
      · rename_i s1 o1 hst
        split at h
        · cases h
        · rename_i s2 os hex
          cases h
          obtain ⟨i1, i2⟩ := ih (ep_step hL inv hst).1 hex
          refine ⟨?_, by simp [steps, i2]⟩
          have : n + steps (Op.step a r smp :: ops) = n + 1 + steps ops := by
            unfold steps
            rw [List.filter_cons]
            simp only [if_true, List.length_cons]
            omega
          rw [this]
          exact i1
    | reset smp =>
      rw [exec] at h
      split at h
      · cases h
      · rename_i s1 w hr
        have hinv : EpInv c n n s1 := by
          have : s1.counter = s.counter ∧ s1.done = false := by
            unfold reset at hr
            split at hr <;> first | (cases hr; exact ⟨rfl, rfl⟩) | cases hr
          refine ⟨le_rfl, by rw [this.1]; exact inv.counter, ?_⟩
          rw [this.2]
          constructor
          · intro h; cases h
          · rintro ⟨j, h1, h2, _⟩
            omega
        obtain ⟨i1, i2⟩ := ih hinv h
        have : steps (Op.reset smp :: ops) = steps ops := by
          unfold steps
          rw [List.filter_cons]
          simp
        rw [this]
        exact ⟨i1, i2⟩

/-- **C46.** Episodes. After any sequence of calls that ends with a `step`, the `done` flag returned by it is set exactly when the number of all steps so
far, or one since the last reset, is a multiple of `episode_length`.  (`reset` does not restart the counter.) -/
theorem C46_episode {c : Conf K} (hL : 1 ≤ c.epLen) {fit : List (Val K) → K} {smp : List K} {s0 : State K} (h0 : init c smp = .ok s0) {ops : List (Op K)}
    {a : Action K} {r : ℕ} {smp' : List K} {s : State K} {outs : List (Out K)} (h : exec c fit s0 (ops ++ [.step a r smp']) = .ok (s, outs)) :
    ∃ o, outs.getLast? = some o ∧ outs.length = steps ops + 1 ∧
      (o.done = true ↔ ∃ j, lastReset 0 ops 0 < j ∧ j ≤ steps ops + 1 ∧ c.epLen ∣ j) := by
  have hinv0 : EpInv c 0 0 s0 := by
    unfold init at h0
    split_ifs at h0
    split at h0
    · cases h0
    · cases h0
      refine ⟨le_rfl, by simp, ?_⟩
      constructor
      · intro h; cases h
      · rintro ⟨j, h1, h2, _⟩
        omega
  have happ : ∀ (ops : List (Op K)) (s0 s : State K) (outs : List (Out K)), exec c fit s0 (ops ++ [.step a r smp']) = .ok (s, outs) →
      ∃ s1 o outs1, exec c fit s0 ops = .ok (s1, outs1) ∧ step c fit a r smp' s1 = .ok (s, o) ∧ outs = outs1 ++ [o] := by
    intro ops
    induction ops with
    | nil =>
      intro s0 s outs h
      rw [List.nil_append, exec] at h
      split at h
      · cases h
      · rename_i s1 o hst
        rw [exec] at h
        cases h
        exact ⟨s0, o, [], rfl, hst, rfl⟩
    | cons op ops ih =>
      intro s0 s outs h
      cases op with
      | step a1 r1 smp1 =>
        rw [List.cons_append, exec] at h
        split at h
        · cases h
        · rename_i s1 o1 hst
          split at h
          · cases h
          · rename_i s2 os hex
            cases h
            obtain ⟨s3, o3, outs3, g1, g2, rfl⟩ := ih s1 s os hex
            exact ⟨s3, o3, o1 :: outs3, by rw [exec, hst]; simp only [g1], g2, rfl⟩
      | reset smp1 =>
        rw [List.cons_append, exec] at h
        split at h
        · cases h
        · rename_i s1 w hr
          obtain ⟨s3, o3, outs3, g1, g2, g3⟩ := ih s1 s outs h
          exact ⟨s3, o3, outs3, by rw [exec, hr]; exact g1, g2, g3⟩
  obtain ⟨s1, o, outs1, g1, g2, rfl⟩ := happ ops s0 s outs h
  obtain ⟨i1, i2⟩ := ep_exec hL hinv0 g1
  obtain ⟨j1, j2⟩ := ep_step hL i1 g2
  refine ⟨o, by simp, by simp [i2], ?_⟩
  rw [j2, j1.done, Nat.zero_add]

/-- **C46.** The usual loop, which resets after every finished episode: `done` comes exactly every `episode_length` steps.  (`lastReset` is a multiple
of the length and no multiple lies strictly between.) -/
theorem C46_episode_regular {c : Conf K} (hL : 1 ≤ c.epLen) {fit : List (Val K) → K} {smp : List K} {s0 : State K} (h0 : init c smp = .ok s0)
    {ops : List (Op K)} {a : Action K} {r : ℕ} {smp' : List K} {s : State K} {outs : List (Out K)}
    (h : exec c fit s0 (ops ++ [.step a r smp']) = .ok (s, outs))
    (hr : lastReset 0 ops 0 = steps ops / c.epLen * c.epLen) :
    ∃ o, outs.getLast? = some o ∧ (o.done = true ↔ c.epLen ∣ outs.length) := by
  obtain ⟨o, h1, h2, h3⟩ := C46_episode hL h0 h
  refine ⟨o, h1, ?_⟩
  rw [h3, h2, hr]
  constructor
  · rintro ⟨j, g1, g2, k, rfl⟩
    rcases Nat.lt_or_ge (c.epLen * k) (steps ops + 1) with hlt | hge
    · exfalso
      have h4 : k ≤ steps ops / c.epLen := by
        rw [Nat.le_div_iff_mul_le (by omega), Nat.mul_comm]
        omega
      have := Nat.mul_le_mul_left c.epLen h4
      rw [Nat.mul_comm c.epLen (steps ops / c.epLen)] at this
      omega
    · have : c.epLen * k = steps ops + 1 := by omega
      rw [← this]
      exact Nat.dvd_mul_right _ _
  · intro hd
    refine ⟨steps ops + 1, ?_, le_rfl, hd⟩
    have := Nat.div_mul_le_self (steps ops) c.epLen
    omega

/-! ### Reachability, totality, the discrete methods -/

/-- **C46.** Every member of the encoded space can be reached: by an action of the normalised box, or by a valid multidiscrete action. -/
theorem C46_reach {c : Conf K} (hS : c.S.OK) {v : List K} (hv : c.S.Feasible v) :
    (c.allInt = false → ∃ a : List K, a.length = c.S.bounds.length ∧ (∀ x ∈ a, -1 ≤ x ∧ x ≤ 1) ∧ policyPoint c (.vec a) = .ok v) ∧
    (c.allInt = true → ∃ a : List ℕ, a.length = c.S.bounds.length ∧ (∀ p ∈ a.zip (multiSizes c.S.bounds), p.1 < p.2) ∧ policyPoint c (.multi a) = .ok v) := by
  constructor
  · intro hai
    have : ∀ (bs : List (K × K)) (v : List K), InBox bs v → ∃ a : List K, a.length = bs.length ∧ (∀ x ∈ a, -1 ≤ x ∧ x ≤ 1) ∧ actionMap (-1) 1 bs a = v := by
      intro bs v h
      induction h with
      | nil => exact ⟨[], rfl, by simp, rfl⟩
      | @cons b y bs ys hy _ ih =>
        obtain ⟨a, h1, h2, h3⟩ := ih
        obtain ⟨x, hx1, hx2, hx3⟩ := (C47_action_map (show (-1 : K) < 1 by norm_num) (hy.1.trans hy.2)).2.2.2.1 y hy.1 hy.2
        refine ⟨x :: a, by simp [h1], ?_, ?_⟩
        · intro z hz
          rcases List.mem_cons.1 hz with rfl | hz
          · exact ⟨hx1, hx2⟩
          · exact h2 z hz
        · simp only [actionMap, List.zipWith_cons_cons, List.zipWith_nil_right, List.cons.injEq, and_true] at hx3 h3 ⊢
          exact ⟨hx3, h3⟩
    obtain ⟨a, h1, h2, h3⟩ := this _ _ hv.1
    refine ⟨a, h1, h2, ?_⟩
    rw [policyPoint, if_neg (by rw [hai]; simp), h3, ensureInt_id hv.2, c.S.clip_of_inBox hv.1]
  · intro hai
    have hib := int_bounds hS hai
    have hib' : ∀ b ∈ c.S.bounds, ∃ l u : ℤ, b.1 = l ∧ b.2 = u ∧ l ≤ u := by
      intro b hb
      obtain ⟨l, u, e1, e2⟩ := hib b hb
      refine ⟨l, u, e1, e2, ?_⟩
      have := hS.ordered b hb
      rw [e1, e2] at this
      exact_mod_cast this
    obtain ⟨m1, m2, m3, m4⟩ := C47_multidiscrete hib'
    obtain ⟨a, ha, hd⟩ := m4 v hv.1 (by
      intro x hx
      obtain ⟨d, hd⟩ := List.mem_iff_getElem?.1 hx
      have hlt : d < c.S.types.length := by
        have := (List.getElem?_eq_some_iff.1 hd).1
        rw [hS.ntypes, ← hv.1.length_eq]
        exact this
      exact hv.2 d x (by
        rw [List.getElem?_eq_getElem hlt]
        exact congrArg some (allInt_iff.1 hai d _ (List.getElem?_eq_getElem hlt))) hd)
    refine ⟨a, ha, (m1 a ha).1 ⟨v, hd⟩, ?_⟩
    rw [policyPoint, if_pos hai, hd]
    dsimp only
    rw [ensureInt_id hv.2, c.S.clip_of_inBox hv.1]

/-- **C46.** A normalised action is mapped affinely, then int variables are truncated towards zero, then clamped: for an action inside the normalised box
each coordinate is the image under the action map, truncated for int variables. -/
theorem C46_policy_value {c : Conf K} (hS : c.S.OK) {a v : List K} (hl : a.length = c.S.bounds.length) (ha : ∀ x ∈ a, -1 ≤ x ∧ x ≤ 1)
    (h : policyPoint c (.vec a) = .ok v) (d : ℕ) (b : K × K) (x : K) (hb : c.S.bounds[d]? = some b) (hx : a[d]? = some x) :
    v[d]? = some (if c.S.types[d]? = some VType.int then ((truncZ (b.1 + (x + 1) / 2 * (b.2 - b.1)) : ℤ) : K) else b.1 + (x + 1) / 2 * (b.2 - b.1)) := by
  rw [policyPoint] at h
  split_ifs at h with h1
  cases h
  have hval : (x - -1) * (b.2 - b.1) / (1 - -1) + b.1 = b.1 + (x + 1) / 2 * (b.2 - b.1) := by
    have : (1 : K) - -1 = 2 := by norm_num
    rw [this]
    ring
  have ho := hS.ordered b (List.mem_of_getElem? hb)
  have hin : b.1 ≤ b.1 + (x + 1) / 2 * (b.2 - b.1) ∧ b.1 + (x + 1) / 2 * (b.2 - b.1) ≤ b.2 := by
    obtain ⟨x1, x2⟩ := ha x (List.mem_of_getElem? hx)
    constructor
    · have : 0 ≤ (x + 1) / 2 * (b.2 - b.1) := mul_nonneg (by linarith) (by linarith)
      linarith
    · have := mul_le_mul_of_nonneg_right (show (x + 1) / 2 ≤ 1 by linarith) (show 0 ≤ b.2 - b.1 by linarith)
      linarith
  unfold Space.clip
  rw [ensureBounds_eq_zipWith hS.ordered, List.getElem?_zipWith, hb]
  have h2 : (ensureInt c.S.types (actionMap (-1) 1 c.S.bounds a))[d]? =
      some (if c.S.types[d]? = some VType.int then ((truncZ (b.1 + (x + 1) / 2 * (b.2 - b.1)) : ℤ) : K) else b.1 + (x + 1) / 2 * (b.2 - b.1)) := by
    unfold ensureInt actionMap
    rw [List.getElem?_mapIdx, List.getElem?_zipWith, hb, hx]
    simp only [Option.map_some]
    rw [hval]
  rw [h2]
  simp only
  congr 1
  split_ifs with ht
  · obtain ⟨l, u, e1, e2⟩ := hS.intBounds d b ht hb
    rw [e1, e2] at hin
    have := truncZ_bounds hin.1 hin.2
    rw [← e1, ← e2] at this
    apply clamp_of_mem
    · rw [e1]; rw [e2]; rw [e1, e2] at this; exact_mod_cast this.1
    · rw [e2]; rw [e1] at *; rw [e2] at this; exact_mod_cast this.2
  · exact clamp_of_mem hin.1 hin.2

/-- **C46.** The methods with one discrete action ('dqn', 'acer') change one coordinate per step, in turn: step `i` of a round sets coordinate `i` to
the value named by the action when that is in the range of the variable (otherwise to a random value of the range) and leaves the others; after the
last coordinate one step ignores the action and resamples the whole point. -/
theorem C46_value_step {c : Conf K} (hS : c.S.OK) (hint : c.allInt = true) {a r : ℕ} {smp : List K} {s s' : State K} (hs : s.full.length = c.S.bounds.length)
    (h : valueStep c a r smp s = .ok s') :
    (s.index < c.S.bounds.length → s'.index = s.index + 1 ∧ (∀ d, d ≠ s.index → s'.full[d]? = s.full[d]?) ∧
      ∃ (v z : ℤ) (b : K × K), c.discreteMap[a]? = some v ∧ c.S.bounds[s.index]? = some b ∧ s'.full[s.index]? = some (z : K) ∧ b.1 ≤ z ∧ (z : K) ≤ b.2 ∧
        (b.1 ≤ v → (v : K) ≤ b.2 → z = v)) ∧
    (¬ s.index < c.S.bounds.length → s'.index = 0 ∧ s'.full = smp) := by
  unfold valueStep at h
  split_ifs at h with h1
  · refine ⟨fun _ => ?_, fun hn => absurd h1 hn⟩
    split at h
    · rename_i v b hv hb
      cases h
      obtain ⟨l, u, e1, e2⟩ := int_bounds hS hint b (List.mem_of_getElem? hb)
      have hlu : l ≤ u := by
        have := hS.ordered b (List.mem_of_getElem? hb)
        rw [e1, e2] at this
        exact_mod_cast this
      refine ⟨rfl, ?_, v, (if b.1 ≤ (v : K) ∧ (v : K) ≤ b.2 then v else ⌊b.1⌋ + ((r : ℤ) % (⌊b.2⌋ - ⌊b.1⌋ + 1))), b, hv, hb, ?_, ?_⟩
      · intro d hd
        rw [List.getElem?_set_ne (Ne.symm hd)]
      · rw [List.getElem?_set_self (by omega)]
      · have hz : b.1 ≤ (((if b.1 ≤ (v : K) ∧ (v : K) ≤ b.2 then v else ⌊b.1⌋ + ((r : ℤ) % (⌊b.2⌋ - ⌊b.1⌋ + 1)) : ℤ)) : K) ∧
            (((if b.1 ≤ (v : K) ∧ (v : K) ≤ b.2 then v else ⌊b.1⌋ + ((r : ℤ) % (⌊b.2⌋ - ⌊b.1⌋ + 1)) : ℤ)) : K) ≤ b.2 := by
          by_cases hin : b.1 ≤ (v : K) ∧ (v : K) ≤ b.2
          · rw [if_pos hin]; exact hin
          · rw [if_neg hin, e1, e2, Int.floor_intCast, Int.floor_intCast]
            have h3 := Int.emod_nonneg (r : ℤ) (show u - l + 1 ≠ 0 by omega)
            have h4 := Int.emod_lt_of_pos (r : ℤ) (show 0 < u - l + 1 by omega)
            constructor
            · exact_mod_cast (by omega : l ≤ l + (r : ℤ) % (u - l + 1))
            · exact_mod_cast (by omega : l + (r : ℤ) % (u - l + 1) ≤ u)
        exact ⟨hz.1, hz.2, fun g1 g2 => if_pos ⟨g1, g2⟩⟩
    · cases h
  · refine ⟨fun hn => absurd hn h1, fun _ => ?_⟩
    cases h
    exact ⟨rfl, rfl⟩

/-- An action of the action space the environment advertises, lines 161-182. -/
def ActionOK (c : Conf K) : Action K → Prop
  | .vec a => c.method = .policy ∧ c.allInt = false ∧ a.length = c.S.bounds.length
  | .multi a => c.method = .policy ∧ c.allInt = true ∧ a.length = c.S.bounds.length ∧ ∀ p ∈ a.zip (multiSizes c.S.bounds), p.1 < p.2
  | .disc a => c.method = .value ∧ a < c.discreteMap.length

/-- **C46.** An action of the advertised action space never raises. -/
theorem C46_total {c : Conf K} (hS : c.S.OK) (hk : (c.orig.map Prod.fst).Nodup) {fit : List (Val K) → K} {a : Action K} {r : ℕ} {smp : List K} {s : State K}
    (ha : ActionOK c a) (hsmp : c.method = .value → c.S.Feasible smp) (hs : FullOK c s) : ∃ s' o, step c fit a r smp s = .ok (s', o) := by
  have hmap : ∃ s1 v, mapper c a r smp s = .ok (s1, v) ∧ c.S.Feasible v := by
    cases a with
    | vec a =>
      obtain ⟨h1, h2, h3⟩ := ha
      have hp : policyPoint c (.vec a) = .ok (c.S.clip (ensureInt c.S.types (actionMap (-1) 1 c.S.bounds a))) := by
        rw [policyPoint, if_neg (by rw [h2]; simp)]
      exact ⟨s, _, by unfold mapper; rw [h1]; simp only [hp], policyPoint_feasible hS (a := .vec a) (r := 0) (smp := []) h3 hp⟩
    | multi a =>
      obtain ⟨h1, h2, h3, h4⟩ := ha
      have hib' : ∀ b ∈ c.S.bounds, ∃ l u : ℤ, b.1 = l ∧ b.2 = u ∧ l ≤ u := by
        intro b hb
        obtain ⟨l, u, e1, e2⟩ := int_bounds hS h2 b hb
        refine ⟨l, u, e1, e2, ?_⟩
        have := hS.ordered b hb
        rw [e1, e2] at this
        exact_mod_cast this
      obtain ⟨v, hv⟩ := ((C47_multidiscrete hib').1 a h3).2 h4
      have hp : policyPoint c (.multi a) = .ok (c.S.clip (ensureInt c.S.types v)) := by
        rw [policyPoint, if_pos h2, hv]
      exact ⟨s, _, by unfold mapper; rw [h1]; simp only [hp], policyPoint_feasible hS (a := .multi a) (r := 0) (smp := []) h3 hp⟩
    | disc a =>
      obtain ⟨h1, h2⟩ := ha
      have hv : ∃ s', valueStep c a r smp s = .ok s' := by
        unfold valueStep
        split_ifs with hi
        · rw [List.getElem?_eq_getElem h2, List.getElem?_eq_getElem hi]
          exact ⟨_, rfl⟩
        · exact ⟨_, rfl⟩
      obtain ⟨s', hv⟩ := hv
      exact ⟨s', s'.full, by unfold mapper; rw [h1]; simp only [hv], valueStep_ok hS (hs h1).2 (hsmp h1) (hs h1).1 hv⟩
  obtain ⟨s1, v, hm, hf⟩ := hmap
  obtain ⟨x, hx, _⟩ := decode_ok hk hf
  unfold step
  rw [hm]
  simp only [hx]
  exact ⟨_, _, rfl⟩

/-- **C46.** Construction: 'dqn' and 'acer' refuse a space with a float variable; 'neat', which is on the list of accepted names, always raises because
`reset` never binds its result. -/
theorem C46_init {c : Conf K} {smp : List K} :
    (c.method = .value → c.allInt = false → init c smp = .error .valueError) ∧ (c.method = .neat → init c smp = .error .unboundLocal) ∧
    ((c.method = .policy ∨ (c.method = .value ∧ c.allInt = true)) → ∃ s, init c smp = .ok s ∧ s.counter = 0 ∧ s.done = false ∧ s.index = 0) := by
  refine ⟨?_, ?_, ?_⟩
  · intro h1 h2
    unfold init
    rw [if_pos ⟨h1, h2⟩]
  · intro h
    unfold init reset
    rw [if_neg (by rw [h]; simp), h]
  · rintro (h | ⟨h1, h2⟩)
    · refine ⟨{ counter := 0, done := false, index := 0, full := [] }, ?_, rfl, rfl, rfl⟩
      unfold init reset
      rw [if_neg (by rw [h]; simp), h]
    · refine ⟨{ counter := 0, done := false, index := 0, full := smp }, ?_, rfl, rfl, rfl⟩
      unfold init reset
      rw [if_neg (by rw [h2]; simp), h1]

/-- **C46, defect.** `reset` of the policy methods returns a sample of the *action* space as first observation: whatever the sample `smp`, the value
returned is `smp` itself, so it is a point of the observation space only by accident. -/
theorem C46_reset_returns_action {c : Conf K} (hm : c.method = .policy) (smp : List K) (s : State K) : ∃ s', reset c smp s = .ok (s', smp) := by
  unfold reset
  rw [hm]
  exact ⟨_, rfl⟩

end

/-! ### Concrete cases -/

/-- A mixed space: an int, a float and a grid variable. -/
def exC : Conf ℚ := { method := .policy, orig := [("a", .int 1 4), ("b", .float (1 / 2) 2), ("c", .grid [.str "lo", .str "mid", .str "hi"])], minMode := true, epLen := 2, order := id }
/-- A discrete space for 'dqn'. -/
def exD : Conf ℚ := { method := .value, orig := [("a", .int 1 4), ("c", .grid [.str "lo", .str "mid", .str "hi"])], minMode := false, epLen := 3, order := id }
def exFit : List (Val ℚ) → ℚ := fun x => match x with | .float y :: _ => y | _ => 0

example : exC.S.OK := Space.ok_of_okB (by decide +kernel)
example : (exC.orig.map Prod.fst).Nodup := by decide +kernel
example : exC.allInt = false ∧ exD.allInt = true := by decide +kernel
/-- Actions of both kinds are valid, and a state between two steps keeps a feasible point. -/
example : ActionOK exC (.vec [0, 7, 9 / 10]) ∧ ActionOK exD (.disc 3) := ⟨⟨rfl, by decide +kernel, by decide +kernel⟩, ⟨rfl, by decide +kernel⟩⟩
example : exD.S.OK := Space.ok_of_okB (by decide +kernel)
example : exD.discreteMap = [3, 4, 0, 1, 2] := by decide +kernel

/-- Actions far outside the normalised box are clamped; the grid variable is decoded. -/
example : (match init exC [0, 0, 0] with
    | .ok s => (match exec exC exFit s [.step (.vec [0, 7, 9 / 10]) 0 [], .step (.vec [-3, 0, 1]) 0 [], .reset [0, 0, 0], .step (.vec [1, 0, -1]) 0 []] with
      | .ok (_, outs) => decide (outs.map (fun o => o.x) = [[.float 2, .float 2, .str "mid"], [.float 1, .float (5 / 4), .str "hi"], [.float 4, .float (5 / 4), .str "lo"]] ∧
          outs.map (fun o => o.reward) = [-2, -1, -4] ∧ outs.map (fun o => o.done) = [false, true, false])
      | _ => false)
    | _ => false) = true := by decide +kernel

/-- **C46, defect.** The first observation of a policy method can lie outside the observation space: here the all-zero sample of the normalised action box, for
variables whose lower bounds are positive. -/
theorem C46_reset_outside : ∃ (c : Conf ℚ) (smp : List ℚ) (s s' : State ℚ) (obs : List ℚ), c.S.OK ∧ c.method = .policy ∧ smp.length = c.S.bounds.length ∧
    (∀ x ∈ smp, -1 ≤ x ∧ x ≤ 1) ∧ reset c smp s = .ok (s', obs) ∧ ¬ InBox c.S.bounds obs := by
  refine ⟨exC, [0, 0, 0], { counter := 0, done := false, index := 0, full := [] }, _, [0, 0, 0], Space.ok_of_okB (by decide +kernel), rfl, by decide +kernel,
    by decide +kernel, rfl, ?_⟩
  intro h
  have := inBox_getElem? (d := 0) h rfl (show exC.S.bounds[0]? = some (1, 4) by decide +kernel)
  norm_num at this

/-- **C46, defect.** For 'dqn' and 'acer' the first step of every round of `nx + 1` evaluates a point that does not depend on the action: with `index = nx` all
actions of the space lead to the same evaluated point. -/
theorem C46_value_ignores {K : Type} [Field K] [LinearOrder K] [IsStrictOrderedRing K] [FloorRing K] {c : Conf K} {fit : List (Val K) → K} {a a' r : ℕ}
    {smp : List K} {s : State K} (hm : c.method = .value) (hi : s.index = c.S.bounds.length) : step c fit (.disc a) r smp s = step c fit (.disc a') r smp s := by
  unfold step mapper
  rw [hm]
  simp only [valueStep, hi, lt_irrefl, if_false]

/-- A run of 'dqn'. -/
example : (match init exD [2, 1] with
    | .ok s => (match exec exD exFit s [.step (.disc 1) 0 [1, 1], .step (.disc 1) 5 [1, 1], .step (.disc 0) 0 [3, 2], .step (.disc 3) 0 [1, 1]] with
      | .ok (_, outs) => decide (outs.map (fun o => o.obs) = [[4, 1], [4, 2], [3, 2], [1, 2]] ∧ outs.map (fun o => o.done) = [false, false, true, true])
      | _ => false)
    | _ => false) = true := by decide +kernel

end Neorl.Env

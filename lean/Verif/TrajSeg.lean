import Verif.Py
import Mathlib.Algebra.BigOperators.Intervals
import Mathlib.Tactic.Ring

/-!
# Collecting trajectories in segments of a fixed length

Model of `traj_segment_generator` (`neorl/rl/baselines/shared/runners.py` lines 58-209).  The environment, the policy, the reward giver and the callback are
parameters; what they return may depend on the number of the step (their random numbers).  The generator is run for any number of turns of its `while True`
loop and the dictionaries it yields are collected in order.  Simplified: the seven history arrays are kept as two lists of records (`Pre`: written before the
environment is stepped, `Post`: written after the callback), the three lists of finished episodes as one list of records, and a yielded dictionary holds the
values at the time of the `yield` (in the code the next segment overwrites the same arrays).  The actions of several environments are not modelled: `action[0]`
and `vpred[0]` are the action and the value.  `current_it_len` is a counter of its own.
-/

set_option linter.unusedSectionVars false
set_option linter.unusedVariables false

namespace Neorl.TrajSeg
open Neorl

/-- Everything the generator calls. -/
structure Sys (E O A P K : Type) where
  /-- `env.reset()` -/
  reset : E → E × O
  /-- `env.step(action)`: observation, reward, done and `info.get('episode')['r']` -/
  estep : E → A → E × O × K × Bool × Option K
  /-- `policy.step(observation, states, done)` in turn `k`: action, value, states -/
  pol : ℕ → O → P → Bool → A × K × P
  /-- the value of `policy.step(observation)` after a `yield`, line 136 -/
  val : ℕ → O → K
  /-- lines 151-154 -/
  clip : A → A
  /-- `reward_giver.get_reward` -/
  giver : O → A → K
  gail : Bool
  /-- `isinstance(env, VecEnv)` -/
  vec : Bool
  /-- `callback.on_step()` in turn `k` -/
  cont : ℕ → Bool

/-- What is written into the arrays before the environment is stepped, lines 146-149. -/
structure Pre (O A K : Type) where
  obs : O
  vpred : K
  act : A
  start : Bool
deriving DecidableEq

/-- What is written after the callback, lines 184-186. -/
structure Post (K : Type) where
  rew : K
  tru : K
  done : Bool
deriving DecidableEq

/-- A finished episode: an entry of `ep_rets`, `ep_true_rets` and `ep_lens`. -/
structure Ep (K : Type) where
  ret : K
  tru : K
  len : ℕ
deriving DecidableEq

/-- A yielded dictionary, lines 121-135 and 167-181. -/
structure Seg (O A K : Type) where
  pre : List (Pre O A K)
  post : List (Post K)
  nextv : K
  eps : List (Ep K)
  total : ℕ
  go : Bool
deriving DecidableEq

/-- The local variables, lines 87-109, and the dictionaries yielded so far. -/
structure St (E O A P K : Type) where
  env : E
  obs : O
  pst : P
  done : Bool
  start : Bool
  step : ℕ
  epRet : K
  epTru : K
  epLen : ℕ
  itLen : ℕ
  eps : List (Ep K)
  pre : List (Pre O A K)
  post : List (Post K)
  segs : List (Seg O A K)

section
variable {E O A P K : Type} [Ring K]

/-- Lines 87-109: `a0` is the sampled action, `p0` is `policy.initial_state`. -/
def init (y : Sys E O A P K) (h : ℕ) (e0 : E) (a0 : A) (p0 : P) : St E O A P K :=
  let eo := y.reset e0
  { env := eo.1, obs := eo.2, pst := p0, done := false, start := true, step := 0, epRet := 0, epTru := 0, epLen := 0, itLen := 0, eps := [],
    pre := List.replicate h ⟨eo.2, 0, a0, false⟩, post := List.replicate h ⟨0, 0, false⟩, segs := [] }

/-- The dictionary of lines 121-135 and 167-181; `vpred[0] * (1 - episode_start)`. -/
def mkSeg (s : St E O A P K) (v : K) (go : Bool) : Seg O A K :=
  { pre := s.pre, post := s.post, nextv := v * (1 - (if s.start then 1 else 0)), eps := s.eps, total := s.itLen, go := go }

/-- Lines 115-144: at the end of a segment it is yielded and the lists of finished episodes are emptied. -/
def flush (h : ℕ) (v : K) (s : St E O A P K) : St E O A P K :=
  if 0 < s.step ∧ s.step % h = 0 then { s with segs := s.segs ++ [mkSeg s v true], eps := [], itLen := 0 } else s

/-- One turn of the loop, lines 114-209; the flag says that the generator has returned. -/
def body (y : Sys E O A P K) (h : ℕ) (s : St E O A P K) : St E O A P K × Bool :=
  let q := y.pol s.step s.obs s.pst s.done
  let a := q.1
  let v := q.2.1
  let s1 := flush h v s
  let v1 := if 0 < s.step ∧ s.step % h = 0 then y.val s.step s.obs else v
  let i := s.step % h
  let s2 := { s1 with pst := q.2.2, pre := s1.pre.set i ⟨s.obs, v1, a, s.start⟩ }
  let c := y.clip a
  let r := y.estep s.env c
  let rew := if y.gail then y.giver s.obs c else r.2.2.1
  let tru := r.2.2.1
  let dn := r.2.2.2.1
  if !(y.cont s.step) then ({ s2 with env := r.1, obs := r.2.1, done := dn, segs := s2.segs ++ [mkSeg s2 v1 false] }, true)
  else
    let s3 := { s2 with env := r.1, obs := r.2.1, done := dn, post := s2.post.set i ⟨rew, tru, dn⟩, start := dn, epRet := s2.epRet + rew,
                        epTru := s2.epTru + tru, itLen := s2.itLen + 1, epLen := s2.epLen + 1, step := s2.step + 1 }
    if dn then
      let ret := match r.2.2.2.2 with | some x => if y.gail then s3.epRet else x | none => s3.epRet
      let trt := match r.2.2.2.2 with | some x => x | none => s3.epTru
      let eo := if y.vec then (r.1, r.2.1) else y.reset r.1
      ({ s3 with eps := s3.eps ++ [⟨ret, trt, s3.epLen⟩], epRet := 0, epTru := 0, epLen := 0, env := eo.1, obs := eo.2 }, false)
    else (s3, false)

/-- `n` turns of the loop. -/
def turns (y : Sys E O A P K) (h : ℕ) (s0 : St E O A P K) : ℕ → St E O A P K × Bool
  | 0 => (s0, false)
  | n + 1 =>
    match turns y h s0 n with
    | (s, true) => (s, true)
    | (s, false) => body y h s

/-- The generator after `n` turns: the assertion of line 84, the missing callback of line 111 (`hasCb`) and `step % horizon` of line 145. -/
def generate (y : Sys E O A P K) (hasGiver hasCb : Bool) (h : ℕ) (e0 : E) (a0 : A) (p0 : P) (n : ℕ) : Py (List (Seg O A K)) :=
  if y.gail && !hasGiver then .error .assertion
  else if !hasCb then .error .attributeError
  else if h = 0 ∧ 0 < n then .error .zeroDivision
  else .ok (turns y h (init y h e0 a0 p0) n).1.segs

/-! ## The trajectory itself -/

/-- The state between two steps of an agent that never stops to yield. -/
structure Ch (E O P : Type) where
  env : E
  obs : O
  pst : P
  prev : Bool

/-- One step of the agent. -/
def chNext (y : Sys E O A P K) (k : ℕ) (c : Ch E O P) : Ch E O P :=
  let q := y.pol k c.obs c.pst c.prev
  let r := y.estep c.env (y.clip q.1)
  let eo := if r.2.2.2.1 && !y.vec then y.reset r.1 else (r.1, r.2.1)
  ⟨eo.1, eo.2, q.2.2, r.2.2.2.1⟩

/-- The agent before step `k`. -/
def chain (y : Sys E O A P K) (e0 : E) (p0 : P) : ℕ → Ch E O P
  | 0 => ⟨(y.reset e0).1, (y.reset e0).2, p0, false⟩
  | k + 1 => chNext y k (chain y e0 p0 k)

section
variable (y : Sys E O A P K) (e0 : E) (p0 : P)

/-- The action of step `k`. -/
def actAt (k : ℕ) : A := (y.pol k (chain y e0 p0 k).obs (chain y e0 p0 k).pst (chain y e0 p0 k).prev).1
/-- What the policy thinks the observation before step `k` is worth. -/
def valAt (k : ℕ) : K := (y.pol k (chain y e0 p0 k).obs (chain y e0 p0 k).pst (chain y e0 p0 k).prev).2.1
/-- The answer of the environment in step `k`. -/
def ans (k : ℕ) : E × O × K × Bool × Option K := y.estep (chain y e0 p0 k).env (y.clip (actAt y e0 p0 k))
/-- Step `k` ends an episode. -/
def doneAt (k : ℕ) : Bool := (ans y e0 p0 k).2.2.2.1
/-- The environment's reward in step `k`. -/
def truAt (k : ℕ) : K := (ans y e0 p0 k).2.2.1
/-- The reward that is learned from: the environment's, or the reward giver's. -/
def rewAt (k : ℕ) : K := if y.gail then y.giver (chain y e0 p0 k).obs (y.clip (actAt y e0 p0 k)) else truAt y e0 p0 k
/-- The episode's reward as recorded by a monitor. -/
def infoAt (k : ℕ) : Option K := (ans y e0 p0 k).2.2.2.2
/-- Step `k` is the first of an episode. -/
def firstAt (k : ℕ) : Bool := match k with | 0 => true | j + 1 => doneAt y e0 p0 j
/-- The first step of the episode that step `k` belongs to. -/
def begin_ : ℕ → ℕ
  | 0 => 0
  | k + 1 => if doneAt y e0 p0 k then k + 1 else begin_ k

/-- Step `k` as it should stand in the arrays; a segment's first value is computed anew. -/
def preAt (h k : ℕ) : Pre O A K :=
  ⟨(chain y e0 p0 k).obs, if 0 < k ∧ k % h = 0 then y.val k (chain y e0 p0 k).obs else valAt y e0 p0 k, actAt y e0 p0 k, firstAt y e0 p0 k⟩
/-- Step `k` as it should stand in the arrays. -/
def postAt (k : ℕ) : Post K := ⟨rewAt y e0 p0 k, truAt y e0 p0 k, doneAt y e0 p0 k⟩
/-- The episode that ends in step `k`. -/
def epAt (k : ℕ) : Ep K :=
  ⟨if y.gail then ∑ j ∈ Finset.Ico (begin_ y e0 p0 k) (k + 1), rewAt y e0 p0 j
     else (infoAt y e0 p0 k).getD (∑ j ∈ Finset.Ico (begin_ y e0 p0 k) (k + 1), rewAt y e0 p0 j),
   (infoAt y e0 p0 k).getD (∑ j ∈ Finset.Ico (begin_ y e0 p0 k) (k + 1), truAt y e0 p0 j), k + 1 - begin_ y e0 p0 k⟩
/-- The episodes that end in steps `a`, …, `a + n - 1`. -/
def epsIn (a n : ℕ) : List (Ep K) := ((List.range' a n).filter (doneAt y e0 p0)).map (epAt y e0 p0)
/-- Segment `n`: steps `n * h`, …, `n * h + h - 1`. -/
def segAt (h n : ℕ) : Seg O A K :=
  { pre := (List.range' (n * h) h).map (preAt y e0 p0 h), post := (List.range' (n * h) h).map (postAt y e0 p0),
    nextv := if doneAt y e0 p0 (n * h + h - 1) then 0 else valAt y e0 p0 (n * h + h), eps := epsIn y e0 p0 (n * h) h, total := h, go := true }
end

/-! ## The invariant -/

/-- What holds after `k` turns, with `b` full segments yielded before. -/
structure Inv (y : Sys E O A P K) (h : ℕ) (e0 : E) (p0 : P) (pre0 : List (Pre O A K)) (post0 : List (Post K)) (k b : ℕ) (s : St E O A P K) : Prop where
  step : s.step = k
  env : s.env = (chain y e0 p0 k).env
  obs : s.obs = (chain y e0 p0 k).obs
  pst : s.pst = (chain y e0 p0 k).pst
  done : s.done = (chain y e0 p0 k).prev
  start : s.start = firstAt y e0 p0 k
  epRet : s.epRet = ∑ j ∈ Finset.Ico (begin_ y e0 p0 k) k, rewAt y e0 p0 j
  epTru : s.epTru = ∑ j ∈ Finset.Ico (begin_ y e0 p0 k) k, truAt y e0 p0 j
  epLen : s.epLen = k - begin_ y e0 p0 k
  lo : b * h ≤ k
  hi : k ≤ b * h + h
  itLen : s.itLen = k - b * h
  eps : s.eps = epsIn y e0 p0 (b * h) (k - b * h)
  preLen : s.pre.length = h
  postLen : s.post.length = h
  preNew : ∀ j, b * h + j < k → s.pre[j]? = some (preAt y e0 p0 h (b * h + j))
  preOld : ∀ j, j < h → k ≤ b * h + j → s.pre[j]? = if b = 0 then pre0[j]? else some (preAt y e0 p0 h (b * h - h + j))
  postNew : ∀ j, b * h + j < k → s.post[j]? = some (postAt y e0 p0 (b * h + j))
  postOld : ∀ j, j < h → k ≤ b * h + j → s.post[j]? = if b = 0 then post0[j]? else some (postAt y e0 p0 (b * h - h + j))
  segs : s.segs = (List.range b).map (segAt y e0 p0 h)

theorem begin_le (y : Sys E O A P K) (e0 : E) (p0 : P) : ∀ k, begin_ y e0 p0 k ≤ k
  | 0 => le_refl _
  | k + 1 => by
    unfold begin_
    split
    · exact le_refl _
    · exact (begin_le y e0 p0 k).trans (Nat.le_succ k)

theorem firstAt_succ (y : Sys E O A P K) (e0 : E) (p0 : P) (k : ℕ) : firstAt y e0 p0 (k + 1) = doneAt y e0 p0 k := rfl

theorem epsIn_succ (y : Sys E O A P K) (e0 : E) (p0 : P) (a n : ℕ) :
    epsIn y e0 p0 a (n + 1) = epsIn y e0 p0 a n ++ (if doneAt y e0 p0 (a + n) then [epAt y e0 p0 (a + n)] else []) := by
  unfold epsIn
  rw [List.range'_concat, List.filter_append, List.map_append, Nat.one_mul]
  congr 1
  by_cases hd : doneAt y e0 p0 (a + n) <;> simp [hd]

theorem init_inv (y : Sys E O A P K) (h : ℕ) (e0 : E) (a0 : A) (p0 : P) :
    Inv y h e0 p0 (init y h e0 a0 p0).pre (init y h e0 a0 p0).post 0 0 (init y h e0 a0 p0) where
  step := rfl
  env := rfl
  obs := rfl
  pst := rfl
  done := rfl
  start := rfl
  epRet := by simp [init, begin_]
  epTru := by simp [init, begin_]
  epLen := rfl
  lo := by simp
  hi := by simp
  itLen := by simp [init]
  eps := by simp [init, epsIn]
  preLen := by simp [init]
  postLen := by simp [init]
  preNew := by simp
  preOld := by simp
  postNew := by simp
  postOld := by simp
  segs := by simp [init]

theorem list_ext_map {α : Type} {l : List α} {h a : ℕ} {f : ℕ → α} (hl : l.length = h) (hf : ∀ j, j < h → l[j]? = some (f (a + j))) :
    l = (List.range' a h).map f := by
  apply List.ext_getElem?
  intro j
  by_cases hj : j < h
  · rw [hf j hj, List.getElem?_map, List.getElem?_range' hj]; simp
  · rw [List.getElem?_eq_none (by omega), List.getElem?_eq_none (by simp; omega)]

theorem flush_inv {y : Sys E O A P K} {h : ℕ} (h0 : 0 < h) {e0 : E} {p0 : P} {pre0 : List (Pre O A K)} {post0 : List (Post K)} {k b : ℕ} {s : St E O A P K}
    (inv : Inv y h e0 p0 pre0 post0 k b s) (hb : b = 0 ∨ b * h < k) :
    Inv y h e0 p0 pre0 post0 k (k / h) (flush h (valAt y e0 p0 k) s) ∧ k < k / h * h + h := by
  have hk : k < k / h * h + h := Nat.lt_div_mul_add h0
  refine ⟨?_, hk⟩
  have hlo := inv.lo
  have hhi := inv.hi
  have hdm := Nat.div_add_mod k h
  unfold flush
  split_ifs with hc <;> rw [inv.step] at hc
  · obtain ⟨hc1, hc2⟩ := hc
    have hkb : k = b * h + h := by
      have e1 : k = k / h * h := by rw [Nat.mul_comm]; omega
      have h1 : b < k / h := by
        rcases hb with rfl | hb
        · exact Nat.div_pos (Nat.le_of_dvd hc1 (Nat.dvd_of_mod_eq_zero hc2)) h0
        · rw [e1] at hb; exact Nat.lt_of_mul_lt_mul_right hb
      have h2 : (b + 1) * h ≤ k / h * h := Nat.mul_le_mul_right h h1
      rw [Nat.add_mul, Nat.one_mul] at h2
      omega
    have hd : k / h = b + 1 := by
      rw [hkb, show b * h + h = (b + 1) * h by ring]; exact Nat.mul_div_cancel _ h0
    have hb1 : (b + 1) * h = b * h + h := by ring
    rw [hd]
    have hpre : ∀ j, j < h → s.pre[j]? = some (preAt y e0 p0 h (b * h + j)) := fun j hj => inv.preNew j (by omega)
    have hpost : ∀ j, j < h → s.post[j]? = some (postAt y e0 p0 (b * h + j)) := fun j hj => inv.postNew j (by omega)
    refine { inv with lo := ?_, hi := ?_, itLen := ?_, eps := ?_, preNew := ?_, preOld := ?_, postNew := ?_, postOld := ?_, segs := ?_ }
    · omega
    · omega
    · simp only; omega
    · simp only [hb1, hkb]; simp [epsIn]
    · intro j hj; omega
    · intro j hj _
      simp only [hb1, Nat.add_sub_cancel]
      simpa using hpre j hj
    · intro j hj; omega
    · intro j hj _
      simp only [hb1, Nat.add_sub_cancel]
      simpa using hpost j hj
    · simp only [List.range_succ, List.map_append, inv.segs]
      congr 1
      simp only [List.map_cons, List.map_nil, mkSeg, segAt]
      rw [← list_ext_map inv.preLen hpre, ← list_ext_map inv.postLen hpost, inv.eps, inv.itLen, inv.start, hkb]
      obtain ⟨m, hm⟩ : ∃ m, b * h + h = m + 1 := ⟨b * h + h - 1, by omega⟩
      have hf : firstAt y e0 p0 (b * h + h) = doneAt y e0 p0 (b * h + h - 1) := by rw [hm]; rfl
      rw [hf, Nat.add_sub_cancel_left]
      congr 2
      by_cases hdn : doneAt y e0 p0 (b * h + h - 1) <;> simp [hdn]
  · have hd : k / h = b := by
      by_cases hk0 : k = 0
      · subst hk0
        rcases hb with rfl | hb
        · simp
        · omega
      · have hne : k % h ≠ 0 := fun h' => hc ⟨Nat.pos_of_ne_zero hk0, h'⟩
        have hlt : k < b * h + h := by
          rcases Nat.lt_or_ge k (b * h + h) with hl | hl
          · exact hl
          · exfalso
            have : k = (b + 1) * h := by rw [Nat.add_mul, Nat.one_mul]; omega
            exact hne (by rw [this]; exact Nat.mul_mod_left _ _)
        exact Nat.div_eq_of_lt_le hlo (by rw [Nat.add_mul, Nat.one_mul]; exact hlt)
    rw [hd]; exact inv

/-- The state between the writing of the arrays and the callback, in the words of the trajectory. -/
def mid (y : Sys E O A P K) (h : ℕ) (e0 : E) (p0 : P) (k : ℕ) (s : St E O A P K) : St E O A P K :=
  { flush h (valAt y e0 p0 k) s with
    pst := (chain y e0 p0 (k + 1)).pst, pre := (flush h (valAt y e0 p0 k) s).pre.set (k % h) (preAt y e0 p0 h k) }

/-- The state after a turn without a stop, in the words of the trajectory. -/
def after (y : Sys E O A P K) (h : ℕ) (e0 : E) (p0 : P) (k : ℕ) (s : St E O A P K) : St E O A P K :=
  let m := mid y h e0 p0 k s
  let d := doneAt y e0 p0 k
  let m' : St E O A P K := { m with env := (chain y e0 p0 (k + 1)).env, obs := (chain y e0 p0 (k + 1)).obs, done := d, post := m.post.set (k % h) (postAt y e0 p0 k), start := d, itLen := m.itLen + 1, step := k + 1 }
  if d then
    { m' with
      eps := m.eps ++ [⟨if y.gail then m.epRet + rewAt y e0 p0 k else (infoAt y e0 p0 k).getD (m.epRet + rewAt y e0 p0 k),
        (infoAt y e0 p0 k).getD (m.epTru + truAt y e0 p0 k), m.epLen + 1⟩],
      epRet := 0, epTru := 0, epLen := 0 }
  else { m' with epRet := m.epRet + rewAt y e0 p0 k, epTru := m.epTru + truAt y e0 p0 k, epLen := m.epLen + 1 }

theorem flush_fields (h : ℕ) (v : K) (s : St E O A P K) : (flush h v s).step = s.step ∧ (flush h v s).start = s.start := by
  unfold flush; split <;> exact ⟨rfl, rfl⟩

theorem body_go {y : Sys E O A P K} {h : ℕ} {e0 : E} {p0 : P} {pre0 : List (Pre O A K)} {post0 : List (Post K)} {k b : ℕ} {s : St E O A P K}
    (inv : Inv y h e0 p0 pre0 post0 k b s) (hc : y.cont k = true) : body y h s = (after y h e0 p0 k s, false) := by
  have e1 : y.pol s.step s.obs s.pst s.done = y.pol k (chain y e0 p0 k).obs (chain y e0 p0 k).pst (chain y e0 p0 k).prev := by
    rw [inv.step, inv.obs, inv.pst, inv.done]
  unfold body after mid
  dsimp only
  rw [e1]
  simp only [inv.step, inv.obs, inv.env, inv.start, hc, Bool.not_true, Bool.false_eq_true, if_false, (flush_fields h _ s).1]
  have hd : (y.estep (chain y e0 p0 k).env (y.clip (y.pol k (chain y e0 p0 k).obs (chain y e0 p0 k).pst (chain y e0 p0 k).prev).1)).2.2.2.1 = doneAt y e0 p0 k := rfl
  rw [hd]
  by_cases hdn : doneAt y e0 p0 k = true
  · rw [if_pos hdn, if_pos hdn]
    by_cases hv : y.vec = true
    · by_cases hg : y.gail = true
      · cases hi : infoAt y e0 p0 k <;> simp only [infoAt, ans, actAt] at hi <;>
          simp [hi, hv, hg, chain, chNext, ans, actAt, rewAt, truAt, valAt, preAt, postAt, hdn, hd]
      · cases hi : infoAt y e0 p0 k <;> simp only [infoAt, ans, actAt] at hi <;>
          simp [hi, hv, hg, chain, chNext, ans, actAt, rewAt, truAt, valAt, preAt, postAt, hdn, hd]
    · by_cases hg : y.gail = true
      · cases hi : infoAt y e0 p0 k <;> simp only [infoAt, ans, actAt] at hi <;>
          simp [hi, hv, hg, chain, chNext, ans, actAt, rewAt, truAt, valAt, preAt, postAt, hdn, hd]
      · cases hi : infoAt y e0 p0 k <;> simp only [infoAt, ans, actAt] at hi <;>
          simp [hi, hv, hg, chain, chNext, ans, actAt, rewAt, truAt, valAt, preAt, postAt, hdn, hd]
  · rw [if_neg hdn, if_neg hdn]
    rw [Bool.not_eq_true] at hdn
    simp [chain, chNext, ans, actAt, rewAt, truAt, valAt, preAt, postAt, hdn, hd]

theorem after_inv {y : Sys E O A P K} {h : ℕ} (h0 : 0 < h) {e0 : E} {p0 : P} {pre0 : List (Pre O A K)} {post0 : List (Post K)} {k b : ℕ} {s : St E O A P K}
    (inv : Inv y h e0 p0 pre0 post0 k b s) (hb : b = 0 ∨ b * h < k) :
    Inv y h e0 p0 pre0 post0 (k + 1) (k / h) (after y h e0 p0 k s) := by
  obtain ⟨i1, hk⟩ := flush_inv h0 inv hb
  have hlo := i1.lo
  have hmod : k % h = k - k / h * h := by have := Nat.div_add_mod k h; rw [Nat.mul_comm] at this; omega
  set b' := k / h with hb'
  set f := flush h (valAt y e0 p0 k) s with hf
  have hbl := begin_le y e0 p0 k
  have hprev : (chain y e0 p0 (k + 1)).prev = doneAt y e0 p0 k := rfl
  have hsub : k + 1 - b' * h = k - b' * h + 1 := by omega
  have hadd : b' * h + (k - b' * h) = k := by omega
  have common : ∀ (m : St E O A P K), m.pre = f.pre.set (k % h) (preAt y e0 p0 h k) → m.pre.length = h ∧
      (∀ j, b' * h + j < k + 1 → m.pre[j]? = some (preAt y e0 p0 h (b' * h + j))) ∧
      (∀ j, j < h → k + 1 ≤ b' * h + j → m.pre[j]? = if b' = 0 then pre0[j]? else some (preAt y e0 p0 h (b' * h - h + j))) := by
    intro m hm
    rw [hm]
    refine ⟨by rw [List.length_set, i1.preLen], fun j hj => ?_, fun j hj hjk => ?_⟩
    · by_cases hjk : b' * h + j = k
      · rw [List.getElem?_set, if_pos (by omega), if_pos (by rw [i1.preLen]; omega), hjk]
      · rw [List.getElem?_set, if_neg (by omega)]; exact i1.preNew j (by omega)
    · rw [List.getElem?_set, if_neg (by omega)]; exact i1.preOld j hj (by omega)
  have common' : ∀ (m : St E O A P K), m.post = f.post.set (k % h) (postAt y e0 p0 k) → m.post.length = h ∧
      (∀ j, b' * h + j < k + 1 → m.post[j]? = some (postAt y e0 p0 (b' * h + j))) ∧
      (∀ j, j < h → k + 1 ≤ b' * h + j → m.post[j]? = if b' = 0 then post0[j]? else some (postAt y e0 p0 (b' * h - h + j))) := by
    intro m hm
    rw [hm]
    refine ⟨by rw [List.length_set, i1.postLen], fun j hj => ?_, fun j hj hjk => ?_⟩
    · by_cases hjk : b' * h + j = k
      · rw [List.getElem?_set, if_pos (by omega), if_pos (by rw [i1.postLen]; omega), hjk]
      · rw [List.getElem?_set, if_neg (by omega)]; exact i1.postNew j (by omega)
    · rw [List.getElem?_set, if_neg (by omega)]; exact i1.postOld j hj (by omega)
  by_cases hd : doneAt y e0 p0 k = true
  · have hbg : begin_ y e0 p0 (k + 1) = k + 1 := by unfold begin_; rw [if_pos hd]
    have e : after y h e0 p0 k s = { (after y h e0 p0 k s) with } := rfl
    unfold after mid
    dsimp only
    rw [if_pos hd, ← hf]
    obtain ⟨c1, c2, c3⟩ := common { f with pre := f.pre.set (k % h) (preAt y e0 p0 h k) } rfl
    obtain ⟨c4, c5, c6⟩ := common' { f with post := f.post.set (k % h) (postAt y e0 p0 k) } rfl
    refine { step := rfl, env := rfl, obs := rfl, pst := rfl, done := rfl, start := rfl, epRet := by simp [hbg], epTru := by simp [hbg], epLen := by simp [hbg],
             lo := by omega, hi := by omega, itLen := ?_, eps := ?_, preLen := c1, postLen := c4, preNew := c2, preOld := c3, postNew := c5, postOld := c6,
             segs := i1.segs }
    · have h5 := i1.itLen
      show f.itLen + 1 = _
      omega
    · rw [hsub, epsIn_succ, hadd, if_pos hd, ← i1.eps]
      unfold epAt
      rw [Finset.sum_Ico_succ_top hbl, Finset.sum_Ico_succ_top hbl, ← i1.epRet, ← i1.epTru]
      have h5 := i1.epLen
      have h6 : f.epLen + 1 = k + 1 - begin_ y e0 p0 k := by omega
      rw [← h6]
  · have hbg : begin_ y e0 p0 (k + 1) = begin_ y e0 p0 k := by conv_lhs => unfold begin_; rw [if_neg hd]
    unfold after mid
    dsimp only
    rw [if_neg hd, ← hf]
    obtain ⟨c1, c2, c3⟩ := common { f with pre := f.pre.set (k % h) (preAt y e0 p0 h k) } rfl
    obtain ⟨c4, c5, c6⟩ := common' { f with post := f.post.set (k % h) (postAt y e0 p0 k) } rfl
    refine { step := rfl, env := rfl, obs := rfl, pst := rfl, done := rfl, start := rfl, epRet := ?_, epTru := ?_, epLen := ?_,
             lo := by omega, hi := by omega, itLen := ?_, eps := ?_, preLen := c1, postLen := c4, preNew := c2, preOld := c3, postNew := c5, postOld := c6,
             segs := i1.segs }
    · rw [hbg, Finset.sum_Ico_succ_top hbl, ← i1.epRet]
    · rw [hbg, Finset.sum_Ico_succ_top hbl, ← i1.epTru]
    · have h5 := i1.epLen
      rw [hbg]
      show f.epLen + 1 = _
      omega
    · have h5 := i1.itLen
      show f.itLen + 1 = _
      omega
    · rw [hsub, epsIn_succ, hadd, if_neg hd, ← i1.eps, List.append_nil]

/-- After `n` turns without a stop. -/
theorem turns_inv {y : Sys E O A P K} {h : ℕ} (h0 : 0 < h) (e0 : E) (a0 : A) (p0 : P) {n : ℕ} (hc : ∀ k, k < n → y.cont k = true) :
    ∃ s, turns y h (init y h e0 a0 p0) n = (s, false) ∧
      Inv y h e0 p0 (init y h e0 a0 p0).pre (init y h e0 a0 p0).post n ((n - 1) / h) s := by
  induction n with
  | zero => exact ⟨_, rfl, by simpa using init_inv y h e0 a0 p0⟩
  | succ n ih =>
    obtain ⟨s, h1, inv⟩ := ih (fun k hk => hc k (by omega))
    have hb : (n - 1) / h = 0 ∨ (n - 1) / h * h < n := by
      by_cases hn : n = 0
      · left; subst hn; simp
      · right; exact (Nat.div_mul_le_self (n - 1) h).trans_lt (by omega)
    refine ⟨after y h e0 p0 n s, ?_, after_inv h0 inv hb⟩
    unfold turns
    rw [h1]
    exact body_go inv (hc n (by omega))

/-- What is yielded when the callback stops the generator in turn `k`. -/
theorem body_stop {y : Sys E O A P K} {h : ℕ} {e0 : E} {p0 : P} {pre0 : List (Pre O A K)} {post0 : List (Post K)} {k b : ℕ} {s : St E O A P K}
    (inv : Inv y h e0 p0 pre0 post0 k b s) (hc : y.cont k = false) :
    (body y h s).2 = true ∧
      (body y h s).1.segs = (flush h (valAt y e0 p0 k) s).segs ++ [mkSeg (mid y h e0 p0 k s) (preAt y e0 p0 h k).vpred false] := by
  have e1 : y.pol s.step s.obs s.pst s.done = y.pol k (chain y e0 p0 k).obs (chain y e0 p0 k).pst (chain y e0 p0 k).prev := by
    rw [inv.step, inv.obs, inv.pst, inv.done]
  unfold body mid
  dsimp only
  rw [e1]
  simp only [inv.step, inv.obs, inv.env, inv.start, hc, Bool.not_false, if_true, (flush_fields h _ s).1]
  exact ⟨trivial, rfl⟩

end
end Neorl.TrajSeg

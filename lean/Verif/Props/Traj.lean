import Verif.Traj
import Mathlib.Data.Nat.ModEq
import Mathlib.Tactic.Ring

/-!
# C112: the trajectory generator
-/

set_option linter.unusedSectionVars false
set_option linter.unusedVariables false

namespace Neorl.Traj

variable {O A S K : Type} [Ring K]

section Spec

/-- What happens at one time step. -/
structure Rec (O A K : Type) where
  obs : O
  v : K
  act : A
  start : Bool
  rew : K
  true_ : K
  done : Bool
  info : Option K

def Rec.pre (r : Rec O A K) : Pre O A K := ⟨r.obs, r.v, r.act, r.start⟩

def Rec.post (r : Rec O A K) : Post K := ⟨r.rew, r.true_, r.done⟩

/-- Whether the step before `t` ended an episode. -/
def prevDone (r : ℕ → Rec O A K) : ℕ → Bool
  | 0 => false
  | t + 1 => (r t).done

/-- The interaction of policy and environment, without any segments: `r t` is what happens at time `t`, `ob t` the observation and `st t` the policy's memory then. -/
structure IsTrace (c : Cfg O A S K) (r : ℕ → Rec O A K) (ob : ℕ → O) (st : ℕ → S) : Prop where
  ob0 : ob 0 = c.obs0
  st0 : st 0 = c.init
  obs : ∀ t, (r t).obs = ob t
  start0 : (r 0).start = true
  start : ∀ t, (r (t + 1)).start = (r t).done
  act : ∀ t, (r t).act = (c.pol t (ob t) (st t) (prevDone r t)).1
  mem : ∀ t, st (t + 1) = (c.pol t (ob t) (st t) (prevDone r t)).2.2
  v : ∀ t, (r t).v = if 0 < t ∧ t % c.horizon = 0 then c.val t (ob t) else (c.pol t (ob t) (st t) (prevDone r t)).2.1
  true_ : ∀ t, (r t).true_ = (c.env t (c.clip (r t).act)).2.1
  rew : ∀ t, (r t).rew = if c.gail then c.giver t (ob t) (c.clip (r t).act) else (r t).true_
  done : ∀ t, (r t).done = (c.env t (c.clip (r t).act)).2.2.1
  info : ∀ t, (r t).info = (c.env t (c.clip (r t).act)).2.2.2
  next : ∀ t, ob (t + 1) = if (r t).done = true ∧ c.vec = false then c.reset t else (c.env t (c.clip (r t).act)).1

/-- The first `n` steps. -/
def recs (r : ℕ → Rec O A K) (n : ℕ) : List (Rec O A K) := (List.range n).map r

/-- The steps `l` consist of the finished episodes `es` followed by the steps `tl` of an unfinished one. -/
structure Episodes (l : List (Rec O A K)) (es : List (List (Rec O A K))) (tl : List (Rec O A K)) : Prop where
  parts : l = es.flatten ++ tl
  ends : ∀ e ∈ es, ∃ i last, e = i ++ [last] ∧ last.done = true ∧ ∀ x ∈ i, x.done = false
  open_ : ∀ x ∈ tl, x.done = false

/-- The return of the environment over an episode: what the Monitor reports, or else the sum of the rewards. -/
def trueRet (e : List (Rec O A K)) : K := (e.getLast?.bind Rec.info).getD (e.map Rec.true_).sum

/-- The return the segment reports: with GAIL, the sum of the predicted rewards. -/
def epRet (gail : Bool) (e : List (Rec O A K)) : K := if gail then (e.map Rec.rew).sum else (e.getLast?.bind Rec.info).getD (e.map Rec.rew).sum

/-- The `j`-th segment: the steps `j H, …, j H + H - 1` in order; the value of the observation after them, or 0 if an episode has just ended; the returns and lengths of exactly the episodes that ended in it. -/
structure SegSpec (c : Cfg O A S K) (r : ℕ → Rec O A K) (ob : ℕ → O) (st : ℕ → S) (j : ℕ) (g : Seg O A K) : Prop where
  pre : g.pre = (List.range c.horizon).map fun i => (r (j * c.horizon + i)).pre
  post : g.post = (List.range c.horizon).map fun i => (r (j * c.horizon + i)).post
  nextv : ∀ t, t = (j + 1) * c.horizon → g.nextv = if (r (t - 1)).done then 0 else (c.pol t (ob t) (st t) (prevDone r t)).2.1
  eps : ∃ es es' tl tl', Episodes (recs r (j * c.horizon)) es tl ∧ Episodes (recs r ((j + 1) * c.horizon)) (es ++ es') tl' ∧ g.epRets = es'.map (epRet c.gail) ∧ g.epTrues = es'.map trueRet ∧ g.epLens = es'.map List.length
  total : g.total = c.horizon
  cont : g.continue_ = true

end Spec

theorem recs_succ (r : ℕ → Rec O A K) (t : ℕ) : recs r (t + 1) = recs r t ++ [r t] := by simp [recs, List.range_succ]

/-- The decomposition into episodes is unique. -/
theorem Episodes.unique {l : List (Rec O A K)} {es tl es2 tl2} (h : Episodes l es tl) (h2 : Episodes l es2 tl2) : es = es2 ∧ tl = tl2 := by
  induction es generalizing l es2 with
  | nil =>
    cases es2 with
    | nil =>
      have := h.parts.symm.trans h2.parts
      simpa using this
    | cons e es2 =>
      exfalso
      obtain ⟨i, last, rfl, hd, -⟩ := h2.ends e (by simp)
      have h1 := h.parts.symm.trans h2.parts
      simp only [List.flatten_nil, List.nil_append] at h1
      have := h.open_ last (by rw [h1]; simp)
      rw [hd] at this
      cases this
  | cons e es ih =>
    obtain ⟨i, last, rfl, hd, hi⟩ := h.ends e (by simp)
    cases es2 with
    | nil =>
      exfalso
      have h1 := h2.parts.symm.trans h.parts
      simp only [List.flatten_nil, List.nil_append] at h1
      have := h2.open_ last (by rw [h1]; simp)
      rw [hd] at this
      cases this
    | cons e2 es2 =>
      obtain ⟨i2, last2, rfl, hd2, hi2⟩ := h2.ends e2 (by simp)
      have h1 := h.parts.symm.trans h2.parts
      simp only [List.flatten_cons, List.append_assoc, List.cons_append, List.nil_append] at h1
      have key : ∀ (a b : List (Rec O A K)) (x y : Rec O A K) (p q : List (Rec O A K)), (∀ z ∈ a, z.done = false) → (∀ z ∈ b, z.done = false) → x.done = true → y.done = true → a ++ x :: p = b ++ y :: q → a = b ∧ x = y ∧ p = q := by
        intro a
        induction a with
        | nil =>
          intro b x y p q ha hb hx hy hh
          cases b with
          | nil => simpa using hh
          | cons z b =>
            simp only [List.nil_append, List.cons_append, List.cons.injEq] at hh
            have := hb z (by simp)
            rw [← hh.1, hx] at this
            cases this
        | cons w a iha =>
          intro b x y p q ha hb hx hy hh
          cases b with
          | nil =>
            simp only [List.nil_append, List.cons_append, List.cons.injEq] at hh
            have := ha w (by simp)
            rw [hh.1, hy] at this
            cases this
          | cons z b =>
            simp only [List.cons_append, List.cons.injEq] at hh
            obtain ⟨e1, e2, e3⟩ := iha b x y p q (fun z hz => ha z (by simp [hz])) (fun z hz => hb z (by simp [hz])) hx hy hh.2
            exact ⟨by rw [hh.1, e1], e2, e3⟩
      obtain ⟨k1, k2, k3⟩ := key _ _ _ _ _ _ hi hi2 hd hd2 h1
      obtain ⟨r1, r2⟩ := ih (l := es.flatten ++ tl) (es2 := es2) ⟨rfl, fun e he => h.ends e (by simp [he]), h.open_⟩ ⟨k3, fun e he => h2.ends e (by simp [he]), h2.open_⟩
      exact ⟨by rw [k1, k2, r1], r2⟩

/-- The array of length `H` holds the last steps before `t`. -/
def Holds {α : Type} (H t : ℕ) (f : ℕ → α) (z : α) (l : List α) : Prop := l.length = H ∧ (∀ u, u < t → t ≤ u + H → l[u % H]? = some (f u)) ∧ ∀ i, t ≤ i → i < H → l[i]? = some z

theorem Holds.set {α : Type} {H t : ℕ} {f : ℕ → α} {z : α} {l : List α} (hH : 0 < H) (h : Holds H t f z l) : Holds H (t + 1) f z (l.set (t % H) (f t)) := by
  obtain ⟨h1, h2, h3⟩ := h
  have hm : t % H < H := Nat.mod_lt _ hH
  refine ⟨by simpa using h1, fun u hu hu2 => ?_, fun i hi hi2 => ?_⟩
  · rcases Nat.lt_succ_iff_lt_or_eq.1 hu with hu | rfl
    · have hne : t % H ≠ u % H := by
        intro he
        have hd : H ∣ t - u := (Nat.modEq_iff_dvd' hu.le).1 he.symm
        have := Nat.le_of_dvd (by omega) hd
        omega
      rw [List.getElem?_set_ne hne]
      exact h2 u hu (by omega)
    · rw [List.getElem?_set_self (by omega)]
  · have hne : t % H ≠ i := by rw [Nat.mod_eq_of_lt (by omega)]; omega
    rw [List.getElem?_set_ne hne]
    exact h3 i (by omega) hi2

theorem Holds.full {α : Type} {H b : ℕ} {f : ℕ → α} {z : α} {l : List α} (hH : 0 < H) (h : Holds H (b * H + H) f z l) : l = (List.range H).map fun i => f (b * H + i) := by
  obtain ⟨h1, h2, -⟩ := h
  refine List.ext_getElem? fun i => ?_
  by_cases hi : i < H
  · have := h2 (b * H + i) (by omega) (by omega)
    rw [show (b * H + i) % H = i by rw [Nat.mul_comm, Nat.mul_add_mod]; exact Nat.mod_eq_of_lt hi] at this
    rw [this, List.getElem?_map, List.getElem?_range hi]
    rfl
  · rw [List.getElem?_eq_none (by omega), List.getElem?_eq_none (by simp; omega)]

/-- The variables at the top of the loop at time `t`, the running segment having begun at `b`. -/
structure Inv (c : Cfg O A S K) (r : ℕ → Rec O A K) (ob : ℕ → O) (st : ℕ → S) (b t : ℕ) (s : St O A S K) : Prop where
  step : s.step = t
  obs : s.obs = ob t
  states : s.states = st t
  done : s.done = prevDone r t
  epStart : s.episodeStart = (r t).start
  itLen : s.itLen + b = t
  pre : Holds c.horizon t (fun u => (r u).pre) ⟨c.obs0, 0, c.sample, false⟩ s.pre
  post : Holds c.horizon t (fun u => (r u).post) ⟨0, 0, false⟩ s.post
  eps : ∃ es es' tl tl', Episodes (recs r b) es tl ∧ Episodes (recs r t) (es ++ es') tl' ∧ s.epRets = es'.map (epRet c.gail) ∧ s.epTrues = es'.map trueRet ∧ s.epLens = es'.map List.length ∧
    s.curRet = (tl'.map Rec.rew).sum ∧ s.curTrue = (tl'.map Rec.true_).sum ∧ s.epLen = tl'.length

theorem inv_start {c : Cfg O A S K} {r : ℕ → Rec O A K} {ob : ℕ → O} {st : ℕ → S} (h : IsTrace c r ob st) : Inv c r ob st 0 0 (start c) := by
  have hrep : ∀ {α : Type} (f : ℕ → α) (z : α), Holds c.horizon 0 f z (List.replicate c.horizon z) := fun f z => ⟨by simp, fun u hu => by omega, fun i _ hi => by rw [List.getElem?_replicate, if_pos hi]⟩
  refine ⟨rfl, h.ob0.symm, h.st0.symm, rfl, h.start0.symm, rfl, hrep _ _, hrep _ _, [], [], [], [], ?_, ?_, rfl, rfl, rfl, rfl, rfl, rfl⟩ <;>
    exact ⟨rfl, by simp, by simp⟩

/-- One step of the environment. -/
theorem act_go {c : Cfg O A S K} {r : ℕ → Rec O A K} {ob : ℕ → O} {st : ℕ → S} (h : IsTrace c r ob st) (hH : 0 < c.horizon) {b t : ℕ} {s : St O A S K} (hs : Inv c r ob st b t { s with states := st t }) (hst : s.states = st (t + 1)) (hgo : c.go t = true) :
    ∃ s', act c s (r t).act (r t).v = ([], some s') ∧ Inv c r ob st b (t + 1) s' := by
  obtain ⟨i1, i2, -, i4, i5, i6, i7, i8, es, es', tl, tl', e1, e2, e3, e4, e5, e6, e7, e8⟩ := hs
  simp only at i1 i2 i4 i5 i6 i7 i8 e3 e4 e5 e6 e7 e8
  have hpre : (⟨s.obs, (r t).v, (r t).act, s.episodeStart⟩ : Pre O A K) = (r t).pre := by
    rw [i2, i5, ← h.obs]
    rfl
  have hgo' : c.go s.step = true := by rw [i1]; exact hgo
  have hpp := i7.set hH
  have hpo := i8.set hH
  have hlast : ∀ x : List (Rec O A K), (x ++ [r t]).getLast? = some (r t) := fun x => by simp
  have hact : act c s (r t).act (r t).v = ([], some (finish c { s with pre := s.pre.set (t % c.horizon) (r t).pre } (c.env t (c.clip (r t).act)).1 (r t).rew (r t).true_ (r t).done (r t).info)) := by
    rw [act]
    simp only [hgo', if_true, hpre]
    rw [i1, i2, ← h.true_ t, ← h.done t, ← h.info t, ← h.rew t]
  refine ⟨_, hact, ?_⟩
  have hep : (r t).done = false → Episodes (recs r (t + 1)) (es ++ es') (tl' ++ [r t]) := fun hd => by
    refine ⟨by rw [recs_succ, e2.parts, List.append_assoc], e2.ends, fun x hx => ?_⟩
    rcases List.mem_append.1 hx with hx | hx
    · exact e2.open_ x hx
    · rw [List.mem_singleton.1 hx]; exact hd
  have hep2 : (r t).done = true → Episodes (recs r (t + 1)) (es ++ (es' ++ [tl' ++ [r t]])) [] := fun hd => by
    refine ⟨?_, fun e he => ?_, by simp⟩
    · rw [recs_succ, e2.parts]
      simp
    · rw [← List.append_assoc] at he
      rcases List.mem_append.1 he with he | he
      · exact e2.ends e he
      · rw [List.mem_singleton.1 he]
        exact ⟨tl', r t, rfl, hd, e2.open_⟩
  cases hd : (r t).done with
  | false =>
    refine ⟨?_, ?_, hst, ?_, ?_, ?_, ?_, ?_, es, es', tl, tl' ++ [r t], e1, hep hd, ?_, ?_, ?_, ?_, ?_, ?_⟩ <;> simp only [finish, Bool.false_eq_true, if_false]
    · rw [i1]
    · rw [h.next t, if_neg (by rw [hd]; simp)]
    · exact hd.symm
    · rw [h.start t, hd]
    · omega
    · exact hpp
    · rw [i1, show (⟨(r t).rew, (r t).true_, false⟩ : Post K) = (r t).post by rw [Rec.post, hd]]
      exact hpo
    · exact e3
    · exact e4
    · exact e5
    · rw [e6]; simp
    · rw [e7]; simp
    · rw [e8]; simp
  | true =>
    refine ⟨?_, ?_, hst, ?_, ?_, ?_, ?_, ?_, es, es' ++ [tl' ++ [r t]], tl, [], e1, hep2 hd, ?_, ?_, ?_, ?_, ?_, ?_⟩ <;> simp only [finish, if_true]
    · rw [i1]
    · rw [h.next t]
      cases hv : c.vec with
      | false => simp [hd, i1]
      | true => simp
    · exact hd.symm
    · rw [h.start t, hd]
    · omega
    · exact hpp
    · rw [i1, show (⟨(r t).rew, (r t).true_, true⟩ : Post K) = (r t).post by rw [Rec.post, hd]]
      exact hpo
    · rw [e3, List.map_append, List.map_singleton]
      congr 2
      rw [epRet, hlast, Option.bind_some, e6]
      cases (r t).info with
      | none => simp
      | some x => cases c.gail <;> simp
    · rw [e4, List.map_append, List.map_singleton]
      congr 2
      rw [trueRet, hlast, Option.bind_some, e7]
      cases (r t).info with
      | none => simp
      | some x => simp
    · rw [e5, e8]; simp
    · simp
    · simp
    · simp

theorem Inv.clear {c : Cfg O A S K} {r : ℕ → Rec O A K} {ob : ℕ → O} {st : ℕ → S} {b t : ℕ} {s : St O A S K} (hs : Inv c r ob st b t s) : Inv c r ob st t t (clear s) := by
  obtain ⟨i1, i2, i3, i4, i5, i6, i7, i8, es, es', tl, tl', e1, e2, e3, e4, e5, e6, e7, e8⟩ := hs
  exact ⟨i1, i2, i3, i4, i5, by simp [Traj.clear], i7, i8, es ++ es', [], tl', tl', e2, by simpa using e2, rfl, rfl, rfl, e6, e7, e8⟩

/-- A full segment meets its specification. -/
theorem seg_spec {c : Cfg O A S K} {r : ℕ → Rec O A K} {ob : ℕ → O} {st : ℕ → S} (h : IsTrace c r ob st) (hH : 0 < c.horizon) {k : ℕ} {s : St O A S K} (hs : Inv c r ob st (k * c.horizon) ((k + 1) * c.horizon) s) (x : S) :
    SegSpec c r ob st k (seg { s with states := x } (c.pol ((k + 1) * c.horizon) (ob ((k + 1) * c.horizon)) (st ((k + 1) * c.horizon)) (prevDone r ((k + 1) * c.horizon))).2.1 true) := by
  obtain ⟨i1, i2, i3, i4, i5, i6, i7, i8, es, es', tl, tl', e1, e2, e3, e4, e5, e6, e7, e8⟩ := hs
  have hk : (k + 1) * c.horizon = k * c.horizon + c.horizon := by ring
  refine ⟨?_, ?_, ?_, ⟨es, es', tl, tl', e1, e2, e3, e4, e5⟩, ?_, rfl⟩
  · exact Holds.full hH (by rw [← hk]; exact i7)
  · exact Holds.full hH (by rw [← hk]; exact i8)
  · rintro t rfl
    simp only [seg, i5]
    have : (r ((k + 1) * c.horizon)).start = (r ((k + 1) * c.horizon - 1)).done := by
      rw [← h.start, Nat.sub_add_cancel (by rw [hk]; omega)]
    rw [this]
    cases (r ((k + 1) * c.horizon - 1)).done <;> simp
  · simp only [seg]
    omega

/-- The state of the generator after `t` turns: `k` segments handed out, all right. -/
structure Good (c : Cfg O A S K) (r : ℕ → Rec O A K) (ob : ℕ → O) (st : ℕ → S) (k t : ℕ) (ys : List (Seg O A K)) (s : St O A S K) : Prop where
  inv : Inv c r ob st (k * c.horizon) t s
  len : ys.length = k
  segs : ∀ j g, ys[j]? = some g → SegSpec c r ob st j g
  low : k * c.horizon ≤ t
  low' : 0 < t → k * c.horizon < t
  high : t ≤ (k + 1) * c.horizon

theorem run_good {c : Cfg O A S K} {r : ℕ → Rec O A K} {ob : ℕ → O} {st : ℕ → S} (h : IsTrace c r ob st) (hH : 0 < c.horizon) (t : ℕ) (hgo : ∀ u, u < t → c.go u = true) : ∃ k ys s, run c t = .ok (ys, some s) ∧ Good c r ob st k t ys s := by
  induction t with
  | zero => exact ⟨0, [], start c, rfl, by simpa using inv_start h, rfl, by simp, by simp, by simp, by simp⟩
  | succ t ih =>
    obtain ⟨k, ys, s, hr, hg⟩ := ih fun u hu => hgo u (by omega)
    have hp : pass c s = if 0 < t ∧ t % c.horizon = 0 then .ok (seg { s with states := st (t + 1) } (c.pol t (ob t) (st t) (prevDone r t)).2.1 true :: (act c (clear { s with states := st (t + 1) }) (r t).act (r t).v).1, (act c (clear { s with states := st (t + 1) }) (r t).act (r t).v).2)
        else .ok (act c { s with states := st (t + 1) } (r t).act (r t).v) := by
      rw [pass, if_neg (by omega)]
      simp only [hg.inv.step, hg.inv.obs, hg.inv.states, hg.inv.done, ← h.mem t, ← h.act t]
      by_cases hc : 0 < t ∧ t % c.horizon = 0
      · rw [if_pos hc, if_pos hc, h.v t, if_pos hc]
      · rw [if_neg hc, if_neg hc, h.v t, if_neg hc]
    have hbase : ({ { s with states := st (t + 1) } with states := st t } : St O A S K) = s := by
      have := hg.inv.states
      cases s
      simp only at this
      subst this
      rfl
    by_cases hc : 0 < t ∧ t % c.horizon = 0
    · rw [if_pos hc] at hp
      have ht : t = (k + 1) * c.horizon := by
        obtain ⟨q, hq⟩ := Nat.dvd_of_mod_eq_zero hc.2
        have l1 := hg.low' hc.1
        have l2 := hg.high
        have q1 : k < q := by
          by_contra hh
          have : c.horizon * q ≤ k * c.horizon := by rw [Nat.mul_comm]; exact Nat.mul_le_mul_right _ (by omega)
          omega
        have q2 : q ≤ k + 1 := by
          by_contra hh
          have : (k + 2) * c.horizon ≤ c.horizon * q := by rw [Nat.mul_comm c.horizon]; exact Nat.mul_le_mul_right _ (by omega)
          have : (k + 2) * c.horizon = (k + 1) * c.horizon + c.horizon := by ring
          omega
        have : q = k + 1 := by omega
        rw [hq, this, Nat.mul_comm]
      obtain ⟨s', ha, hi⟩ := act_go h hH (b := t) (t := t) (s := clear { s with states := st (t + 1) }) (by
        have := hg.inv.clear
        have e : clear s = { clear { s with states := st (t + 1) } with states := st t } := by
          conv_lhs => rw [← hbase]
          rfl
        rw [e] at this
        exact this) rfl (hgo t (by omega))
      rw [ha] at hp
      refine ⟨k + 1, ys ++ [seg { s with states := st (t + 1) } (c.pol t (ob t) (st t) (prevDone r t)).2.1 true], s', ?_, ?_, ?_, ?_, by omega, by omega, ?_⟩
      · simp only [run, hr, bind, Except.bind, hp]
      · rw [← ht]; exact hi
      · simp [hg.len]
      · intro j g hj
        by_cases hj' : j < k
        · rw [List.getElem?_append_left (by rw [hg.len]; exact hj')] at hj
          exact hg.segs j g hj
        · have hjl : j < k + 1 := by
            have := (List.getElem?_eq_some_iff.1 hj).1
            simpa [hg.len] using this
          have : j = k := by omega
          subst this
          rw [List.getElem?_append_right (by rw [hg.len]), hg.len, Nat.sub_self] at hj
          simp only [List.getElem?_cons_zero, Option.some.injEq] at hj
          subst hj
          have := seg_spec h hH (k := j) (s := s) (by rw [← ht]; exact hg.inv) (st (t + 1))
          rw [← ht] at this
          exact this
      · rw [ht]
        have : (k + 1 + 1) * c.horizon = (k + 1) * c.horizon + c.horizon := by ring
        omega
    · rw [if_neg hc] at hp
      obtain ⟨s', ha, hi⟩ := act_go h hH (b := k * c.horizon) (t := t) (s := { s with states := st (t + 1) }) (by rw [hbase]; exact hg.inv) rfl (hgo t (by omega))
      rw [ha] at hp
      refine ⟨k, ys, s', ?_, hi, hg.len, hg.segs, ?_, ?_, ?_⟩
      · simp only [run, hr, bind, Except.bind, hp, List.append_nil]
      · have := hg.low; omega
      · intro _; have := hg.low; omega
      · have l2 := hg.high
        have l1 := hg.low
        rcases Nat.lt_or_ge t ((k + 1) * c.horizon) with hlt | hge
        · omega
        · exfalso
          have ht : t = (k + 1) * c.horizon := by omega
          refine hc ⟨?_, ?_⟩
          · rw [ht]; exact Nat.mul_pos (by omega) hH
          · rw [ht]; exact Nat.mul_mod_left _ _

/-- **C112.** While the callback lets it go on, the generator hands out the interaction cut into pieces of `horizon` steps: after `k H + 1` turns of the loop exactly `k` segments, the `j`-th with the steps
`j H … j H + H - 1`, the value to bootstrap from (0 after the end of an episode) and the returns and lengths of exactly the episodes that ended in it. -/
theorem C112_segments {c : Cfg O A S K} {r : ℕ → Rec O A K} {ob : ℕ → O} {st : ℕ → S} (h : IsTrace c r ob st) (hH : 0 < c.horizon) (hgo : ∀ u, c.go u = true) (k : ℕ) :
    ∃ ys s, run c (k * c.horizon + 1) = .ok (ys, some s) ∧ ys.length = k ∧ ∀ j g, ys[j]? = some g → SegSpec c r ob st j g := by
  obtain ⟨k', ys, s, hr, hg⟩ := run_good h hH (k * c.horizon + 1) fun u _ => hgo u
  refine ⟨ys, s, hr, ?_, hg.segs⟩
  have l1 := hg.low' (by omega)
  have l2 := hg.high
  rw [hg.len]
  have a : k' ≤ k := by
    by_contra hh
    have : (k + 1) * c.horizon ≤ k' * c.horizon := Nat.mul_le_mul_right _ (by omega)
    have : (k + 1) * c.horizon = k * c.horizon + c.horizon := by ring
    omega
  have b : k ≤ k' := by
    by_contra hh
    have : (k' + 1) * c.horizon ≤ k * c.horizon := Nat.mul_le_mul_right _ (by omega)
    omega
  omega

/-- Every configuration has an interaction. -/
theorem C112_trace (c : Cfg O A S K) : ∃ r ob st, IsTrace c r ob st := by
  -- observation, memory, whether the last step ended an episode, whether an episode starts
  let next : ℕ → O × S × Bool × Bool → Rec O A K × (O × S × Bool × Bool) := fun t w =>
    let p := c.pol t w.1 w.2.1 w.2.2.1
    let e := c.env t (c.clip p.1)
    (⟨w.1, if 0 < t ∧ t % c.horizon = 0 then c.val t w.1 else p.2.1, p.1, w.2.2.2, if c.gail then c.giver t w.1 (c.clip p.1) else e.2.1, e.2.1, e.2.2.1, e.2.2.2⟩,
      (if e.2.2.1 = true ∧ c.vec = false then c.reset t else e.1, p.2.2, e.2.2.1, e.2.2.1))
  let w : ℕ → O × S × Bool × Bool := fun t => Nat.rec (c.obs0, c.init, false, true) (fun t w => (next t w).2) t
  have hw : ∀ t, w (t + 1) = (next t (w t)).2 := fun _ => rfl
  have hpd : ∀ t, prevDone (fun t => (next t (w t)).1) t = (w t).2.2.1 := by
    intro t
    cases t <;> rfl
  refine ⟨fun t => (next t (w t)).1, fun t => (w t).1, fun t => (w t).2.1, rfl, rfl, fun _ => rfl, rfl, fun t => rfl, fun t => ?_, fun t => ?_, fun t => ?_, fun _ => rfl, fun _ => rfl, fun _ => rfl, fun _ => rfl, fun _ => rfl⟩
  · rw [hpd]
  · rw [hpd, hw]
  · rw [hpd]

/-- **C112, defect.** When the callback stops the training at step `t`, the last segment handed out shows the observation, value and action of step `t`, but not its reward and end of episode: in their place are
those of the step `horizon` before, or zeros; the step is not counted either. -/
theorem C112_stop {c : Cfg O A S K} {r : ℕ → Rec O A K} {ob : ℕ → O} {st : ℕ → S} (h : IsTrace c r ob st) (hH : 0 < c.horizon) (t : ℕ) (hgo : ∀ u, u < t → c.go u = true) (hstop : c.go t = false) (m : ℕ) :
    ∃ ys g, run c (t + 1 + m) = .ok (ys ++ [g], none) ∧ (∀ j g', ys[j]? = some g' → SegSpec c r ob st j g') ∧ g.continue_ = false ∧ g.pre[t % c.horizon]? = some (r t).pre ∧
      g.post[t % c.horizon]? = (if c.horizon ≤ t then some (r (t - c.horizon)).post else some ⟨0, 0, false⟩) ∧ g.total = t % c.horizon := by
  obtain ⟨k, ys, s, hr, hg⟩ := run_good h hH t hgo
  have hact : ∀ s1 : St O A S K, s1.step = t → act c s1 (r t).act (r t).v = ([seg { s1 with pre := s1.pre.set (t % c.horizon) ⟨s1.obs, (r t).v, (r t).act, s1.episodeStart⟩ } (r t).v false], none) := by
    intro s1 h1
    rw [act]
    simp only [h1, hstop, Bool.false_eq_true, if_false]
  have hp : pass c s = if 0 < t ∧ t % c.horizon = 0 then .ok (seg { s with states := st (t + 1) } (c.pol t (ob t) (st t) (prevDone r t)).2.1 true :: (act c (clear { s with states := st (t + 1) }) (r t).act (r t).v).1, (act c (clear { s with states := st (t + 1) }) (r t).act (r t).v).2)
      else .ok (act c { s with states := st (t + 1) } (r t).act (r t).v) := by
    rw [pass, if_neg (by omega)]
    simp only [hg.inv.step, hg.inv.obs, hg.inv.states, hg.inv.done, ← h.mem t, ← h.act t]
    by_cases hc : 0 < t ∧ t % c.horizon = 0
    · rw [if_pos hc, if_pos hc, h.v t, if_pos hc]
    · rw [if_neg hc, if_neg hc, h.v t, if_neg hc]
  have hmore : ∀ ys', run c (t + 1) = .ok (ys', none) → run c (t + 1 + m) = .ok (ys', none) := by
    intro ys' h1
    induction m with
    | zero => exact h1
    | succ m ih =>
      have e : run c (t + 1 + (m + 1)) = run c (t + 1 + m + 1) := rfl
      rw [e, run, ih]
      rfl
  have hm : t % c.horizon < c.horizon := Nat.mod_lt _ hH
  have hset : (s.pre.set (t % c.horizon) ⟨s.obs, (r t).v, (r t).act, s.episodeStart⟩)[t % c.horizon]? = some (r t).pre := by
    rw [List.getElem?_set_self (by rw [hg.inv.pre.1]; exact hm), hg.inv.obs, hg.inv.epStart, ← h.obs]
    rfl
  have hpost : s.post[t % c.horizon]? = (if c.horizon ≤ t then some (r (t - c.horizon)).post else some ⟨0, 0, false⟩) := by
    split_ifs with hle
    · have := hg.inv.post.2.1 (t - c.horizon) (by omega) (by omega)
      rw [← Nat.mod_eq_sub_mod hle] at this
      exact this
    · rw [Nat.mod_eq_of_lt (by omega)]
      exact hg.inv.post.2.2 t le_rfl (by omega)
  by_cases hc : 0 < t ∧ t % c.horizon = 0
  · rw [if_pos hc, hact (clear { s with states := st (t + 1) }) hg.inv.step] at hp
    have ht : t = (k + 1) * c.horizon := by
      obtain ⟨q, hq⟩ := Nat.dvd_of_mod_eq_zero hc.2
      have l1 := hg.low' hc.1
      have l2 := hg.high
      have q1 : k < q := by
        by_contra hh
        have : c.horizon * q ≤ k * c.horizon := by rw [Nat.mul_comm]; exact Nat.mul_le_mul_right _ (by omega)
        omega
      have q2 : q ≤ k + 1 := by
        by_contra hh
        have : (k + 2) * c.horizon ≤ c.horizon * q := by rw [Nat.mul_comm c.horizon]; exact Nat.mul_le_mul_right _ (by omega)
        have : (k + 2) * c.horizon = (k + 1) * c.horizon + c.horizon := by ring
        omega
      have : q = k + 1 := by omega
      rw [hq, this, Nat.mul_comm]
    refine ⟨ys ++ [_], _, hmore _ (by simp only [run, hr, bind, Except.bind, hp, List.append_assoc, List.singleton_append]; rfl), ?_, rfl, hset, hpost, ?_⟩
    · intro j g hj
      by_cases hj' : j < k
      · rw [List.getElem?_append_left (by rw [hg.len]; exact hj')] at hj
        exact hg.segs j g hj
      · have hjl : j < k + 1 := by
          have := (List.getElem?_eq_some_iff.1 hj).1
          simpa [hg.len] using this
        have : j = k := by omega
        subst this
        rw [List.getElem?_append_right (by rw [hg.len]), hg.len, Nat.sub_self] at hj
        simp only [List.getElem?_cons_zero, Option.some.injEq] at hj
        subst hj
        have := seg_spec h hH (k := j) (s := s) (by rw [← ht]; exact hg.inv) (st (t + 1))
        rw [← ht] at this
        exact this
    · rw [hc.2]; rfl
  · rw [if_neg hc, hact { s with states := st (t + 1) } hg.inv.step] at hp
    refine ⟨ys, _, hmore _ (by simp only [run, hr, bind, Except.bind, hp]; rfl), hg.segs, rfl, hset, hpost, ?_⟩
    show s.itLen = t % c.horizon
    have i6 := hg.inv.itLen
    have hlt : t < (k + 1) * c.horizon := by
      rcases Nat.lt_or_ge t ((k + 1) * c.horizon) with hlt | hge
      · exact hlt
      · exfalso
        have ht : t = (k + 1) * c.horizon := by have := hg.high; omega
        exact hc ⟨by rw [ht]; exact Nat.mul_pos (by omega) hH, by rw [ht]; exact Nat.mul_mod_left _ _⟩
    have : (k + 1) * c.horizon = k * c.horizon + c.horizon := by ring
    have e : s.itLen < c.horizon := by omega
    rw [← i6, Nat.add_mul_mod_self_right, Nat.mod_eq_of_lt e]

/-- **C112.** What counts as an episode is determined by the steps; all steps are accounted for: the lengths of the episodes and the unfinished rest add up. -/
theorem C112_episodes {l : List (Rec O A K)} {es tl es2 tl2} (h : Episodes l es tl) : (Episodes l es2 tl2 → es = es2 ∧ tl = tl2) ∧ (es.map List.length).sum + tl.length = l.length := by
  refine ⟨h.unique, ?_⟩
  rw [h.parts, List.length_append, List.length_flatten]

section Examples

/-- A world that counts: the reward is the time, episodes of three steps; segments of two steps. -/
def ex : Cfg ℕ ℕ Unit ℤ :=
  { horizon := 2, gail := false, vec := false, clip := id, pol := fun t o _ _ => (o, 10 * t, ()), val := fun t o => 10 * t + 1, env := fun t a => (a + 1, t, t % 3 == 2, none), reset := fun _ => 0,
    giver := fun _ _ _ => 0, go := fun t => t != 5, obs0 := 0, init := (), sample := 0 }

/-- Two segments, then the callback stops at step 5: the reward in the last place is still that of step 3. -/
example : (run ex 6).toOption.map Prod.fst = some
    [⟨[⟨0, 0, 0, true⟩, ⟨1, 10, 1, false⟩], [⟨0, 0, false⟩, ⟨1, 1, false⟩], 20, [], [], [], 2, true⟩,
     ⟨[⟨2, 21, 2, false⟩, ⟨0, 30, 0, true⟩], [⟨2, 2, true⟩, ⟨3, 3, false⟩], 40, [3], [3], [3], 2, true⟩,
     ⟨[⟨1, 41, 1, false⟩, ⟨2, 50, 2, false⟩], [⟨4, 4, false⟩, ⟨3, 3, false⟩], 50, [], [], [], 1, false⟩] := by decide +kernel

end Examples

end Neorl.Traj

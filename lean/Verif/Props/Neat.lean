import Verif.Neat
import Verif.Props.Env

/-!
# C86-C89: RNEAT and FNEAT
-/

set_option linter.unusedSectionVars false
set_option linter.unusedVariables false

namespace Neorl.Neat

open Neorl Neorl.Env

section
variable {K : Type} [Field K] [LinearOrder K] [IsStrictOrderedRing K] [FloorRing K]
variable {G σ : Type}

/-- The setting of the two optimisers: a proper space with distinct names that is not purely discrete (the documentation excludes those), the environment
method 'rneat' / 'fneat', at least one step per episode, and networks with one output per variable (`num_outputs` is forced). -/
structure Setting (c : Conf K) (br : Brain G σ K) : Prop where
  ok : c.S.OK
  names : (c.orig.map Prod.fst).Nodup
  method : c.method = .policy
  mixed : c.allInt = false
  len : 1 ≤ c.epLen
  outputs : ∀ n ob, (br.activate n ob).2.length = c.orig.length

/-- The points evaluated, in order. -/
def points (steps : List (List (Out K))) : List (List (Val K)) := steps.flatten.map Out.x

/-! ### One step -/

theorem step_facts {c : Conf K} {br : Brain G σ K} (hc : Setting c br) {fit : List (Val K) → K} {n : σ} {ob : List K} {env env' : Env.State K} {o : Out K}
    (h : step c fit (.vec (br.activate n ob).2) 0 [] env = .ok (env', o)) :
    InSpace c.orig o.x ∧ o.reward = sgn (!c.minMode) (fit o.x) ∧ o.done = env'.done ∧
      ((env.counter + 1 = c.epLen ∧ env'.done = true ∧ env'.counter = 0) ∨ (env.counter + 1 ≠ c.epLen ∧ env'.done = env.done ∧ env'.counter = env.counter + 1)) := by
  have hop : OpOK c (.step (.vec (br.activate n ob).2) 0 []) := by
    show (br.activate n ob).2.length = c.S.bounds.length
    rw [hc.outputs, nbounds]
  obtain ⟨_, _, _, h3, h4⟩ := step_ok hc.ok hc.names hop (fun he => by rw [hc.method] at he; cases he) h
  refine ⟨h3, by rw [h4]; cases c.minMode <;> simp [sgn], ?_⟩
  unfold step at h
  split at h
  · cases h
  · rename_i s1 v hm
    split at h
    · cases h
    · rename_i x hx
      cases h
      have : s1 = env := by
        unfold mapper at hm
        rw [hc.method] at hm
        simp only at hm
        split at hm
        · cases hm
        · cases hm; rfl
      subst this
      refine ⟨rfl, ?_⟩
      by_cases hq : s1.counter + 1 = c.epLen
      · left; simp [hq]
      · right; simp [hq]

theorem step_total {c : Conf K} {br : Brain G σ K} (hc : Setting c br) (fit : List (Val K) → K) (n : σ) (ob : List K) (env : Env.State K) :
    ∃ env' o, step c fit (.vec (br.activate n ob).2) 0 [] env = .ok (env', o) := by
  refine C46_total hc.ok hc.names ⟨hc.method, hc.mixed, ?_⟩ (fun he => ?_) (fun he => ?_)
  · rw [hc.outputs, nbounds]
  · rw [hc.method] at he; cases he
  · rw [hc.method] at he; cases he

/-! ### The running best -/

/-- The update of a best value and a best point by one step. -/
def up (b : Option K × Option (List (Val K))) (o : Out K) : Option K × Option (List (Val K)) :=
  if beats o.reward b.1 then (some o.reward, some o.x) else b

/-- `b` is the best of the steps `l`: nothing when `l` is empty, else the reward and the point of a step that no other exceeds. -/
def Top (l : List (Out K)) (b : Option K × Option (List (Val K))) : Prop :=
  (l = [] ∧ b = (none, none)) ∨ ∃ o ∈ l, b = (some o.reward, some o.x) ∧ ∀ p ∈ l, p.reward ≤ o.reward

theorem Top.up {l : List (Out K)} {b : Option K × Option (List (Val K))} (h : Top l b) (o : Out K) : Top (l ++ [o]) (up b o) := by
  right
  rcases h with ⟨rfl, rfl⟩ | ⟨q, hq, rfl, hm⟩
  · exact ⟨o, by simp, by simp [Neat.up, beats], by simp⟩
  · by_cases hlt : q.reward < o.reward
    · refine ⟨o, by simp, by simp [Neat.up, beats, hlt], ?_⟩
      intro p hp
      rcases List.mem_append.1 hp with hp | hp
      · exact (hm p hp).trans hlt.le
      · rw [List.mem_singleton.1 hp]
    · refine ⟨q, by simp [hq], by simp [Neat.up, beats, hlt], ?_⟩
      intro p hp
      rcases List.mem_append.1 hp with hp | hp
      · exact hm p hp
      · rw [List.mem_singleton.1 hp]; exact not_lt.1 hlt

theorem Top.foldl {l os : List (Out K)} {b : Option K × Option (List (Val K))} (h : Top l b) : Top (l ++ os) (os.foldl Neat.up b) := by
  induction os generalizing l b with
  | nil => simpa using h
  | cons o os ih =>
    have := ih (h.up o)
    rwa [List.append_assoc] at this

/-- What a step says about the fitness. -/
def Honest (c : Conf K) (fit : List (Val K) → K) (o : Out K) : Prop := InSpace c.orig o.x ∧ o.reward = sgn (!c.minMode) (fit o.x)

theorem Top.isBest {c : Conf K} {fit : List (Val K) → K} {l : List (Out K)} {y : K} {x : List (Val K)} (h : Top l (some y, some x)) (hl : ∀ o ∈ l, Honest c fit o) :
    IsBest c.minMode fit (l.map Out.x) x (sgn (!c.minMode) y) := by
  rcases h with ⟨_, h⟩ | ⟨o, ho, hb, hm⟩
  · cases h
  · cases hb
    refine ⟨List.mem_map.2 ⟨o, ho, rfl⟩, by rw [(hl o ho).2, sgn_sgn], ?_⟩
    intro z hz
    obtain ⟨p, hp, rfl⟩ := List.mem_map.1 hz
    have := hm p hp
    rw [(hl p hp).2] at this
    rw [(hl o ho).2, sgn_sgn]
    have h2 := (hl o ho).2 ▸ this
    revert h2
    cases c.minMode <;> simp [sgn, NotWorse]

theorem Top.bestOn {c : Conf K} {fit : List (Val K) → K} {l : List (Out K)} {y : K} {x : List (Val K)} (h : Top l (some y, some x)) (hl : ∀ o ∈ l, Honest c fit o) :
    BestOn c.minMode fit (l.map Out.x) (sgn (!c.minMode) y) := by
  obtain ⟨h1, h2, h3⟩ := h.isBest hl
  exact ⟨⟨x, h1, h2.symm⟩, h3⟩

/-! ### One genome -/

theorem episode_spec {c : Conf K} {br : Brain G σ K} (hc : Setting c br) {fit : List (Val K) → K} : ∀ (fuel : ℕ) {n : σ} {ob : List K} {loc : Option K} {cnt : ℕ}
    {st st' : St K} {f : K} {os : List (Out K)} {lx : Option (List (Val K))}, episode c fit br fuel n ob loc cnt st = .ok (st', f, os) →
    (∀ o ∈ os, Honest c fit o) ∧ os.getLast?.map Out.reward = some f ∧ (st'.best, st'.bestX) = os.foldl up (st.best, st.bestX) ∧
      (∃ b, st'.best = some b ∧ st'.bestC = some (sgn (!c.minMode) b) ∧ st'.glob = st.glob ++ [sgn (!c.minMode) b]) ∧
      (∃ l, (os.foldl up (loc, lx)).1 = some l ∧ st'.loc = st.loc ++ [sgn (!c.minMode) l]) := by
  intro fuel
  induction fuel with
  | zero => intro n ob loc cnt st st' f os lx h; cases h
  | succ fuel ih =>
    intro n ob loc cnt st st' f os lx h
    rw [episode] at h
    split at h
    · cases h
    · rename_i env' o hst
      obtain ⟨g1, g2, _⟩ := step_facts hc hst
      simp only at h
      have hl : (up (loc, lx) o).1 = (if beats o.reward loc then some o.reward else loc) := by unfold up; split_ifs <;> rfl
      have hne : ∃ l, (up (loc, lx) o).1 = some l := by
        rw [hl]
        cases loc with
        | none => exact ⟨_, rfl⟩
        | some l => split_ifs <;> exact ⟨_, rfl⟩
      have hb : ((if beats o.reward st.best then ({ st with env := env', best := some o.reward, bestX := some o.x } : St K) else { st with env := env' }).best,
          (if beats o.reward st.best then ({ st with env := env', best := some o.reward, bestX := some o.x } : St K) else { st with env := env' }).bestX) = up (st.best, st.bestX) o := by
        unfold up; split_ifs <;> rfl
      have hg : (if beats o.reward st.best then ({ st with env := env', best := some o.reward, bestX := some o.x } : St K) else { st with env := env' }).glob = st.glob := by
        split_ifs <;> rfl
      have hlo : (if beats o.reward st.best then ({ st with env := env', best := some o.reward, bestX := some o.x } : St K) else { st with env := env' }).loc = st.loc := by
        split_ifs <;> rfl
      have hbe : ∃ b, (if beats o.reward st.best then ({ st with env := env', best := some o.reward, bestX := some o.x } : St K) else { st with env := env' }).best = some b := by
        cases hs : st.best with
        | none => exact ⟨o.reward, by simp [beats]⟩
        | some b => split_ifs <;> exact ⟨_, rfl⟩
      generalize hL : (if beats o.reward loc then some o.reward else loc) = loc' at *
      generalize hC : (if beats o.reward loc then 0 else cnt + 1) = cnt' at *
      generalize hs1 : (if beats o.reward st.best then ({ st with env := env', best := some o.reward, bestX := some o.x } : St K) else { st with env := env' }) = st1 at *
      obtain ⟨b, hbe⟩ := hbe
      obtain ⟨l, hne⟩ := hne
      split at h
      · cases h
        refine ⟨by simpa using ⟨g1, g2⟩, rfl, hb, ⟨b, hbe, by simp [hbe], by simp [hbe, hg]⟩, ⟨l, hne, ?_⟩⟩
        rw [hl] at hne
        simp [hne, hlo]
      · split at h
        · cases h
        · rename_i st2 f2 os2 hep
          cases h
          obtain ⟨i1, i2, i3, ⟨b', i4, i5, i6⟩, ⟨l', i7, i8⟩⟩ := ih (lx := (up (loc, lx) o).2) hep
          refine ⟨List.forall_mem_cons.2 ⟨⟨g1, g2⟩, i1⟩, ?_, ?_, ⟨b', i4, i5, ?_⟩, ⟨l', ?_, ?_⟩⟩
          · have : os2 ≠ [] := by rintro rfl; cases i2
            rw [List.getLast?_cons_of_ne_nil this]
            exact i2
          · rw [List.foldl_cons, ← hb]; exact i3
          · rw [i6]; simp only [hg]
          · rw [← hl] at i7
            exact i7
          · rw [i8]; simp only [hlo]

/-- The counter of the loop cannot reach the episode length before the environment says so. -/
def CntOK (loc : Option K) (cnt q : ℕ) : Prop := (loc = none ∧ cnt = 0) ∨ (loc ≠ none ∧ cnt + 1 ≤ q)

theorem episode_len {c : Conf K} {br : Brain G σ K} (hc : Setting c br) {fit : List (Val K) → K} : ∀ (fuel : ℕ) {n : σ} {ob : List K} {loc : Option K} {cnt : ℕ}
    {st st' : St K} {f : K} {os : List (Out K)}, episode c fit br fuel n ob loc cnt st = .ok (st', f, os) → st.env.counter < c.epLen → CntOK loc cnt st.env.counter →
    os.getLast?.map Out.done = some true ∧ st'.env.done = true ∧ st'.env.counter < c.epLen ∧ (st.env.done = true → os.length = 1) ∧
      (st.env.done = false → os.length = c.epLen - st.env.counter ∧ st'.env.counter = 0) := by
  intro fuel
  induction fuel with
  | zero => intro n ob loc cnt st st' f os h; cases h
  | succ fuel ih =>
    intro n ob loc cnt st st' f os h hq hcnt
    rw [episode] at h
    split at h
    · cases h
    · rename_i env' o hst
      obtain ⟨_, _, g3, g4⟩ := step_facts hc hst
      simp only at h
      have hcl : (if beats o.reward loc then 0 else cnt + 1) ≤ st.env.counter := by
        rcases hcnt with ⟨rfl, rfl⟩ | ⟨_, hcnt⟩
        · simp [beats]
        · split_ifs <;> omega
      have hln : (if beats o.reward loc then some o.reward else loc) ≠ none := by
        rcases hcnt with ⟨rfl, rfl⟩ | ⟨hcnt, _⟩
        · simp [beats]
        · split_ifs
          · simp
          · exact hcnt
      have he : (if beats o.reward st.best then ({ st with env := env', best := some o.reward, bestX := some o.x } : St K) else { st with env := env' }).env = env' := by
        split_ifs <;> rfl
      generalize hL : (if beats o.reward loc then some o.reward else loc) = loc' at *
      generalize hC : (if beats o.reward loc then 0 else cnt + 1) = cnt' at *
      generalize hs1 : (if beats o.reward st.best then ({ st with env := env', best := some o.reward, bestX := some o.x } : St K) else { st with env := env' }) = st1 at *
      split at h
      · rename_i hd
        have hd' : o.done = true := by
          rcases hd with hd | hd
          · exact hd
          · omega
        cases h
        have h5 : env'.done = true := by rw [← g3]; exact hd'
        refine ⟨by simp [hd'], by simp [he, h5], ?_, fun _ => rfl, ?_⟩
        · simp only [he]
          rcases g4 with ⟨_, _, g⟩ | ⟨g1, _, g⟩ <;> omega
        · intro hf
          rcases g4 with ⟨e1, _, g⟩ | ⟨_, g, _⟩
          · simp only [he, List.length_singleton]
            omega
          · rw [hf, h5] at g; cases g
      · rename_i hd
        push Not at hd
        split at h
        · cases h
        · rename_i st2 f2 os2 hep
          cases h
          rcases g4 with ⟨_, g, _⟩ | ⟨e1, e2, e3⟩
          · exact absurd (g3.trans g) hd.1
          · have := ih hep (by simp only [he]; omega) (by right; refine ⟨hln, ?_⟩; simp only [he]; omega)
            simp only [he] at this
            obtain ⟨j1, j2, j3, j4, j5⟩ := this
            have hne : os2 ≠ [] := by rintro rfl; cases j1
            have hdf : st.env.done = false := by
              rw [← e2, ← g3]
              simpa using hd.1
            refine ⟨by rw [List.getLast?_cons_of_ne_nil hne]; exact j1, j2, j3, fun ht => ?_, fun _ => ?_⟩
            · rw [hdf] at ht; cases ht
            · obtain ⟨k1, k2⟩ := j5 (by rw [e2]; exact hdf)
              refine ⟨?_, k2⟩
              rw [List.length_cons, k1, e3]
              omega

theorem episode_total {c : Conf K} {br : Brain G σ K} (hc : Setting c br) (fit : List (Val K) → K) : ∀ (fuel : ℕ) (n : σ) (ob : List K) (loc : Option K) (cnt : ℕ)
    (st : St K), st.env.counter < c.epLen → c.epLen - st.env.counter ≤ fuel → ∃ r, episode c fit br fuel n ob loc cnt st = .ok r := by
  intro fuel
  induction fuel with
  | zero => intro n ob loc cnt st h1 h2; omega
  | succ fuel ih =>
    intro n ob loc cnt st h1 h2
    obtain ⟨env', o, hst⟩ := step_total hc fit n ob st.env
    obtain ⟨_, _, g3, g4⟩ := step_facts hc hst
    rw [episode, hst]
    simp only
    have he : (if beats o.reward st.best then ({ st with env := env', best := some o.reward, bestX := some o.x } : St K) else { st with env := env' }).env = env' := by
      split_ifs <;> rfl
    generalize hL : (if beats o.reward loc then some o.reward else loc) = loc' at *
    generalize hC : (if beats o.reward loc then 0 else cnt + 1) = cnt' at *
    generalize hs1 : (if beats o.reward st.best then ({ st with env := env', best := some o.reward, bestX := some o.x } : St K) else { st with env := env' }) = st1 at *
    split
    · exact ⟨_, rfl⟩
    · rename_i hd
      push Not at hd
      rcases g4 with ⟨_, g, _⟩ | ⟨e1, e2, e3⟩
      · exact absurd (g3.trans g) hd.1
      · obtain ⟨⟨a, b, d⟩, hr⟩ := ih (br.activate n ob).1 o.obs loc' cnt'
          { st1 with bestC := st1.best.map (sgn (!c.minMode)) } (by simp only [he]; omega) (by simp only [he]; omega)
        rw [hr]
        exact ⟨_, rfl⟩

theorem episode_mono {c : Conf K} {br : Brain G σ K} {fit : List (Val K) → K} (m : ℕ) : ∀ (fuel : ℕ) {n : σ} {ob : List K} {loc : Option K} {cnt : ℕ}
    {st : St K} {r : St K × K × List (Out K)}, episode c fit br fuel n ob loc cnt st = .ok r → episode c fit br (fuel + m) n ob loc cnt st = .ok r := by
  intro fuel
  induction fuel with
  | zero => intro n ob loc cnt st r h; cases h
  | succ fuel ih =>
    intro n ob loc cnt st r h
    rw [Nat.add_right_comm, episode]
    rw [episode] at h
    split at h
    · cases h
    · rename_i env' o hst
      simp only at h ⊢
      generalize hL : (if beats o.reward loc then some o.reward else loc) = loc' at *
      generalize hC : (if beats o.reward loc then 0 else cnt + 1) = cnt' at *
      split at h
      · rename_i hd
        rw [if_pos hd]; exact h
      · rename_i hd
        rw [if_neg hd]
        split at h
        · cases h
        · rename_i hep
          rw [ih hep]
          exact h

/-! ### Many genomes -/

/-- The steps of a block that compete for the best point: all of them (one process) or the last one (several processes). -/
def lastOnly (b : List (Out K)) : List (Out K) := b.getLast?.toList

theorem lastOnly_sub (b : List (Out K)) : ∀ o ∈ lastOnly b, o ∈ b := by
  intro o ho
  unfold lastOnly at ho
  rw [Option.mem_toList] at ho
  exact List.mem_of_getLast? ho

/-- Invariant of a run: `oss` are the blocks of steps so far. -/
structure Inv (c : Conf K) (fit : List (Val K) → K) (sel : List (Out K) → List (Out K)) (st : St K) (oss : List (List (Out K))) : Prop where
  honest : ∀ b ∈ oss, ∀ o ∈ b, Honest c fit o
  nonempty : ∀ b ∈ oss, b ≠ []
  top : Top (oss.flatMap sel) (st.best, st.bestX)
  correct : st.bestC = st.best.map (sgn (!c.minMode))
  globLen : st.glob.length = oss.length
  glob : ∀ (k : ℕ) y, st.glob[k]? = some y → BestOn c.minMode fit (((oss.take (k + 1)).flatMap sel).map Out.x) y
  locLen : st.loc.length = oss.length
  loc : ∀ (k : ℕ) y b, st.loc[k]? = some y → oss[k]? = some b → BestOn c.minMode fit (b.map Out.x) y

theorem Inv.step {c : Conf K} {fit : List (Val K) → K} {sel : List (Out K) → List (Out K)} (hsel : ∀ b, ∀ o ∈ sel b, o ∈ b) {st st' : St K} {oss : List (List (Out K))} (h : Inv c fit sel st oss)
    {os : List (Out K)} (h1 : ∀ o ∈ os, Honest c fit o) (h2 : os ≠ []) (h3 : (st'.best, st'.bestX) = (sel os).foldl up (st.best, st.bestX))
    (h4 : ∃ b, st'.best = some b ∧ st'.bestC = some (sgn (!c.minMode) b) ∧ st'.glob = st.glob ++ [sgn (!c.minMode) b])
    (h5 : ∃ l, (os.foldl up (none, none)).1 = some l ∧ st'.loc = st.loc ++ [sgn (!c.minMode) l]) : Inv c fit sel st' (oss ++ [os]) := by
  obtain ⟨b, b1, b2, b3⟩ := h4
  obtain ⟨l, l1, l2⟩ := h5
  have hon : ∀ b ∈ oss ++ [os], ∀ o ∈ b, Honest c fit o := by
    intro b hb
    rcases List.mem_append.1 hb with hb | hb
    · exact h.honest b hb
    · rw [List.mem_singleton.1 hb]; exact h1
  have htop : Top ((oss ++ [os]).flatMap sel) (st'.best, st'.bestX) := by
    rw [List.flatMap_append, List.flatMap_singleton, h3]
    exact h.top.foldl
  have hhon : ∀ o ∈ (oss ++ [os]).flatMap sel, Honest c fit o := by
    intro o ho
    obtain ⟨b, hb, hob⟩ := List.mem_flatMap.1 ho
    exact hon b hb o (hsel b o hob)
  refine ⟨hon, ?_, htop, ?_, ?_, ?_, ?_, ?_⟩
  · intro b hb
    rcases List.mem_append.1 hb with hb | hb
    · exact h.nonempty b hb
    · rw [List.mem_singleton.1 hb]; exact h2
  · rw [b2, b1]; rfl
  · simp [b3, h.globLen]
  · intro k y hy
    rw [b3] at hy
    rcases Nat.lt_or_ge k st.glob.length with hk | hk
    · rw [List.getElem?_append_left hk] at hy
      rw [List.take_append_of_le_length (by rw [← h.globLen]; omega)]
      exact h.glob k y hy
    · rw [List.getElem?_append_right hk] at hy
      have hk' : k = st.glob.length := by
        have := (List.getElem?_eq_some_iff.1 hy).1
        simp at this; omega
      rw [List.take_of_length_le (by simp [hk', h.globLen])]
      subst hk'
      simp at hy
      subst hy
      have hx : ∃ x, st'.bestX = some x := by
        rcases htop with ⟨_, ht⟩ | ⟨o, _, ht, _⟩
        · rw [b1] at ht; cases ht
        · exact ⟨_, (Prod.mk.inj ht).2⟩
      obtain ⟨x, hx⟩ := hx
      rw [b1, hx] at htop
      exact htop.bestOn hhon
  · simp [l2, h.locLen]
  · intro k y b hy hb
    rw [l2] at hy
    rcases Nat.lt_or_ge k st.loc.length with hk | hk
    · rw [List.getElem?_append_left hk] at hy
      rw [List.getElem?_append_left (by rw [← h.locLen]; exact hk)] at hb
      exact h.loc k y b hy hb
    · rw [List.getElem?_append_right hk] at hy
      have hk' : k = st.loc.length := by
        have := (List.getElem?_eq_some_iff.1 hy).1
        simp at this; omega
      rw [List.getElem?_append_right (by rw [← h.locLen]; exact hk), ← h.locLen] at hb
      subst hk'
      simp at hy hb
      subst hy hb
      have ht : Top os (os.foldl up (none, none)) := by
        have := Top.foldl (l := []) (os := os) (b := (none, none)) (Or.inl ⟨rfl, rfl⟩)
        simpa using this
      have hx : ∃ x, (os.foldl up (none, none)).2 = some x := by
        rcases ht with ⟨_, ht⟩ | ⟨o, _, ht, _⟩
        · rw [ht] at l1; cases l1
        · rw [ht]; exact ⟨_, rfl⟩
      obtain ⟨x, hx⟩ := hx
      have he : os.foldl up (none, none) = (some l, some x) := Prod.ext l1 hx
      rw [he] at ht
      exact ht.bestOn h1

theorem flatMap_id (oss : List (List (Out K))) : oss.flatMap id = oss.flatten := by simp [List.flatMap]

/-! ### One process -/

/-- The blocks made without a given start: each has `epLen` steps and ends because the environment says so. -/
def Full (c : Conf K) (b : List (Out K)) : Prop := b.length = c.epLen ∧ b.getLast?.map Out.done = some true

/-- The block of a genome that meets an environment whose flag is already set. -/
def Single (b : List (Out K)) : Prop := b.length = 1 ∧ b.getLast?.map Out.done = some true

theorem evalGenome_spec {c : Conf K} {br : Brain G σ K} (hc : Setting c br) {fit : List (Val K) → K} {x0 : Option (List K)} {fuel : ℕ} {smp : List K} {g : G} {st st' : St K} {f : K}
    {os : List (Out K)} (h : evalGenome c fit br x0 fuel smp g st = .ok (st', f, os)) :
    os.getLast?.map Out.reward = some f ∧ (∀ oss, Inv c fit id st oss → Inv c fit id st' (oss ++ [os])) := by
  unfold evalGenome at h
  split at h
  · obtain ⟨h1, h2, h3, h4, h5⟩ := episode_spec hc fuel (lx := none) h
    refine ⟨h2, fun oss hi => hi.step (fun b o ho => ho) h1 ?_ h3 h4 h5⟩
    rintro rfl; cases h2
  · split at h
    · cases h
    · obtain ⟨h1, h2, h3, h4, h5⟩ := episode_spec hc fuel (lx := none) h
      refine ⟨h2, fun oss hi => hi.step (fun b o ho => ho) h1 ?_ h3 h4 h5⟩
      rintro rfl; cases h2

theorem evalGenome_len {c : Conf K} {br : Brain G σ K} (hc : Setting c br) {fit : List (Val K) → K} {x0 : Option (List K)} {fuel : ℕ} {smp : List K} {g : G} {st st' : St K} {f : K}
    {os : List (Out K)} (h : evalGenome c fit br x0 fuel smp g st = .ok (st', f, os)) (hq : st.env.counter < c.epLen) :
    st'.env.done = true ∧ st'.env.counter < c.epLen ∧ (x0 = none → st.env.counter = 0 → Full c os ∧ st'.env.counter = 0) ∧
      (x0 ≠ none → st.env.done = false → st.env.counter = 0 → Full c os) ∧ (x0 ≠ none → st.env.done = true → Single os) := by
  unfold evalGenome at h
  split at h
  · obtain ⟨h1, h2, h3, h4, h5⟩ := episode_len hc fuel h hq (Or.inl ⟨rfl, rfl⟩)
    refine ⟨h2, h3, (fun h => nomatch h), fun _ hd h0 => ?_, fun _ hd => ⟨h4 hd, h1⟩⟩
    exact ⟨by rw [(h5 hd).1, h0]; rfl, h1⟩
  · unfold reset at h
    rw [hc.method] at h
    simp only at h
    obtain ⟨h1, h2, h3, h4, h5⟩ := episode_len hc fuel h hq (Or.inl ⟨rfl, rfl⟩)
    obtain ⟨k1, k2⟩ := h5 rfl
    refine ⟨h2, h3, fun _ h0 => ⟨⟨?_, h1⟩, k2⟩, fun h => absurd rfl h, fun h => absurd rfl h⟩
    simp only at k1
    rw [k1, h0]; rfl

theorem evalGenome_total {c : Conf K} {br : Brain G σ K} (hc : Setting c br) (fit : List (Val K) → K) (x0 : Option (List K)) {fuel : ℕ} (hf : c.epLen ≤ fuel) (smp : List K) (g : G) (st : St K)
    (hq : st.env.counter < c.epLen) : ∃ st' f os, evalGenome c fit br x0 fuel smp g st = .ok (st', f, os) := by
  unfold evalGenome
  cases x0 with
  | some ob =>
    obtain ⟨⟨a, b, d⟩, h⟩ := episode_total hc fit fuel (br.create g) ob none 0 st hq (by omega)
    exact ⟨a, b, d, h⟩
  | none =>
    unfold reset
    rw [hc.method]
    simp only
    obtain ⟨⟨a, b, d⟩, h⟩ := episode_total hc fit fuel (br.create g) smp none 0 { st with env := { st.env with done := false } } hq (by simp only; omega)
    exact ⟨a, b, d, h⟩

theorem evalGenomes_spec {c : Conf K} {br : Brain G σ K} (hc : Setting c br) {fit : List (Val K) → K} {x0 : Option (List K)} {fuel : ℕ} {smp : ℕ → List K} : ∀ {gs : List G} {k : ℕ} {st st' : St K} {fs : List K}
    {oss : List (List (Out K))}, evalGenomes c fit br x0 fuel smp k gs st = .ok (st', fs, oss) →
    oss.length = gs.length ∧ fs.map some = oss.map (fun b => b.getLast?.map Out.reward) ∧ (∀ pre, Inv c fit id st pre → Inv c fit id st' (pre ++ oss)) := by
  intro gs
  induction gs with
  | nil => intro k st st' fs oss h; cases h; exact ⟨rfl, rfl, fun pre h => by simpa using h⟩
  | cons g gs ih =>
    intro k st st' fs oss h
    rw [evalGenomes] at h
    split at h
    · cases h
    · rename_i st1 f os hg
      split at h
      · cases h
      · rename_i st2 fs2 oss2 hgs
        cases h
        obtain ⟨h1, h2⟩ := evalGenome_spec hc hg
        obtain ⟨i1, i2, i3⟩ := ih hgs
        refine ⟨by simp [i1], by simp [i2, h1], fun pre hp => ?_⟩
        have := i3 _ (h2 pre hp)
        rwa [List.append_assoc] at this

theorem evalGenomes_len {c : Conf K} {br : Brain G σ K} (hc : Setting c br) {fit : List (Val K) → K} {x0 : Option (List K)} {fuel : ℕ} {smp : ℕ → List K} : ∀ {gs : List G} {k : ℕ} {st st' : St K} {fs : List K}
    {oss : List (List (Out K))}, evalGenomes c fit br x0 fuel smp k gs st = .ok (st', fs, oss) → st.env.counter < c.epLen →
    st'.env.counter < c.epLen ∧ (x0 = none → st.env.counter = 0 → (∀ b ∈ oss, Full c b) ∧ st'.env.counter = 0) ∧
      (x0 ≠ none → st.env.done = true → (∀ b ∈ oss, Single b) ∧ st'.env.done = true) ∧
      (x0 ≠ none → st.env.done = false → st.env.counter = 0 → (oss = [] ∧ st' = st) ∨ (∃ b bs, oss = b :: bs ∧ Full c b ∧ (∀ d ∈ bs, Single d) ∧ st'.env.done = true)) := by
  intro gs
  induction gs with
  | nil =>
    intro k st st' fs oss h hq
    cases h
    exact ⟨hq, fun _ h => ⟨by simp, h⟩, fun _ h => ⟨by simp, h⟩, fun _ _ _ => Or.inl ⟨rfl, rfl⟩⟩
  | cons g gs ih =>
    intro k st st' fs oss h hq
    rw [evalGenomes] at h
    split at h
    · cases h
    · rename_i st1 f os hg
      split at h
      · cases h
      · rename_i st2 fs2 oss2 hgs
        cases h
        obtain ⟨h1, h2, h3, h4, h5⟩ := evalGenome_len hc hg hq
        obtain ⟨i1, i2, i3, i4⟩ := ih hgs h2
        refine ⟨i1, fun hx h0 => ?_, fun hx hd => ?_, fun hx hd h0 => Or.inr ?_⟩
        · obtain ⟨j1, j2⟩ := h3 hx h0
          obtain ⟨k1, k2⟩ := i2 hx j2
          exact ⟨List.forall_mem_cons.2 ⟨j1, k1⟩, k2⟩
        · obtain ⟨k1, k2⟩ := i3 hx h1
          exact ⟨List.forall_mem_cons.2 ⟨h5 hx hd, k1⟩, k2⟩
        · obtain ⟨k1, k2⟩ := i3 hx h1
          exact ⟨os, oss2, rfl, h4 hx hd h0, k1, k2⟩

theorem evalGenomes_total {c : Conf K} {br : Brain G σ K} (hc : Setting c br) (fit : List (Val K) → K) (x0 : Option (List K)) {fuel : ℕ} (hf : c.epLen ≤ fuel) (smp : ℕ → List K) : ∀ (gs : List G) (k : ℕ) (st : St K),
    st.env.counter < c.epLen → ∃ st' fs oss, evalGenomes c fit br x0 fuel smp k gs st = .ok (st', fs, oss) := by
  intro gs
  induction gs with
  | nil => intro k st h; exact ⟨_, _, _, rfl⟩
  | cons g gs ih =>
    intro k st hq
    obtain ⟨st1, f, os, h1⟩ := evalGenome_total hc fit x0 hf (smp k) g st hq
    obtain ⟨st2, fs, oss, h2⟩ := ih (k + 1) st1 (evalGenome_len hc h1 hq).2.1
    exact ⟨st2, f :: fs, os :: oss, by rw [evalGenomes, h1]; simp only [h2]⟩

theorem runLib_spec {c : Conf K} {br : Brain G σ K} (hc : Setting c br) {fit : List (Val K) → K} {lib : Library G K} {x0 : Option (List K)} {fuel : ℕ} {smp : ℕ → List K} : ∀ {ngen k : ℕ} {past : List (List K)}
    {st st' : St K} {oss : List (List (Out K))}, runLib c fit br lib x0 fuel smp ngen k past st = .ok (st', oss) →
    ∀ pre, Inv c fit id st pre → Inv c fit id st' (pre ++ oss) := by
  intro ngen
  induction ngen with
  | zero => intro k past st st' oss h pre hp; cases h; simpa using hp
  | succ ngen ih =>
    intro k past st st' oss h pre hp
    rw [runLib] at h
    split at h
    · cases h
    · rename_i st1 fs oss1 hg
      have h1 := (evalGenomes_spec hc hg).2.2 pre hp
      split at h
      · cases h; exact h1
      · split at h
        · cases h
        · rename_i st2 oss2 hr
          cases h
          have := ih hr _ h1
          rwa [List.append_assoc] at this

theorem runLib_len {c : Conf K} {br : Brain G σ K} (hc : Setting c br) {fit : List (Val K) → K} {lib : Library G K} {x0 : Option (List K)} {fuel : ℕ} {smp : ℕ → List K} : ∀ {ngen k : ℕ} {past : List (List K)}
    {st st' : St K} {oss : List (List (Out K))}, runLib c fit br lib x0 fuel smp ngen k past st = .ok (st', oss) → st.env.counter < c.epLen →
    st'.env.counter < c.epLen ∧ (x0 = none → st.env.counter = 0 → (∀ b ∈ oss, Full c b) ∧ st'.env.counter = 0) ∧
      (x0 ≠ none → st.env.done = true → (∀ b ∈ oss, Single b) ∧ st'.env.done = true) ∧
      (x0 ≠ none → st.env.done = false → st.env.counter = 0 → (oss = [] ∧ st' = st) ∨ (∃ b bs, oss = b :: bs ∧ Full c b ∧ (∀ d ∈ bs, Single d) ∧ st'.env.done = true)) := by
  intro ngen
  induction ngen with
  | zero =>
    intro k past st st' oss h hq
    cases h
    exact ⟨hq, fun _ h => ⟨by simp, h⟩, fun _ h => ⟨by simp, h⟩, fun _ _ _ => Or.inl ⟨rfl, rfl⟩⟩
  | succ ngen ih =>
    intro k past st st' oss h hq
    rw [runLib] at h
    split at h
    · cases h
    · rename_i st1 fs oss1 hg
      obtain ⟨h1, h2, h3, h4⟩ := evalGenomes_len hc hg hq
      split at h
      · cases h; exact ⟨h1, h2, h3, h4⟩
      · split at h
        · cases h
        · rename_i st2 oss2 hr
          cases h
          obtain ⟨i1, i2, i3, i4⟩ := ih hr h1
          refine ⟨i1, fun hx h0 => ?_, fun hx hd => ?_, fun hx hd h0 => ?_⟩
          · obtain ⟨j1, j2⟩ := h2 hx h0
            obtain ⟨k1, k2⟩ := i2 hx j2
            exact ⟨fun b hb => (List.mem_append.1 hb).elim (j1 b) (k1 b), k2⟩
          · obtain ⟨j1, j2⟩ := h3 hx hd
            obtain ⟨k1, k2⟩ := i3 hx j2
            exact ⟨fun b hb => (List.mem_append.1 hb).elim (j1 b) (k1 b), k2⟩
          · rcases h4 hx hd h0 with ⟨rfl, rfl⟩ | ⟨b, bs, rfl, hb, hbs, hd'⟩
            · exact i4 hx hd h0
            · obtain ⟨k1, k2⟩ := i3 hx hd'
              exact Or.inr ⟨b, bs ++ oss2, rfl, hb, fun d hd => (List.mem_append.1 hd).elim (hbs d) (k1 d), k2⟩

theorem runLib_total {c : Conf K} {br : Brain G σ K} (hc : Setting c br) (fit : List (Val K) → K) (lib : Library G K) (x0 : Option (List K)) {fuel : ℕ} (hf : c.epLen ≤ fuel) (smp : ℕ → List K) : ∀ (ngen k : ℕ) (past : List (List K))
    (st : St K), st.env.counter < c.epLen → ∃ st' oss, runLib c fit br lib x0 fuel smp ngen k past st = .ok (st', oss) ∧ (1 ≤ ngen → lib.genomes past ≠ [] → oss ≠ []) := by
  intro ngen
  induction ngen with
  | zero => intro k past st h; exact ⟨_, _, rfl, fun h => by omega⟩
  | succ ngen ih =>
    intro k past st hq
    obtain ⟨st1, fs, oss, h1⟩ := evalGenomes_total hc fit x0 hf smp (lib.genomes past) k st hq
    have hl := (evalGenomes_spec hc h1).1
    have hne : lib.genomes past ≠ [] → oss ≠ [] := by
      rintro h rfl
      exact h (List.length_eq_zero_iff.1 hl.symm)
    rw [runLib, h1]
    simp only
    split
    · exact ⟨_, _, rfl, fun _ => hne⟩
    · obtain ⟨st2, oss2, h2, _⟩ := ih (k + (lib.genomes past).length) (past ++ [fs]) st1 (evalGenomes_len hc h1 hq).1
      rw [h2]
      exact ⟨_, _, rfl, fun _ h h' => hne h (List.append_eq_nil_iff.1 h').1⟩

/-! ### Several processes -/

theorem workLoop_spec {c : Conf K} {br : Brain G σ K} (hc : Setting c br) {fit : List (Val K) → K} : ∀ (fuel : ℕ) {n : σ} {ob : List K} {loc : Option K}
    {env : Env.State K} {f : K} {l : Option K} {x : List (Val K)} {os : List (Out K)} {lx : Option (List (Val K))}, workLoop c fit br fuel n ob loc env = .ok (f, l, x, os) →
    (∀ o ∈ os, Honest c fit o) ∧ (∃ o, os.getLast? = some o ∧ o.reward = f ∧ o.x = x ∧ o.done = true) ∧ l = (os.foldl up (loc, lx)).1 ∧ l ≠ none ∧
      (env.counter < c.epLen → env.done = false → os.length = c.epLen - env.counter) ∧ (env.done = true → os.length = 1) := by
  intro fuel
  induction fuel with
  | zero => intro n ob loc env f l x os lx h; cases h
  | succ fuel ih =>
    intro n ob loc env f l x os lx h
    rw [workLoop] at h
    split at h
    · cases h
    · rename_i env' o hst
      obtain ⟨g1, g2, g3, g4⟩ := step_facts hc hst
      simp only at h
      have hl : (up (loc, lx) o).1 = (if beats o.reward loc then some o.reward else loc) := by unfold up; split_ifs <;> rfl
      have hne : (if beats o.reward loc then some o.reward else loc) ≠ none := by
        cases loc with
        | none => simp [beats]
        | some l => split_ifs <;> simp
      generalize hL : (if beats o.reward loc then some o.reward else loc) = loc' at *
      split at h
      · rename_i hd
        cases h
        refine ⟨by simpa using ⟨g1, g2⟩, ⟨o, rfl, rfl, rfl, hd⟩, hl.symm, hne, ?_, fun _ => rfl⟩
        intro hq hf
        rcases g4 with ⟨e, _⟩ | ⟨_, e, _⟩
        · simp only [List.length_singleton]; omega
        · rw [← g3, hd, hf] at e; cases e
      · rename_i hd
        split at h
        · cases h
        · rename_i r2 l2 x2 os2 hw
          cases h
          obtain ⟨i1, ⟨p, i2, i3, i4, i5⟩, i6, i7, i8, i9⟩ := ih (lx := (up (loc, lx) o).2) hw
          have hne2 : os2 ≠ [] := by rintro rfl; cases i2
          rcases g4 with ⟨_, e, _⟩ | ⟨e1, e2, e3⟩
          · exact absurd (g3.trans e) hd
          · refine ⟨List.forall_mem_cons.2 ⟨⟨g1, g2⟩, i1⟩, ⟨p, by rw [List.getLast?_cons_of_ne_nil hne2]; exact i2, i3, i4, i5⟩, ?_, i7, ?_, ?_⟩
            · rw [i6, List.foldl_cons, ← hl]
            · intro hq hf
              rw [List.length_cons, i8 (by omega) (by rw [e2]; exact hf), e3]
              omega
            · intro ht
              rw [g3, e2, ht] at hd
              exact absurd rfl hd

theorem workLoop_total {c : Conf K} {br : Brain G σ K} (hc : Setting c br) (fit : List (Val K) → K) : ∀ (fuel : ℕ) (n : σ) (ob : List K) (loc : Option K)
    (env : Env.State K), env.counter < c.epLen → c.epLen - env.counter ≤ fuel → ∃ r, workLoop c fit br fuel n ob loc env = .ok r := by
  intro fuel
  induction fuel with
  | zero => intro n ob loc env h1 h2; omega
  | succ fuel ih =>
    intro n ob loc env h1 h2
    obtain ⟨env', o, hst⟩ := step_total hc fit n ob env
    obtain ⟨_, _, g3, g4⟩ := step_facts hc hst
    rw [workLoop, hst]
    simp only
    generalize hL : (if beats o.reward loc then some o.reward else loc) = loc' at *
    split
    · exact ⟨_, rfl⟩
    · rename_i hd
      rcases g4 with ⟨_, g, _⟩ | ⟨e1, e2, e3⟩
      · exact absurd (g3.trans g) hd
      · obtain ⟨⟨a, b, d, e⟩, hr⟩ := ih (br.activate n ob).1 o.obs loc' env' (by omega) (by omega)
        rw [hr]
        exact ⟨_, rfl⟩

theorem work_spec {c : Conf K} {br : Brain G σ K} (hc : Setting c br) {fit : List (Val K) → K} {x0 : Option (List K)} {fuel : ℕ} {smp : List K} {g : G} {env : Env.State K} {f : K} {l : Option K} {x : List (Val K)}
    {os : List (Out K)} (h : work c fit br x0 fuel smp g env = .ok (f, l, x, os)) :
    (∀ o ∈ os, Honest c fit o) ∧ (∃ o, os.getLast? = some o ∧ o.reward = f ∧ o.x = x ∧ o.done = true) ∧ l = (os.foldl up (none, none)).1 ∧ l ≠ none ∧
      (env.counter = 0 → (x0 ≠ none → env.done = false) → os.length = c.epLen) := by
  have hL := hc.len
  unfold work at h
  split at h
  · obtain ⟨h1, h2, h3, h4, h5, h6⟩ := workLoop_spec hc fuel (lx := none) h
    exact ⟨h1, h2, h3, h4, fun h0 hd => by rw [h5 (by omega) (hd (by simp)), h0]; rfl⟩
  · unfold reset at h
    rw [hc.method] at h
    simp only at h
    obtain ⟨h1, h2, h3, h4, h5, h6⟩ := workLoop_spec hc fuel (lx := none) h
    refine ⟨h1, h2, h3, h4, fun h0 hd => ?_⟩
    rw [h5 (by simp only; omega) rfl]
    simp only [h0]; rfl

theorem evalPool_spec {c : Conf K} {br : Brain G σ K} (hc : Setting c br) {fit : List (Val K) → K} {x0 : Option (List K)} {fuel : ℕ} {smp : ℕ → List K} : ∀ {gs : List G} {k : ℕ} {st st' : St K} {fs : List K}
    {oss : List (List (Out K))}, evalPool c fit br x0 fuel smp k gs st = .ok (st', fs, oss) →
    oss.length = gs.length ∧ fs.map some = oss.map (fun b => b.getLast?.map Out.reward) ∧ st'.env = st.env ∧
      (∀ pre, Inv c fit lastOnly st pre → Inv c fit lastOnly st' (pre ++ oss)) ∧ (st.env.counter = 0 → (x0 ≠ none → st.env.done = false) → ∀ b ∈ oss, Full c b) := by
  intro gs
  induction gs with
  | nil => intro k st st' fs oss h; cases h; exact ⟨rfl, rfl, rfl, fun pre h => by simpa using h, by simp⟩
  | cons g gs ih =>
    intro k st st' fs oss h
    rw [evalPool] at h
    split at h
    · cases h
    · rename_i f l x os hw
      simp only at h
      have he : (if beats f st.best then ({ st with best := some f, bestX := some x } : St K) else st).env = st.env := by split_ifs <;> rfl
      have hg : (if beats f st.best then ({ st with best := some f, bestX := some x } : St K) else st).glob = st.glob := by split_ifs <;> rfl
      have hlo : (if beats f st.best then ({ st with best := some f, bestX := some x } : St K) else st).loc = st.loc := by split_ifs <;> rfl
      have hb : ((if beats f st.best then ({ st with best := some f, bestX := some x } : St K) else st).best,
          (if beats f st.best then ({ st with best := some f, bestX := some x } : St K) else st).bestX) = (if beats f st.best then (some f, some x) else (st.best, st.bestX)) := by
        split_ifs <;> rfl
      have hbe : ∃ b, (if beats f st.best then ({ st with best := some f, bestX := some x } : St K) else st).best = some b := by
        cases hs : st.best with
        | none => exact ⟨f, by simp [beats]⟩
        | some b => split_ifs; exacts [⟨_, rfl⟩, ⟨_, hs⟩]
      generalize hs1 : (if beats f st.best then ({ st with best := some f, bestX := some x } : St K) else st) = st1 at *
      split at h
      · cases h
      · rename_i st2 fs2 oss2 hgs
        cases h
        obtain ⟨w1, ⟨o, w2, rfl, rfl, w3⟩, w4, w5, w6⟩ := work_spec hc hw
        obtain ⟨i1, i2, i3, i4, i5⟩ := ih hgs
        simp only [he] at i3 i5
        obtain ⟨b, hbe⟩ := hbe
        obtain ⟨l', rfl⟩ := Option.ne_none_iff_exists'.1 w5
        refine ⟨by simp [i1], by simp [i2, w2], i3, fun pre hp => ?_, fun h0 hd => ?_⟩
        · have := i4 (pre ++ [os]) (Inv.step lastOnly_sub hp w1 (by rintro rfl; cases w2) ?_ ⟨b, hbe, by simp [hbe], by simp [hbe, hg]⟩ ⟨l', w4.symm, by simp [hlo]⟩)
          · rwa [List.append_assoc] at this
          · simp only [hb, lastOnly, w2, Option.toList_some, List.foldl_cons, List.foldl_nil]
            rfl
        · exact List.forall_mem_cons.2 ⟨⟨w6 h0 hd, by rw [w2]; simp [w3]⟩, i5 h0 hd⟩

theorem evalPool_total {c : Conf K} {br : Brain G σ K} (hc : Setting c br) (fit : List (Val K) → K) (x0 : Option (List K)) {fuel : ℕ} (hf : c.epLen ≤ fuel) (smp : ℕ → List K) : ∀ (gs : List G) (k : ℕ) (st : St K),
    st.env.counter < c.epLen → ∃ st' fs oss, evalPool c fit br x0 fuel smp k gs st = .ok (st', fs, oss) := by
  intro gs
  induction gs with
  | nil => intro k st h; exact ⟨_, _, _, rfl⟩
  | cons g gs ih =>
    intro k st hq
    have : ∃ f l x os, work c fit br x0 fuel (smp k) g st.env = .ok (f, l, x, os) := by
      unfold work
      cases x0 with
      | some ob =>
        obtain ⟨⟨a, b, d, e⟩, h⟩ := workLoop_total hc fit fuel (br.create g) ob none st.env hq (by omega)
        exact ⟨a, b, d, e, h⟩
      | none =>
        unfold reset
        rw [hc.method]
        simp only
        obtain ⟨⟨a, b, d, e⟩, h⟩ := workLoop_total hc fit fuel (br.create g) (smp k) none { st.env with done := false } hq (by simp only; omega)
        exact ⟨a, b, d, e, h⟩
    obtain ⟨f, l, x, os, hw⟩ := this
    rw [evalPool, hw]
    simp only
    have he : (if beats f st.best then ({ st with best := some f, bestX := some x } : St K) else st).env = st.env := by split_ifs <;> rfl
    generalize hs1 : (if beats f st.best then ({ st with best := some f, bestX := some x } : St K) else st) = st1 at *
    obtain ⟨st2, fs, oss, h2⟩ := ih (k + 1) { st1 with bestC := st1.best.map (sgn (!c.minMode)), glob := st1.glob ++ (st1.best.map (sgn (!c.minMode))).toList, loc := st1.loc ++ (l.map (sgn (!c.minMode))).toList } (by simp only [he]; exact hq)
    rw [h2]
    exact ⟨_, _, _, rfl⟩

theorem runPool_spec {c : Conf K} {br : Brain G σ K} (hc : Setting c br) {fit : List (Val K) → K} {lib : Library G K} {x0 : Option (List K)} {fuel : ℕ} {smp : ℕ → List K} : ∀ {ngen k : ℕ} {past : List (List K)}
    {st st' : St K} {oss : List (List (Out K))}, runPool c fit br lib x0 fuel smp ngen k past st = .ok (st', oss) →
    st'.env = st.env ∧ (∀ pre, Inv c fit lastOnly st pre → Inv c fit lastOnly st' (pre ++ oss)) ∧ (st.env.counter = 0 → (x0 ≠ none → st.env.done = false) → ∀ b ∈ oss, Full c b) := by
  intro ngen
  induction ngen with
  | zero => intro k past st st' oss h; cases h; exact ⟨rfl, fun pre h => by simpa using h, by simp⟩
  | succ ngen ih =>
    intro k past st st' oss h
    rw [runPool] at h
    split at h
    · cases h
    · rename_i st1 fs oss1 hg
      obtain ⟨_, _, h1, h2, h3⟩ := evalPool_spec hc hg
      split at h
      · cases h; exact ⟨h1, h2, h3⟩
      · split at h
        · cases h
        · rename_i st2 oss2 hr
          cases h
          obtain ⟨i1, i2, i3⟩ := ih hr
          refine ⟨i1.trans h1, fun pre hp => ?_, fun h0 hd b hb => ?_⟩
          · have := i2 _ (h2 pre hp)
            rwa [List.append_assoc] at this
          · rw [h1] at i3
            exact (List.mem_append.1 hb).elim (h3 h0 hd b) (i3 h0 hd b)

/-! ### The two evaluations compared -/

theorem step_env {c : Conf K} (hm : c.method = .policy) {fit : List (Val K) → K} {a : Action K} {env env' : Env.State K} {o : Out K} (h : step c fit a 0 [] env = .ok (env', o)) :
    env' = { env with counter := env'.counter, done := env'.done } := by
  unfold step at h
  split at h
  · cases h
  · rename_i s1 v hmp
    split at h
    · cases h
    · cases h
      have : s1 = env := by
        unfold mapper at hmp
        rw [hm] at hmp
        simp only at hmp
        split at hmp
        · cases hmp
        · cases hmp; rfl
      subst this
      split_ifs <;> rfl

theorem episode_env {c : Conf K} {br : Brain G σ K} (hm : c.method = .policy) {fit : List (Val K) → K} : ∀ (fuel : ℕ) {n : σ} {ob : List K} {loc : Option K} {cnt : ℕ}
    {st st' : St K} {f : K} {os : List (Out K)}, episode c fit br fuel n ob loc cnt st = .ok (st', f, os) →
    st'.env = { st.env with counter := st'.env.counter, done := st'.env.done } := by
  intro fuel
  induction fuel with
  | zero => intro n ob loc cnt st st' f os h; cases h
  | succ fuel ih =>
    intro n ob loc cnt st st' f os h
    rw [episode] at h
    split at h
    · cases h
    · rename_i env' o hst
      have hs := step_env hm hst
      simp only at h
      generalize hL : (if beats o.reward loc then some o.reward else loc) = loc' at *
      generalize hC : (if beats o.reward loc then 0 else cnt + 1) = cnt' at *
      have he : (if beats o.reward st.best then ({ st with env := env', best := some o.reward, bestX := some o.x } : St K) else { st with env := env' }).env = env' := by
        split_ifs <;> rfl
      generalize hs1 : (if beats o.reward st.best then ({ st with env := env', best := some o.reward, bestX := some o.x } : St K) else { st with env := env' }) = st1 at *
      split at h
      · cases h
        simp only [he]
        exact hs
      · split at h
        · cases h
        · rename_i st2 f2 os2 hep
          cases h
          have := ih hep
          rw [this]
          simp only [he]
          rw [hs]

theorem episode_work {c : Conf K} {br : Brain G σ K} (hc : Setting c br) {fit : List (Val K) → K} : ∀ (fuel : ℕ) {n : σ} {ob : List K} {loc : Option K} {cnt : ℕ}
    {st st' : St K} {f : K} {os : List (Out K)}, episode c fit br fuel n ob loc cnt st = .ok (st', f, os) → st.env.counter < c.epLen → CntOK loc cnt st.env.counter →
    ∃ l x, workLoop c fit br fuel n ob loc st.env = .ok (f, l, x, os) := by
  intro fuel
  induction fuel with
  | zero => intro n ob loc cnt st st' f os h; cases h
  | succ fuel ih =>
    intro n ob loc cnt st st' f os h hq hcnt
    rw [episode] at h
    rw [workLoop]
    split at h
    · cases h
    · rename_i env' o hst
      obtain ⟨_, _, g3, g4⟩ := step_facts hc hst
      simp only at h ⊢
      have hcl : (if beats o.reward loc then 0 else cnt + 1) ≤ st.env.counter := by
        rcases hcnt with ⟨rfl, rfl⟩ | ⟨_, hcnt⟩
        · simp [beats]
        · split_ifs <;> omega
      have hln : (if beats o.reward loc then some o.reward else loc) ≠ none := by
        rcases hcnt with ⟨rfl, rfl⟩ | ⟨hcnt, _⟩
        · simp [beats]
        · split_ifs
          · simp
          · exact hcnt
      generalize hL : (if beats o.reward loc then some o.reward else loc) = loc' at *
      generalize hC : (if beats o.reward loc then 0 else cnt + 1) = cnt' at *
      have he : (if beats o.reward st.best then ({ st with env := env', best := some o.reward, bestX := some o.x } : St K) else { st with env := env' }).env = env' := by
        split_ifs <;> rfl
      generalize hs1 : (if beats o.reward st.best then ({ st with env := env', best := some o.reward, bestX := some o.x } : St K) else { st with env := env' }) = st1 at *
      split at h
      · rename_i hd
        have hd' : o.done = true := by
          rcases hd with hd | hd
          · exact hd
          · omega
        cases h
        rw [if_pos hd']
        exact ⟨_, _, rfl⟩
      · rename_i hd
        push Not at hd
        rw [if_neg hd.1]
        split at h
        · cases h
        · rename_i st2 f2 os2 hep
          cases h
          rcases g4 with ⟨_, g, _⟩ | ⟨e1, e2, e3⟩
          · exact absurd (g3.trans g) hd.1
          · obtain ⟨l, x, hw⟩ := ih hep (by simp only [he]; omega) (by right; refine ⟨hln, ?_⟩; simp only [he]; omega)
            simp only [he] at hw
            rw [hw]
            exact ⟨_, _, rfl⟩

/-- The environment of the first run agrees with the one of the second but for the flag, and stands at the start of an episode. -/
def Paired (env env' : Env.State K) : Prop := env.counter = 0 ∧ { env with done := false } = { env' with done := false }

theorem evalGenomes_pool {c : Conf K} {br : Brain G σ K} (hc : Setting c br) {fit : List (Val K) → K} {fuel : ℕ} (hf : c.epLen ≤ fuel) {smp : ℕ → List K} : ∀ {gs : List G} {k : ℕ} {st st' sp : St K} {fs : List K}
    {oss : List (List (Out K))}, evalGenomes c fit br none fuel smp k gs st = .ok (st', fs, oss) → Paired st.env sp.env →
    ∃ sp', evalPool c fit br none fuel smp k gs sp = .ok (sp', fs, oss) ∧ Paired st'.env sp'.env := by
  have hL := hc.len
  intro gs
  induction gs with
  | nil => intro k st st' sp fs oss h hp; cases h; exact ⟨sp, rfl, hp⟩
  | cons g gs ih =>
    intro k st st' sp fs oss h hp
    rw [evalGenomes] at h
    split at h
    · cases h
    · rename_i st1 f os hg
      split at h
      · cases h
      · rename_i st2 fs2 oss2 hgs
        cases h
        unfold evalGenome reset at hg
        rw [hc.method] at hg
        simp only at hg
        obtain ⟨l, x, hw⟩ := episode_work hc fuel hg (by simp only; have := hp.1; omega) (Or.inl ⟨rfl, rfl⟩)
        have hlen := ((episode_len hc fuel hg (by simp only; have := hp.1; omega) (Or.inl ⟨rfl, rfl⟩)).2.2.2.2 rfl).2
        have henv := episode_env hc.method fuel hg
        simp only at hw henv
        have hp1 : Paired st1.env sp.env := by
          refine ⟨hlen, ?_⟩
          rw [henv, hlen, ← hp.2, ← hp.1]
        have hwk : work c fit br none fuel (smp k) g sp.env = .ok (f, l, x, os) := by
          unfold work reset
          rw [hc.method]
          simp only
          rw [← hp.2]
          exact hw
        rw [evalPool, hwk]
        simp only
        have he : (if beats f sp.best then ({ sp with best := some f, bestX := some x } : St K) else sp).env = sp.env := by split_ifs <;> rfl
        generalize hs1 : (if beats f sp.best then ({ sp with best := some f, bestX := some x } : St K) else sp) = sp1 at *
        obtain ⟨sp', h1, h2⟩ := ih (sp := { sp1 with bestC := sp1.best.map (sgn (!c.minMode)), glob := sp1.glob ++ (sp1.best.map (sgn (!c.minMode))).toList, loc := sp1.loc ++ (l.map (sgn (!c.minMode))).toList }) hgs (by simp only [he]; exact hp1)
        rw [h1]
        exact ⟨sp', rfl, h2⟩

theorem runLib_pool {c : Conf K} {br : Brain G σ K} (hc : Setting c br) {fit : List (Val K) → K} {lib : Library G K} {fuel : ℕ} (hf : c.epLen ≤ fuel) {smp : ℕ → List K} : ∀ {ngen k : ℕ} {past : List (List K)}
    {st st' sp : St K} {oss : List (List (Out K))}, runLib c fit br lib none fuel smp ngen k past st = .ok (st', oss) → Paired st.env sp.env →
    ∃ sp', runPool c fit br lib none fuel smp ngen k past sp = .ok (sp', oss) := by
  intro ngen
  induction ngen with
  | zero => intro k past st st' sp oss h hp; cases h; exact ⟨sp, rfl⟩
  | succ ngen ih =>
    intro k past st st' sp oss h hp
    rw [runLib] at h
    split at h
    · cases h
    · rename_i st1 fs oss1 hg
      obtain ⟨sp1, h1, h2⟩ := evalGenomes_pool hc hf hg hp
      rw [runPool, h1]
      simp only
      split at h
      · rename_i hs
        rw [if_pos hs]
        cases h; exact ⟨sp1, rfl⟩
      · rename_i hs
        rw [if_neg hs]
        split at h
        · cases h
        · rename_i st2 oss2 hr
          cases h
          obtain ⟨sp2, h3⟩ := ih hr h2
          rw [h3]
          exact ⟨sp2, rfl⟩

/-! ### C86: what `evolute` returns -/

theorem inv_nil (c : Conf K) (fit : List (Val K) → K) (sel : List (Out K) → List (Out K)) (env : Env.State K) :
    Inv c fit sel { env := env, best := none, bestX := none, bestC := none, glob := [], loc := [] } [] :=
  ⟨by simp, by simp, Or.inl ⟨rfl, rfl⟩, rfl, rfl, by simp, rfl, by simp⟩

theorem evolute_run {c : Conf K} {br : Brain G σ K} {fit : List (Val K) → K} {lib : Library G K} {x0 : Option (List K)} {fuel : ℕ} {smp : ℕ → List K} {ngen : ℕ} {env : Env.State K}
    {r : Result K} (h : evolute c fit br lib x0 fuel smp ngen env = .ok r) :
    (∀ l, x0 = some l → l.length = c.orig.length) ∧
    ∃ st, runLib c fit br lib (start x0) fuel smp ngen 0 [] { env := env, best := none, bestX := none, bestC := none, glob := [], loc := [] } = .ok (st, r.steps) ∧
      st.bestX = some r.x ∧ st.bestC = some r.y ∧ st.glob = r.glob ∧ st.loc = r.loc ∧ st.env = r.env := by
  unfold evolute at h
  split at h
  · cases h
  · rename_i hx
    split at h
    · cases h
    · rename_i st oss hr
      split at h
      · rename_i x y h1 h2
        cases h
        refine ⟨?_, st, hr, h1, h2, rfl, rfl, rfl⟩
        rintro l rfl
        simpa [badStart] using hx
      · cases h

theorem evolutePool_run {c : Conf K} {br : Brain G σ K} {fit : List (Val K) → K} {lib : Library G K} {x0 : Option (List K)} {fuel : ℕ} {smp : ℕ → List K} {ngen : ℕ} {env : Env.State K}
    {r : Result K} (h : evolutePool c fit br lib x0 fuel smp ngen env = .ok r) :
    ∃ st, runPool c fit br lib (start x0) fuel smp ngen 0 [] { env := env, best := none, bestX := none, bestC := none, glob := [], loc := [] } = .ok (st, r.steps) ∧
      st.bestX = some r.x ∧ st.bestC = some r.y ∧ st.glob = r.glob ∧ st.loc = r.loc ∧ st.env = r.env := by
  unfold evolutePool at h
  split at h
  · cases h
  · split at h
    · cases h
    · rename_i st oss hr
      split at h
      · rename_i x y h1 h2
        cases h
        exact ⟨st, hr, h1, h2, rfl, rfl, rfl⟩
      · cases h

theorem Inv.isBest {c : Conf K} {fit : List (Val K) → K} {sel : List (Out K) → List (Out K)} (hsel : ∀ b, ∀ o ∈ sel b, o ∈ b) {st : St K} {oss : List (List (Out K))} (h : Inv c fit sel st oss)
    {x : List (Val K)} {y : K} (hx : st.bestX = some x) (hy : st.bestC = some y) : IsBest c.minMode fit ((oss.flatMap sel).map Out.x) x y := by
  have hc := h.correct
  rw [hy] at hc
  cases hb : st.best with
  | none => rw [hb] at hc; cases hc
  | some b =>
    rw [hb] at hc
    obtain rfl := Option.some.inj hc
    have ht := h.top
    rw [hb, hx] at ht
    refine ht.isBest ?_
    intro o ho
    obtain ⟨d, hd, hod⟩ := List.mem_flatMap.1 ho
    exact h.honest d hd o (hsel d o hod)

/-- **C86.** What `evolute` returns with one process, whatever networks the library evolves and whenever it stops: the point is one of the points evaluated,
the number is the fitness of it, and no evaluated point is better in the user's mode; every evaluated point is a member of the user's space. -/
theorem C86_best {c : Conf K} {br : Brain G σ K} (hc : Setting c br) {fit : List (Val K) → K} {lib : Library G K} {x0 : Option (List K)} {fuel : ℕ} {smp : ℕ → List K} {ngen : ℕ} {env : Env.State K}
    {r : Result K} (h : evolute c fit br lib x0 fuel smp ngen env = .ok r) :
    IsBest c.minMode fit (points r.steps) r.x r.y ∧ ∀ x ∈ points r.steps, InSpace c.orig x := by
  obtain ⟨_, st, hr, h1, h2, _⟩ := evolute_run h
  have hi := runLib_spec hc hr [] (inv_nil c fit id env)
  rw [List.nil_append] at hi
  have := hi.isBest (sel := id) (fun b o ho => ho) h1 h2
  rw [flatMap_id] at this
  refine ⟨this, ?_⟩
  intro x hx
  obtain ⟨o, ho, rfl⟩ := List.mem_map.1 hx
  obtain ⟨b, hb, hob⟩ := List.mem_flatten.1 ho
  exact (hi.honest b hb o hob).1

/-- **C86.** The histories have one entry per genome: the `k`-th global entry is the best fitness of all evaluations up to and with genome `k`, the `k`-th local
entry the best fitness of the evaluations of genome `k`. -/
theorem C86_history {c : Conf K} {br : Brain G σ K} (hc : Setting c br) {fit : List (Val K) → K} {lib : Library G K} {x0 : Option (List K)} {fuel : ℕ} {smp : ℕ → List K} {ngen : ℕ} {env : Env.State K}
    {r : Result K} (h : evolute c fit br lib x0 fuel smp ngen env = .ok r) :
    r.glob.length = r.steps.length ∧ r.loc.length = r.steps.length ∧
      (∀ (k : ℕ) y, r.glob[k]? = some y → BestOn c.minMode fit (points (r.steps.take (k + 1))) y) ∧
      (∀ (k : ℕ) y b, r.loc[k]? = some y → r.steps[k]? = some b → BestOn c.minMode fit (b.map Out.x) y) := by
  obtain ⟨_, st, hr, _, _, h3, h4, _⟩ := evolute_run h
  have hi := runLib_spec hc hr [] (inv_nil c fit id env)
  rw [List.nil_append] at hi
  have hg := hi.glob
  simp only [flatMap_id] at hg
  rw [← h3, ← h4]
  exact ⟨hi.globLen, hi.locLen, hg, hi.loc⟩

/-- **C86.** The global history never gets worse. -/
theorem C86_monotone {c : Conf K} {br : Brain G σ K} (hc : Setting c br) {fit : List (Val K) → K} {lib : Library G K} {x0 : Option (List K)} {fuel : ℕ} {smp : ℕ → List K} {ngen : ℕ} {env : Env.State K}
    {r : Result K} (h : evolute c fit br lib x0 fuel smp ngen env = .ok r) {i j : ℕ} (hij : i ≤ j) {y z : K} (hy : r.glob[i]? = some y) (hz : r.glob[j]? = some z) : NotWorse c.minMode y z := by
  obtain ⟨_, _, h3, _⟩ := C86_history hc h
  refine (h3 i y hy).mono (h3 j z hz) ?_
  intro x hx
  unfold points at hx ⊢
  obtain ⟨o, ho, rfl⟩ := List.mem_map.1 hx
  obtain ⟨b, hb, hob⟩ := List.mem_flatten.1 ho
  refine List.mem_map.2 ⟨o, List.mem_flatten.2 ⟨b, ?_, hob⟩, rfl⟩
  exact (List.take_sublist_take_left (by omega)).subset hb

/-- **C86.** A run of at least one generation with at least one genome always succeeds, when the start has the right length (and is refused otherwise); `epLen`
iterations of the inner loop are enough. -/
theorem C86_total {c : Conf K} {br : Brain G σ K} (hc : Setting c br) (fit : List (Val K) → K) {lib : Library G K} (hl : lib.genomes [] ≠ []) {x0 : Option (List K)} {fuel : ℕ}
    (hf : c.epLen ≤ fuel) (smp : ℕ → List K) {ngen : ℕ} (hn : 1 ≤ ngen) {env : Env.State K} (he : env.counter < c.epLen) :
    ((∀ l, x0 = some l → l.length = c.orig.length) → ∃ r, evolute c fit br lib x0 fuel smp ngen env = .ok r) ∧
    ((∃ l, x0 = some l ∧ l.length ≠ c.orig.length) → evolute c fit br lib x0 fuel smp ngen env = .error .assertion) := by
  constructor
  · intro hx
    obtain ⟨st, oss, hr, hne⟩ := runLib_total hc fit lib (start x0) hf smp ngen 0 [] { env := env, best := none, bestX := none, bestC := none, glob := [], loc := [] } he
    have hi := runLib_spec hc hr [] (inv_nil c fit id env)
    rw [List.nil_append] at hi
    have hb : ∃ b x, st.best = some b ∧ st.bestX = some x := by
      rcases hi.top with ⟨h0, _⟩ | ⟨o, _, ht, _⟩
      · exfalso
        have hoss := hne hn hl
        obtain ⟨b, bs, rfl⟩ := List.exists_cons_of_ne_nil hoss
        rw [List.flatMap_cons] at h0
        exact hi.nonempty b List.mem_cons_self (List.append_eq_nil_iff.1 h0).1
      · exact ⟨_, _, (Prod.mk.inj ht).1, (Prod.mk.inj ht).2⟩
    obtain ⟨b, x, hb, hbx⟩ := hb
    have hcx := hi.correct
    rw [hb] at hcx
    refine ⟨{ x := x, y := sgn (!c.minMode) b, glob := st.glob, loc := st.loc, env := st.env, steps := oss }, ?_⟩
    unfold evolute
    rw [if_neg]
    · rw [hr]
      simp only [hbx, hcx, Option.map_some]
    · cases x0 with
      | none => simp [badStart]
      | some l => simp [badStart, hx l rfl]
  · rintro ⟨l, rfl, hx⟩
    unfold evolute
    rw [if_pos (by simpa [badStart] using hx)]

/-- **C86.** The number the library sees for a genome is the (signed) fitness of the *last* point the genome proposed, with one process and with several. -/
theorem C86_fitness {c : Conf K} {br : Brain G σ K} (hc : Setting c br) {fit : List (Val K) → K} {x0 : Option (List K)} {fuel : ℕ} {smp : ℕ → List K} {gs : List G} {k : ℕ} {st st' : St K} {fs : List K}
    {oss : List (List (Out K))} (h : evalGenomes c fit br x0 fuel smp k gs st = .ok (st', fs, oss) ∨ evalPool c fit br x0 fuel smp k gs st = .ok (st', fs, oss)) :
    fs.length = gs.length ∧ oss.length = gs.length ∧
      ∀ (i : ℕ) f b, fs[i]? = some f → oss[i]? = some b → ∃ o, b.getLast? = some o ∧ f = (if c.minMode then - fit o.x else fit o.x) := by
  have key : oss.length = gs.length ∧ fs.map some = oss.map (fun b => b.getLast?.map Out.reward) ∧ ∀ b ∈ oss, ∀ o ∈ b, Honest c fit o := by
    rcases h with h | h
    · obtain ⟨h1, h2, h3⟩ := evalGenomes_spec hc h
      refine ⟨h1, h2, ?_⟩
      clear h2 h3
      induction gs generalizing k st fs oss with
      | nil => cases h; simp
      | cons g gs ih =>
        rw [evalGenomes] at h
        split at h
        · cases h
        · rename_i st1 f os hg
          split at h
          · cases h
          · rename_i st2 fs2 oss2 hgs
            cases h
            refine List.forall_mem_cons.2 ⟨?_, ih hgs (by simpa using h1)⟩
            unfold evalGenome at hg
            split at hg
            · exact (episode_spec hc fuel (lx := none) hg).1
            · split at hg
              · cases hg
              · exact (episode_spec hc fuel (lx := none) hg).1
    · obtain ⟨h1, h2, h3⟩ := evalPool_spec hc h
      refine ⟨h1, h2, ?_⟩
      clear h2 h3
      induction gs generalizing k st fs oss with
      | nil => cases h; simp
      | cons g gs ih =>
        rw [evalPool] at h
        split at h
        · cases h
        · rename_i f l x os hw
          simp only at h
          split at h
          · cases h
          · rename_i st2 fs2 oss2 hgs
            cases h
            exact List.forall_mem_cons.2 ⟨(work_spec hc hw).1, ih hgs (by simpa using h1)⟩
  obtain ⟨h1, h2, h3⟩ := key
  have hlen : fs.length = oss.length := by simpa using congrArg List.length h2
  refine ⟨hlen.trans h1, h1, ?_⟩
  intro i f b hf hb
  have := congrArg (fun l => l[i]?) h2
  simp only [List.getElem?_map, hf, hb, Option.map_some, Option.some.injEq] at this
  obtain ⟨o, ho, he⟩ := Option.map_eq_some_iff.1 this.symm
  refine ⟨o, ho, ?_⟩
  rw [← he, (h3 b (List.mem_of_getElem? hb) o (List.mem_of_getLast? ho)).2]
  cases c.minMode <;> simp [sgn]

/-! ### C87: how many points a genome proposes -/

/-- **C87.** Without a start point every genome of the run proposes exactly `episode_length` points: the early stop of the loop never happens.  The environment is
left ready for another call. -/
theorem C87_steps {c : Conf K} {br : Brain G σ K} (hc : Setting c br) {fit : List (Val K) → K} {lib : Library G K} {fuel : ℕ} {smp : ℕ → List K} {ngen : ℕ} {env : Env.State K} (h0 : env.counter = 0)
    {r : Result K} (h : evolute c fit br lib none fuel smp ngen env = .ok r) :
    (∀ b ∈ r.steps, b.length = c.epLen) ∧ (points r.steps).length = r.steps.length * c.epLen ∧ r.env.counter = 0 := by
  have hL := hc.len
  obtain ⟨_, st, hr, _, _, _, _, h5⟩ := evolute_run h
  obtain ⟨h1, h2⟩ := (runLib_len hc hr (by simp only; omega)).2.1 rfl h0
  rw [h5] at h2
  have hb : ∀ b ∈ r.steps, b.length = c.epLen := fun b hb => (h1 b hb).1
  refine ⟨hb, ?_, h2⟩
  unfold points
  rw [List.length_map, List.length_flatten]
  have : r.steps.map List.length = List.replicate r.steps.length c.epLen := by
    rw [List.eq_replicate_iff]
    refine ⟨by simp, ?_⟩
    intro b hb'
    obtain ⟨d, hd, rfl⟩ := List.mem_map.1 hb'
    exact hb d hd
  rw [this, List.sum_replicate_nat]

/-- **C87, defect.** With a start point the environment is never reset, so its `done` flag stays set after the first genome: the first genome proposes
`episode_length` points and every later genome of the whole run only one. -/
theorem C87_start {c : Conf K} {br : Brain G σ K} (hc : Setting c br) {fit : List (Val K) → K} {lib : Library G K} {ob : List K} (ho : ob ≠ []) {fuel : ℕ} {smp : ℕ → List K} {ngen : ℕ} {env : Env.State K}
    (h0 : env.counter = 0) (hd : env.done = false) {r : Result K} (h : evolute c fit br lib (some ob) fuel smp ngen env = .ok r) :
    r.steps.map List.length = c.epLen :: List.replicate (r.steps.length - 1) 1 ∧ r.env.done = true := by
  have hL := hc.len
  obtain ⟨_, st, hr, hb, hbc, _, _, h5⟩ := evolute_run h
  have hx : start (some ob) = some ob := by
    cases ob with
    | nil => exact absurd rfl ho
    | cons a as => rfl
  rw [hx] at hr
  rcases (runLib_len hc hr (by simp only; omega)).2.2.2 (by simp) hd h0 with ⟨_, h1⟩ | ⟨b, bs, h1, h2, h3, h4⟩
  · rw [h1] at hb; cases hb
  · rw [h1, ← h5]
    refine ⟨?_, h4⟩
    rw [List.map_cons, h2.1]
    congr 1
    rw [List.eq_replicate_iff]
    refine ⟨by simp, ?_⟩
    intro n hn
    obtain ⟨d, hd, rfl⟩ := List.mem_map.1 hn
    exact (h3 d hd).1

/-- **C87, defect.** A second call with a start point on the same object finds the flag set: every genome proposes a single point. -/
theorem C87_start_again {c : Conf K} {br : Brain G σ K} (hc : Setting c br) {fit : List (Val K) → K} {lib : Library G K} {ob : List K} (ho : ob ≠ []) {fuel : ℕ} {smp : ℕ → List K} {ngen : ℕ} {env : Env.State K}
    (h0 : env.counter < c.epLen) (hd : env.done = true) {r : Result K} (h : evolute c fit br lib (some ob) fuel smp ngen env = .ok r) :
    (∀ b ∈ r.steps, b.length = 1) ∧ r.env.done = true := by
  obtain ⟨_, st, hr, hb, hbc, _, _, h5⟩ := evolute_run h
  have hx : start (some ob) = some ob := by
    cases ob with
    | nil => exact absurd rfl ho
    | cons a as => rfl
  rw [hx] at hr
  obtain ⟨h1, h2⟩ := (runLib_len hc hr h0).2.2.1 (by simp) hd
  rw [h5] at h2
  exact ⟨fun b hb => (h1 b hb).1, h2⟩

/-! ### C88: several processes -/

/-- **C88.** With several processes the returned pair is the best of the *last* points of the genomes: it is a member of the space with its own fitness,
and no last point is better; the `k`-th global entry is the best last point up to genome `k`, the local entries are the same as with one process. -/
theorem C88_best {c : Conf K} {br : Brain G σ K} (hc : Setting c br) {fit : List (Val K) → K} {lib : Library G K} {x0 : Option (List K)} {fuel : ℕ} {smp : ℕ → List K} {ngen : ℕ} {env : Env.State K}
    {r : Result K} (h : evolutePool c fit br lib x0 fuel smp ngen env = .ok r) :
    IsBest c.minMode fit ((r.steps.flatMap fun b => b.getLast?.toList).map Out.x) r.x r.y ∧ InSpace c.orig r.x ∧
      r.glob.length = r.steps.length ∧ r.loc.length = r.steps.length ∧
      (∀ (k : ℕ) y, r.glob[k]? = some y → BestOn c.minMode fit (((r.steps.take (k + 1)).flatMap fun b => b.getLast?.toList).map Out.x) y) ∧
      (∀ (k : ℕ) y b, r.loc[k]? = some y → r.steps[k]? = some b → BestOn c.minMode fit (b.map Out.x) y) := by
  obtain ⟨st, hr, h1, h2, h3, h4, _⟩ := evolutePool_run h
  have hi := (runPool_spec hc hr).2.1 [] (inv_nil c fit lastOnly env)
  rw [List.nil_append] at hi
  have hbest := hi.isBest lastOnly_sub h1 h2
  refine ⟨hbest, ?_, by rw [← h3]; exact hi.globLen, by rw [← h4]; exact hi.locLen, by rw [← h3]; exact hi.glob, by rw [← h4]; exact hi.loc⟩
  obtain ⟨o, ho, hx⟩ := List.mem_map.1 hbest.1
  obtain ⟨b, hb, hob⟩ := List.mem_flatMap.1 ho
  rw [← hx]
  exact (hi.honest b hb o (lastOnly_sub b o hob)).1

/-- **C88.** Every genome works on a copy of the environment: it proposes exactly `episode_length` points, with and without a start point, and the environment of
the object is left as it was. -/
theorem C88_steps {c : Conf K} {br : Brain G σ K} (hc : Setting c br) {fit : List (Val K) → K} {lib : Library G K} {x0 : Option (List K)} {fuel : ℕ} {smp : ℕ → List K} {ngen : ℕ} {env : Env.State K}
    (h0 : env.counter = 0) (hd : env.done = false) {r : Result K} (h : evolutePool c fit br lib x0 fuel smp ngen env = .ok r) :
    (∀ b ∈ r.steps, b.length = c.epLen) ∧ r.env = env := by
  obtain ⟨st, hr, _, _, _, _, h5⟩ := evolutePool_run h
  obtain ⟨h1, _, h3⟩ := runPool_spec hc hr
  exact ⟨fun b hb => (h3 h0 (fun _ => hd) b hb).1, by rw [← h5, h1]⟩

/-- **C88.** Without a start point, and for the same networks and samples, several processes evaluate exactly the points of the run with one process, in the same
order; the returned fitness is never better than with one process. -/
theorem C88_same {c : Conf K} {br : Brain G σ K} (hc : Setting c br) {fit : List (Val K) → K} {lib : Library G K} {fuel : ℕ} (hf : c.epLen ≤ fuel) {smp : ℕ → List K} {ngen : ℕ} {env : Env.State K}
    (h0 : env.counter = 0) {r : Result K} (h : evolute c fit br lib none fuel smp ngen env = .ok r) :
    ∃ r', evolutePool c fit br lib none fuel smp ngen env = .ok r' ∧ r'.steps = r.steps ∧ NotWorse c.minMode r'.y r.y := by
  obtain ⟨_, st, hr, h1, h2, _⟩ := evolute_run h
  obtain ⟨sp, hp⟩ := runLib_pool hc hf hr (sp := { env := env, best := none, bestX := none, bestC := none, glob := [], loc := [] }) ⟨h0, rfl⟩
  have hi := (runPool_spec hc hp).2.1 [] (inv_nil c fit lastOnly env)
  rw [List.nil_append] at hi
  have hs := runLib_spec hc hr [] (inv_nil c fit id env)
  rw [List.nil_append] at hs
  have hb : ∃ b x, sp.best = some b ∧ sp.bestX = some x := by
    rcases hi.top with ⟨e, _⟩ | ⟨o, _, ht, _⟩
    · exfalso
      have hoss : r.steps ≠ [] := by
        intro he
        have ht := hs.top
        rw [he] at ht
        rcases ht with ⟨_, ht⟩ | ⟨o, ho, _⟩
        · rw [h1] at ht; cases (Prod.mk.inj ht).2
        · simp at ho
      obtain ⟨b, bs, he⟩ := List.exists_cons_of_ne_nil hoss
      rw [he, List.flatMap_cons] at e
      have hbn := hi.nonempty b (by rw [he]; exact List.mem_cons_self)
      have := (List.append_eq_nil_iff.1 e).1
      unfold lastOnly at this
      rw [List.getLast?_eq_some_getLast hbn] at this
      cases this
    · exact ⟨_, _, (Prod.mk.inj ht).1, (Prod.mk.inj ht).2⟩
  obtain ⟨b, x, hb, hbx⟩ := hb
  have hcx := hi.correct
  rw [hb] at hcx
  have hok : evolutePool c fit br lib none fuel smp ngen env = .ok { x := x, y := sgn (!c.minMode) b, glob := sp.glob, loc := sp.loc, env := sp.env, steps := r.steps } := by
    unfold evolutePool
    rw [if_neg (by simp [badStart]), show start (none : Option (List K)) = none from rfl, hp]
    simp only [hbx, hcx, Option.map_some]
  refine ⟨_, hok, rfl, ?_⟩
  obtain ⟨j1, j2, _⟩ := (C88_best hc hok).1
  obtain ⟨⟨_, _, k3⟩, _⟩ := C86_best hc h
  simp only at j1 j2 ⊢
  rw [j2]
  refine k3 _ ?_
  obtain ⟨o, ho, hx⟩ := List.mem_map.1 j1
  obtain ⟨d, hd, hod⟩ := List.mem_flatMap.1 ho
  exact List.mem_map.2 ⟨o, List.mem_flatten.2 ⟨d, hd, lastOnly_sub d o hod⟩, hx⟩

/-! ### C89: the configuration -/

/-- The key exists in the section. -/
def Has {V : Type} (cfg : List (String × Section V)) (sec key : String) : Prop := ∃ v, get cfg sec key = some v

theorem lookup_map_snd {V W : Type} (g : String → V → W) (l : List (String × V)) (k : String) : (l.map fun kv => (kv.1, g kv.1 kv.2)).lookup k = (l.lookup k).map (g k) := by
  induction l with
  | nil => rfl
  | cons a l ih =>
    rw [List.map_cons, List.lookup_cons, List.lookup_cons]
    by_cases h : k == a.1
    · simp only [h]
      rw [eq_of_beq h]
      rfl
    · simp only [h, ih]

theorem get_modify {V : Type} (user : Section V) (cfg : List (String × Section V)) (sec key : String) :
    get (modifyConfig user cfg) sec key = (get cfg sec key).map fun v => (user.lookup key).getD v := by
  unfold get modifyConfig
  rw [lookup_map_snd (fun _ s => modifySection user s)]
  cases h : cfg.lookup sec with
  | none => rfl
  | some s =>
    simp only [Option.map_some, Option.bind_some]
    have : modifySection user s = s.map fun kv => (kv.1, (fun k v => (user.lookup k).getD v) kv.1 kv.2) := by
      unfold modifySection
      refine List.map_congr_left fun kv _ => ?_
      show _ = (kv.1, (user.lookup kv.1).getD kv.2)
      cases user.lookup kv.1 <;> rfl
    rw [this, lookup_map_snd (fun k v => (user.lookup k).getD v)]

theorem get_assign {V : Type} (s k : String) (v : V) (cfg : List (String × Section V)) (sec key : String) :
    get (assign s k v cfg) sec key = (get cfg sec key).map fun w => if sec = s ∧ key = k then v else w := by
  unfold get assign
  have : (cfg.map fun t => if t.1 = s then (t.1, t.2.map fun kv => if kv.1 = k then (kv.1, v) else kv) else t) =
      cfg.map fun t => (t.1, (fun n u => if n = s then u.map fun kv => (kv.1, (fun a b => if a = k then v else b) kv.1 kv.2) else u) t.1 t.2) := by
    refine List.map_congr_left fun t _ => ?_
    by_cases h : t.1 = s
    · simp only [h, if_true]
      congr 1
      refine List.map_congr_left fun kv _ => ?_
      by_cases h2 : kv.1 = k <;> simp [h2]
    · simp only [h, if_false]
  have h2 := lookup_map_snd (fun n (u : Section V) => if n = s then u.map fun kv => (kv.1, (fun a b => if a = k then v else b) kv.1 kv.2) else u) cfg sec
  rw [this, h2]
  cases h : cfg.lookup sec with
  | none => rfl
  | some u =>
    simp only [Option.map_some, Option.bind_some]
    by_cases h1 : sec = s
    · rw [if_pos h1, lookup_map_snd (fun a b => if a = k then v else b)]
      simp [h1]
    · rw [if_neg h1]
      simp [h1]

/-- **C89.** The configuration handed to the library, for any defaults and any dictionary of the user.  The fitness criterion is 'max' and the numbers of inputs and
outputs are the number of variables, whatever the user asks; every other default key has the user's value if the user gives one and the default otherwise; keys
that are not defaults are ignored without a message. -/
theorem C89_config {V : Type} (maxV : V) (num : ℕ → V) (user : Section V) (basic : List (String × Section V)) (nx : ℕ) :
    (Has basic "NEAT" "fitness_criterion" → get (config maxV num user basic nx) "NEAT" "fitness_criterion" = some maxV) ∧
    (Has basic "DefaultGenome" "num_inputs" → get (config maxV num user basic nx) "DefaultGenome" "num_inputs" = some (num nx)) ∧
    (Has basic "DefaultGenome" "num_outputs" → get (config maxV num user basic nx) "DefaultGenome" "num_outputs" = some (num nx)) ∧
    (∀ sec key v, get basic sec key = some v → (sec, key) ∉ [("NEAT", "fitness_criterion"), ("DefaultGenome", "num_inputs"), ("DefaultGenome", "num_outputs")] →
      get (config maxV num user basic nx) sec key = some (match user.lookup key with | some u => u | none => v)) ∧
    (∀ sec key, ¬ Has basic sec key → ¬ Has (config maxV num user basic nx) sec key) ∧
    (∀ user', (∀ key sec, Has basic sec key → user'.lookup key = user.lookup key) → ∀ sec key, get (config maxV num user' basic nx) sec key = get (config maxV num user basic nx) sec key) := by
  have hg : ∀ user sec key, get (config maxV num user basic nx) sec key = (get basic sec key).map fun v =>
      if sec = "DefaultGenome" ∧ key = "num_outputs" then num nx else if sec = "DefaultGenome" ∧ key = "num_inputs" then num nx else
        if sec = "NEAT" ∧ key = "fitness_criterion" then maxV else (user.lookup key).getD v := by
    intro user sec key
    unfold config
    rw [get_assign, get_assign, get_assign, get_modify]
    cases get basic sec key <;> rfl
  refine ⟨?_, ?_, ?_, ?_, ?_, ?_⟩
  · rintro ⟨v, h⟩; rw [hg, h]; simp
  · rintro ⟨v, h⟩; rw [hg, h]; simp
  · rintro ⟨v, h⟩; rw [hg, h]; simp
  · intro sec key v h hn
    rw [hg, h]
    simp only [List.mem_cons, Prod.mk.injEq, List.not_mem_nil, or_false, not_or] at hn
    simp only [Option.map_some, if_neg hn.1, if_neg hn.2.1, if_neg hn.2.2]
    cases user.lookup key <;> rfl
  · intro sec key h ⟨v, hv⟩
    rw [hg] at hv
    obtain ⟨w, hw, _⟩ := Option.map_eq_some_iff.1 hv
    exact h ⟨w, hw⟩
  · intro user' hu sec key
    rw [hg, hg]
    cases h : get basic sec key with
    | none => rfl
    | some v => simp only [Option.map_some]; rw [hu key sec ⟨v, h⟩]

/-- **C89.** The defaults of the code: the three forced keys exist, the hyperparameters the documentation lists exist, and no key occurs in two sections, so
that a key of the user changes one entry. -/
theorem C89_defaults (ff : String) :
    Has (basicConfig ff) "NEAT" "fitness_criterion" ∧ Has (basicConfig ff) "DefaultGenome" "num_inputs" ∧ Has (basicConfig ff) "DefaultGenome" "num_outputs" ∧
    (∀ key ∈ ["pop_size", "num_hidden", "elitism", "survival_threshold", "min_species_size", "activation_mutate_rate", "aggregation_mutate_rate", "weight_mutate_rate", "bias_mutate_rate"],
      ∃ sec, Has (basicConfig ff) sec key) ∧
    ((basicConfig ff).flatMap fun s => s.2.map Prod.fst).Nodup ∧ get (basicConfig ff) "DefaultGenome" "weight_mutate_rate" = some "0.8" := by
  refine ⟨⟨_, rfl⟩, ⟨_, rfl⟩, ⟨_, rfl⟩, ?_, ?_, rfl⟩
  · intro key hk
    simp only [List.mem_cons, List.not_mem_nil, or_false] at hk
    rcases hk with rfl | rfl | rfl | rfl | rfl | rfl | rfl | rfl | rfl
    · exact ⟨"NEAT", _, rfl⟩
    · exact ⟨"DefaultGenome", _, rfl⟩
    · exact ⟨"DefaultReproduction", _, rfl⟩
    · exact ⟨"DefaultReproduction", _, rfl⟩
    · exact ⟨"DefaultReproduction", _, rfl⟩
    · exact ⟨"DefaultGenome", _, rfl⟩
    · exact ⟨"DefaultGenome", _, rfl⟩
    · exact ⟨"DefaultGenome", _, rfl⟩
    · exact ⟨"DefaultGenome", _, rfl⟩
  · show (List.map Prod.fst _ ++ _).Nodup
    simp only [List.map_cons, List.map_nil]
    decide +kernel

end

/-! ### Concrete cases -/

/-- One variable, two points per genome, maximisation. -/
def exC : Conf ℚ := { method := .policy, orig := [("x", .float 0 10)], minMode := false, epLen := 2, order := id }
/-- A genome is the list of its outputs. -/
def exB : Brain (List ℚ) (List ℚ) ℚ := { create := id, activate := fun s _ => match s with | [] => ([], [0]) | a :: as => (as, [a]) }
def exF : List (Val ℚ) → ℚ := fun v => match v with | .float y :: _ => y | _ => 0
/-- Two genomes per generation; the second generation depends on the fitness values of the first. -/
def exL : Library (List ℚ) ℚ := { genomes := fun past => match past with | [] => [[1 / 2, 0], [-1, -(1 / 2)]] | (f :: _) :: _ => [[f / 10, 9 / 10], [1 / 5, 1 / 10]] | _ => [[]], stop := fun _ => false }
def exE : Env.State ℚ := { counter := 0, done := false, index := 0, full := [] }

theorem exSetting : Setting exC exB where
  ok := Space.ok_of_okB (by decide +kernel)
  names := by decide +kernel
  method := rfl
  mixed := by decide +kernel
  len := by decide +kernel
  outputs := by
    intro n ob
    cases n <;> rfl

example : exE.counter = 0 ∧ exE.done = false ∧ exC.epLen ≤ 2 ∧ exL.genomes [] ≠ [] := by decide +kernel

/-- One process, no start point. -/
example : (match evolute exC exF exB exL none 2 (fun _ => [0]) 2 exE with
    | .ok r => decide (r.x = [.float (19 / 2)] ∧ r.y = 19 / 2 ∧ r.glob = [15 / 2, 15 / 2, 19 / 2, 19 / 2] ∧ r.loc = [15 / 2, 5 / 2, 19 / 2, 6] ∧ r.steps.map List.length = [2, 2, 2, 2])
    | _ => false) = true := by decide +kernel

/-- One process with a start point: the later genomes propose one point each. -/
example : (match evolute exC exF exB exL (some [3]) 2 (fun _ => [0]) 2 exE with
    | .ok r => decide (r.y = 15 / 2 ∧ r.glob = [15 / 2, 15 / 2, 15 / 2, 15 / 2] ∧ r.loc = [15 / 2, 0, 15 / 2, 6] ∧ r.steps.map List.length = [2, 1, 1, 1])
    | _ => false) = true := by decide +kernel

/-- A start point of the wrong length. -/
example : (match evolute exC exF exB exL (some [3, 4]) 2 (fun _ => [0]) 2 exE with | .error e => decide (e = .assertion) | _ => false) = true := by decide +kernel

/-- **C88, defect.** With several processes the result can be worse than a point that was evaluated: here the best point evaluated has fitness 15/2, the local
history reports it, and the returned fitness and the global history are 5. -/
theorem C88_misses : ∃ (c : Conf ℚ) (br : Brain (List ℚ) (List ℚ) ℚ) (fit : List (Val ℚ) → ℚ) (lib : Library (List ℚ) ℚ) (smp : ℕ → List ℚ) (env : Env.State ℚ) (r : Result ℚ),
    Setting c br ∧ env.counter = 0 ∧ env.done = false ∧ evolutePool c fit br lib none c.epLen smp 1 env = .ok r ∧
    (∃ x ∈ points r.steps, ¬ NotWorse c.minMode (fit x) r.y) ∧ ∃ l g, r.loc[0]? = some l ∧ r.glob[0]? = some g ∧ ¬ NotWorse c.minMode l g := by
  refine ⟨exC, exB, exF, exL, fun _ => [0], exE, ?_⟩
  have hv : (match evolutePool exC exF exB exL none exC.epLen (fun _ => [0]) 1 exE with
      | .ok r => decide ([Val.float (15 / 2)] ∈ points r.steps ∧ r.y = 5 ∧ r.loc[0]? = some (15 / 2) ∧ r.glob[0]? = some 5)
      | _ => false) = true := by decide +kernel
  split at hv
  · rename_i r hr
    obtain ⟨h1, h2, h3, h4⟩ := of_decide_eq_true hv
    refine ⟨r, exSetting, rfl, rfl, hr, ⟨_, h1, ?_⟩, _, _, h3, h4, ?_⟩
    · rw [h2]; show ¬ ((15 / 2 : ℚ) ≤ 5); norm_num
    · show ¬ ((15 / 2 : ℚ) ≤ 5); norm_num
  · cases hv

/-- A configuration with two keys of the user, one of them unknown. -/
example : (let cf := config "max" toString [("pop_size", "50"), ("popsize", "7")] (basicConfig "False") 3
    (get cf "NEAT" "pop_size", get cf "DefaultGenome" "num_inputs", get cf "DefaultReproduction" "elitism")) = (some "50", some "3", some "1") := by decide +kernel

end Neorl.Neat

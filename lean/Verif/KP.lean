import Verif.Py
import Mathlib.Data.List.GetD
import Mathlib.Algebra.BigOperators.Group.List.Basic

/-!
# The knapsack environment

`neorl/benchmarks/kp.py`, class `KP`.
-/

set_option linter.unusedSectionVars false
set_option linter.unusedVariables false

namespace Neorl.KP

variable {K : Type} [Field K] [LinearOrder K] [IsStrictOrderedRing K]

/-- The data of `__init__`, kp.py:43-52: number of objects, value and weight by object name 1..n (the code uses the decimal texts), capacity. -/
structure Prob (K : Type) where
  n : ℕ
  val : ℕ → K
  wt : ℕ → K
  cap : K

/-- The value marking an empty row, `-10**6.0`. -/
def blank : K := -1000000

/-- The fields that `step` and `reset` change: the three columns of `state`, `obj_id`, `obj_list`, counters, `best_knap`, `_iter_episode`, `done`. -/
structure Env (K : Type) where
  vs : List K
  ws : List K
  rs : List K
  ids : List ℕ
  list : List ℕ
  counter : ℕ
  sub : ℕ
  best : K
  episode : ℕ
  done : Bool

/-- All object names. -/
def Prob.all (P : Prob K) : List ℕ := List.range' 1 P.n

/-- Wiping the columns, kp.py:123-125, 160-162, 177-179. -/
def wipe (P : Prob K) (e : Env K) : Env K :=
  { e with vs := List.replicate P.n blank, ws := List.replicate P.n blank, rs := List.replicate P.n blank }

/-- `reset`, kp.py:174-180: counters and `obj_list` are kept. -/
def reset (P : Prob K) (e : Env K) : Env K := wipe P { e with done := false, ids := P.all }

/-- The environment after `__init__`, kp.py:54-76. -/
def init (P : Prob K) : Env K :=
  reset P { vs := [], ws := [], rs := [], ids := P.all, list := [], counter := 0, sub := 0, best := -1000000, episode := 0, done := false }

/-- Sum of a column up to the first empty row; without an empty row the code reads the undefined attribute `self.numlocs`.  `Compute_knap_value` (kp.py:182-193)
is this for the values, `_check_weight_cap` (kp.py:195-206) for the weights. -/
def total (vs col : List K) : Py K :=
  match vs.findIdx? (fun v => v = blank) with
  | some k => .ok ((col.take k).sum)
  | none => .error .attributeError

/-- Making the action valid, kp.py:92-96 and 129-133. -/
def valid (ids : List ℕ) (a r : ℕ) : Py ℕ :=
  if a < ids.length then .ok a else if ids.length = 0 then .error .valueError else .ok (r % ids.length)

/-- Putting one object in and taking it out again if the knapsack is too heavy, kp.py:90-112 and 128-149; the Boolean says whether it was taken out. -/
def put (P : Prob K) (e : Env K) (a r : ℕ) : Py (Env K × Bool) :=
  match valid e.ids a r with
  | .error err => .error err
  | .ok i =>
    let o := e.ids.getD i 0
    let e := { e with counter := e.counter + 1 }
    if e.vs.length < e.counter then .error .indexError
    else
      let e := { e with
        vs := e.vs.set (e.counter - 1) (P.val o), ws := e.ws.set (e.counter - 1) (P.wt o), rs := e.rs.set (e.counter - 1) (P.wt o / P.val o),
        ids := e.ids.eraseIdx (e.ids.idxOf o), list := e.list ++ [o] }
      match total e.vs e.ws with
      | .error err => .error err
      | .ok w =>
        if P.cap < w then
          .ok ({ e with vs := e.vs.set (e.counter - 1) blank, ws := e.ws.set (e.counter - 1) blank, rs := e.rs.set (e.counter - 1) blank }, true)
        else .ok (e, false)

/-- The loop over the actions with its `break`, kp.py:87-114 (the test `obj_list == []` can never hold after an append). -/
def fill (P : Prob K) : Env K → List (ℕ × ℕ) → Py (Env K)
  | e, [] => .ok e
  | e, (a, r) :: x => match put P (if e.counter = 0 then reset P e else e) a r with
    | .error err => .error err
    | .ok (e', true) => .ok e'
    | .ok (e', false) => fill P e' x

/-- What `step` returns. -/
structure Out (K : Type) where
  obs : List K × List K × List K
  reward : K
  done : Bool
  x : List ℕ

/-- `_get_stats()`, kp.py:208-218. -/
def record (e : Env K) : Py (K × Env K) :=
  match total e.vs e.vs with
  | .error err => .error err
  | .ok s => .ok (s, if s - e.best > 0 then { e with best := s } else e)

/-- Closing the knapsack, kp.py:117-125 and 154-162: count it, drop the last object from the list, wipe. -/
def next (P : Prob K) (L : ℕ) (e : Env K) : Py (List ℕ × Env K) :=
  if e.sub ≠ L + 1 then
    if e.list = [] then .error .indexError else .ok (e.list.dropLast, wipe P { e with ids := P.all, list := [] })
  else .error .unboundLocal

/-- End of an episode and the returned tuple, kp.py:168-172. -/
def finish (L : ℕ) (e : Env K) (reward : K) (x : List ℕ) : Env K × Out K :=
  let e := if e.sub = L then { e with done := true, episode := e.episode + 1, sub := 0 } else e
  (e, { obs := (e.vs, e.ws, e.rs), reward := reward, done := e.done, x := x })

/-- Reward, next knapsack and end of the call. -/
def close (P : Prob K) (L : ℕ) (e : Env K) : Py (Env K × Out K) :=
  match record e with
  | .error err => .error err
  | .ok (s, e) => match next P L { e with sub := e.sub + 1 } with
    | .error err => .error err
    | .ok (x, e) => .ok (finish L e s x)

/-- `step` for 'ppo', 'a2c', 'acktr', 'neat', kp.py:84-125 and 168-172. -/
def stepAll (P : Prob K) (L : ℕ) (e : Env K) (x : List (ℕ × ℕ)) : Py (Env K × Out K) :=
  match fill P { e with counter := 0 } x with
  | .error err => .error err
  | .ok e => close P L e

/-- `step` for 'acer' and 'dqn': one object per call, kp.py:127-172. -/
def stepOne (P : Prob K) (L : ℕ) (e : Env K) (a r : ℕ) : Py (Env K × Out K) :=
  match put P e a r with
  | .error err => .error err
  | .ok (e, true) => close P L { e with counter := 0 }
  | .ok (e, false) => .ok (finish L e 0 e.list)

/-! ### Lemmas -/

/-- Columns holding the objects `s` and then empty rows. -/
def Shape (P : Prob K) (s : List ℕ) (vs ws : List K) : Prop :=
  vs = s.map P.val ++ List.replicate (P.n - s.length) blank ∧ ws = s.map P.wt ++ List.replicate (P.n - s.length) blank ∧ s.length ≤ P.n

/-- No value marks an empty row. -/
def Prob.Clear (P : Prob K) : Prop := ∀ i, P.val i ≠ blank

theorem Shape.find {P : Prob K} (hP : P.Clear) {s : List ℕ} {vs ws : List K} (h : Shape P s vs ws) :
    vs.findIdx? (fun x => decide (x = blank)) = if s.length < P.n then some s.length else none := by
  obtain ⟨rfl, -, h3⟩ := h
  have h0 : (s.map P.val).findIdx? (fun x => decide (x = blank)) = none := by
    rw [List.findIdx?_eq_none_iff]
    intro x hx
    simp only [List.mem_map] at hx
    obtain ⟨p, hp, rfl⟩ := hx
    simpa using hP p
  rw [List.findIdx?_append, h0]
  split_ifs with hc
  · obtain ⟨m, hm⟩ : ∃ m, P.n - s.length = m + 1 := ⟨P.n - s.length - 1, by omega⟩
    rw [hm, List.replicate_succ]
    simp [List.findIdx?_cons]
  · rw [show P.n - s.length = 0 by omega]; simp

theorem Shape.total {P : Prob K} (hP : P.Clear) {s : List ℕ} {vs ws : List K} (h : Shape P s vs ws) :
    total vs ws = (if s.length < P.n then .ok ((s.map P.wt).sum) else .error .attributeError) ∧
    total vs vs = (if s.length < P.n then .ok ((s.map P.val).sum) else .error .attributeError) := by
  unfold KP.total
  rw [h.find hP]
  obtain ⟨h1, h2, h3⟩ := h
  split_ifs with hc
  · refine ⟨?_, ?_⟩
    · rw [h2]; simp
    · rw [h1]; simp
  · exact ⟨rfl, rfl⟩

theorem Shape.set {P : Prob K} {s : List ℕ} {vs ws : List K} (h : Shape P s vs ws) (hn : s.length < P.n) (o : ℕ) :
    Shape P (s ++ [o]) (vs.set s.length (P.val o)) (ws.set s.length (P.wt o)) := by
  obtain ⟨rfl, rfl, h3⟩ := h
  obtain ⟨m, hm⟩ : ∃ m, P.n - s.length = m + 1 := ⟨P.n - s.length - 1, by omega⟩
  have hm' : P.n - (s ++ [o]).length = m := by simp; omega
  refine ⟨?_, ?_, by simp; omega⟩
  · rw [hm, hm', List.set_append_right _ _ (by simp)]; simp [List.replicate_succ]
  · rw [hm, hm', List.set_append_right _ _ (by simp)]; simp [List.replicate_succ]

theorem Shape.unset {P : Prob K} {s : List ℕ} {o : ℕ} {vs ws : List K} (h : Shape P (s ++ [o]) vs ws) :
    Shape P s (vs.set s.length blank) (ws.set s.length blank) := by
  obtain ⟨rfl, rfl, h3⟩ := h
  simp only [List.length_append, List.length_cons, List.length_nil] at h3
  have hm : P.n - s.length = P.n - (s ++ [o]).length + 1 := by simp; omega
  refine ⟨?_, ?_, by omega⟩
  · rw [hm, List.replicate_succ]; simp
  · rw [hm, List.replicate_succ]; simp

/-- An open knapsack with the objects `s` in it. -/
structure Mid (P : Prob K) (e : Env K) (s : List ℕ) : Prop where
  shape : Shape P s e.vs e.ws
  ids : (s ++ e.ids).Perm P.all
  counter : e.counter = s.length
  cap : (s.map P.wt).sum ≤ P.cap
  room : s.length < P.n

theorem Mid.total {P : Prob K} {e : Env K} {s : List ℕ} (h : Mid P e s) : s.length + e.ids.length = P.n := by
  have := h.ids.length_eq; simpa [Prob.all] using this

theorem mid_reset {P : Prob K} (hc : 0 ≤ P.cap) (hn : 0 < P.n) (e : Env K) (h : e.counter = 0) : Mid P (reset P e) [] :=
  ⟨⟨by simp [reset, wipe], by simp [reset, wipe], by simp⟩, .refl _, by simpa [reset, wipe] using h, by simpa using hc, by simpa using hn⟩

/-- Fields not touched by filling. -/
def SameStats (e e' : Env K) : Prop := e'.sub = e.sub ∧ e'.best = e.best ∧ e'.episode = e.episode ∧ e'.done = e.done

theorem valid_spec {ids : List ℕ} {a r i : ℕ} (h : valid ids a r = .ok i) : i < ids.length ∧ (a < ids.length → i = a) := by
  unfold valid at h
  split_ifs at h with h1 h2
  · simp only [Except.ok.injEq] at h; subst h; exact ⟨h1, fun _ => rfl⟩
  · simp only [Except.ok.injEq] at h; subst h; exact ⟨Nat.mod_lt _ (by omega), fun h => absurd h h1⟩

/-- One object: kept and the knapsack stays within the capacity, or taken out because it does not fit. -/
theorem put_spec {P : Prob K} (hP : P.Clear) {e e' : Env K} {s : List ℕ} (hi : Mid P e s) {a r : ℕ} {b : Bool} (h : put P e a r = .ok (e', b)) :
    ∃ o, o ∈ e.ids ∧ (∀ j, a < e.ids.length → e.ids[a]? = some j → o = j) ∧ e'.list = e.list ++ [o] ∧ SameStats e e' ∧ s.length + 1 < P.n ∧
      (b = false → Mid P e' (s ++ [o])) ∧ (b = true → Shape P s e'.vs e'.ws ∧ P.cap < (s.map P.wt).sum + P.wt o) := by
  unfold put at h
  split at h
  · cases h
  rename_i i hv
  obtain ⟨hi1, hi2⟩ := valid_spec hv
  have htot := hi.total
  have hcity : e.ids.getD i 0 = e.ids[i] := List.getD_eq_getElem _ _ hi1
  have hmem : e.ids.getD i 0 ∈ e.ids := by rw [hcity]; exact List.getElem_mem _
  dsimp only at h
  split at h
  · cases h
  simp only [Nat.add_sub_cancel] at h
  rw [hi.counter] at h
  have hsh := hi.shape.set hi.room (e.ids.getD i 0)
  have htot2 := (hsh.total hP).1
  rw [htot2] at h
  split at h
  · cases h
  rename_i w hw
  split_ifs at hw with hlt
  simp only [Except.ok.injEq] at hw
  simp only [List.length_append, List.length_cons, List.length_nil] at hlt
  have hwe : w = (s.map P.wt).sum + P.wt (e.ids.getD i 0) := by rw [← hw]; simp
  have hch : ∀ j, a < e.ids.length → e.ids[a]? = some j → e.ids.getD i 0 = j := by
    intro j hj1 hj2
    have := hi2 hj1
    subst this
    rw [hcity]
    obtain ⟨_, h3⟩ := List.getElem?_eq_some_iff.1 hj2
    exact h3
  split at h
  · rename_i hc
    simp only [Except.ok.injEq, Prod.mk.injEq] at h
    obtain ⟨rfl, rfl⟩ := h
    refine ⟨e.ids.getD i 0, hmem, hch, rfl, ⟨rfl, rfl, rfl, rfl⟩, hlt, by simp, fun _ => ⟨?_, by rw [← hwe]; exact hc⟩⟩
    exact hsh.unset
  · rename_i hc
    simp only [Except.ok.injEq, Prod.mk.injEq] at h
    obtain ⟨rfl, rfl⟩ := h
    refine ⟨e.ids.getD i 0, hmem, hch, rfl, ⟨rfl, rfl, rfl, rfl⟩, hlt, fun _ => ⟨hsh, ?_, by simp, by rw [hw]; exact not_lt.1 hc, by simpa using hlt⟩, by simp⟩
    dsimp only
    refine List.Perm.trans ?_ hi.ids
    rw [List.append_assoc]
    refine List.Perm.append_left _ ?_
    have h2 := List.getElem_cons_eraseIdx_perm (l := e.ids) (n := e.ids.idxOf (e.ids.getD i 0)) (List.idxOf_lt_length_of_mem hmem)
    rw [List.getElem_idxOf] at h2
    simpa using h2

end Neorl.KP

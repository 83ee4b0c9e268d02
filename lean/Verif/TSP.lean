import Verif.Py
import Mathlib.Data.List.GetD
import Mathlib.Data.List.Rotate
import Mathlib.Algebra.BigOperators.Group.List.Basic

/-!
# The travelling-salesman environment

`neorl/benchmarks/tsp.py`, class `TSP`.
-/

set_option linter.unusedSectionVars false
set_option linter.unusedVariables false

namespace Neorl.TSP

variable {K : Type} [Field K] [LinearOrder K] [IsStrictOrderedRing K]

/-- What `__init__` computes from the list of cities, tsp.py:46-68: number of cities, coordinates, distance to the nearest other city and to the origin, by city
name 1..n (the code uses the decimal texts of these numbers).  `d` is `int(round(dist))`, the rounded Euclidean distance; its formula is not used. -/
structure Map (K : Type) where
  n : ℕ
  loc : ℕ → K × K
  near : ℕ → K
  orig : ℕ → K
  d : K × K → K × K → ℤ

/-- The value marking an empty row, `-10**6.0`. -/
def blank : K := -1000000

/-- The fields of the environment that `step` and `reset` change: the four columns of `state`, `city_id`, `city_list`, the two counters, `best_tour`,
`_iter_episode` and `done`. -/
structure Env (K : Type) where
  xs : List K
  ys : List K
  c2 : List K
  c3 : List K
  ids : List ℕ
  list : List ℕ
  counter : ℕ
  sub : ℕ
  best : ℤ
  episode : ℕ
  done : Bool

/-- All city names, `list(self.city_library.keys())`. -/
def Map.all (M : Map K) : List ℕ := List.range' 1 M.n

/-- Wiping the four columns, tsp.py:148-151, 206-209, 224-227. -/
def wipe (M : Map K) (e : Env K) : Env K :=
  { e with xs := List.replicate M.n blank, ys := List.replicate M.n blank, c2 := List.replicate M.n blank, c3 := List.replicate M.n blank }

/-- `reset`, tsp.py:221-228: `counter`, `subcounter` and `city_list` are kept. -/
def reset (M : Map K) (e : Env K) : Env K := wipe M { e with done := false, ids := M.all }

/-- The environment after `__init__`, tsp.py:53, 69-89. -/
def init (M : Map K) : Env K :=
  reset M { xs := [], ys := [], c2 := [], c3 := [], ids := M.all, list := [], counter := 0, sub := 0, best := -1000000, episode := 0, done := false }

/-- Row `i` of the first two columns. -/
def point (xs ys : List K) (i : ℕ) : K × K := (xs.getD i 0, ys.getD i 0)

/-- `Compute_tour_cost` without the final sign, tsp.py:230-249.  If the first row is empty, `limit_tour` is -1 and Python's index -1 is the last row. -/
def cost (M : Map K) (xs ys : List K) : ℤ :=
  let lim : ℕ := match xs.findIdx? (fun x => x = blank) with
    | some k => k - 1
    | none => M.n - 1
  let last : ℕ := if xs.findIdx? (fun x => x = blank) = some 0 then xs.length - 1 else lim
  ((List.range lim).map (fun i => M.d (point xs ys i) (point xs ys (i + 1)))).sum + M.d (point xs ys last) (point xs ys 0)

/-- `np.delete(np.insert(col, k, v), -1)`. -/
def ins {α : Type} (l : List α) (k : ℕ) (v : α) : List α := (l.insertIdx k v).dropLast

/-- The search for the best insertion position, tsp.py:115-128, as a fold over the positions; `stale` is the value `best_k` has from an earlier city. -/
def bestPos (score : ℕ → ℤ) (c : ℕ) (stale : Option ℕ) : Option ℕ :=
  ((List.range c).foldl (fun (b : Option ℕ × ℤ) k => if b.2 < score k then (some k, score k) else b) (stale, -1000000)).1

/-- Placing the chosen city, tsp.py:112-140 and 164-189.  Returns the environment and `best_k`. -/
def place (M : Map K) (e : Env K) (stale : Option ℕ) (city : ℕ) : Py (Env K × Option ℕ) :=
  let c := e.xs.countP (fun x => x ≠ blank)
  if e.c2.length < e.counter ∨ M.n < 2 then .error .indexError
  else if c ≠ 0 then
    let score := fun k => -cost M (ins e.xs k (M.loc city).1) (ins e.ys k (M.loc city).2)
    match bestPos score c stale with
    | none => .error .unboundLocal
    | some k => .ok ({ e with
        xs := ins e.xs k (M.loc city).1, ys := ins e.ys k (M.loc city).2,
        c2 := e.c2.set (e.counter - 1) (M.near city), c3 := e.c3.set (e.counter - 1) (M.orig city) }, some k)
  else .ok ({ e with
        xs := e.xs.set (e.counter - 1) (M.loc city).1, ys := e.ys.set (e.counter - 1) (M.loc city).2,
        c2 := e.c2.set (e.counter - 1) (M.near city), c3 := e.c3.set (e.counter - 1) (M.orig city) }, stale)

/-- Making the action valid, tsp.py:106-110 and 155-159; `r` is the random number behind `random.randint(0, len-1)`. -/
def valid (ids : List ℕ) (a r : ℕ) : Py ℕ :=
  if a < ids.length then .ok a else if ids.length = 0 then .error .valueError else .ok (r % ids.length)

/-- One city: choose, place, remove it from the open cities, append it to the list, tsp.py:104-144 and 154-192. -/
def visit (M : Map K) (e : Env K) (stale : Option ℕ) (a r : ℕ) : Py (Env K × Option ℕ) :=
  match valid e.ids a r with
  | .error err => .error err
  | .ok i =>
    let city := e.ids.getD i 0
    match place M { e with counter := e.counter + 1 } stale city with
    | .error err => .error err
    | .ok (e', b) => .ok ({ e' with ids := e'.ids.eraseIdx (e'.ids.idxOf city), list := e'.list ++ [city] }, b)

/-- The loop over the actions of a complete tour, tsp.py:102-144. -/
def visits (M : Map K) : Env K → Option ℕ → List (ℕ × ℕ) → Py (Env K)
  | e, _, [] => .ok e
  | e, b, (a, r) :: x => match visit M (if e.counter = 0 then reset M e else e) b a r with
    | .error err => .error err
    | .ok (e', b') => visits M e' b' x

/-- What `step` returns: the four columns, the reward, `done` and the tour in `info['x']`. -/
structure Out (K : Type) where
  obs : List K × List K × List K × List K
  reward : ℤ
  done : Bool
  x : List ℕ

/-- `_get_stats()` on a complete tour: score and new best, tsp.py:251-260 (plotting left out). -/
def record (M : Map K) (e : Env K) : ℤ × Env K :=
  let s := -cost M e.xs e.ys
  (s, if s - e.best > 0 then { e with best := s } else e)

/-- Starting the next tour, tsp.py:145-151 and 200-209; `none` when `individual` is not assigned. -/
def next (M : Map K) (L : ℕ) (e : Env K) : Option (List ℕ) × Env K :=
  if e.sub ≠ L + 1 then (some e.list, wipe M { e with ids := M.all, list := [] }) else (none, e)

/-- End of an episode and the returned tuple, tsp.py:213-217. -/
def finish (L : ℕ) (e : Env K) (reward : ℤ) (x : Option (List ℕ)) : Py (Env K × Out K) :=
  let e := if e.sub = L then { e with done := true, episode := e.episode + 1, sub := 0 } else e
  match x with
  | none => .error .unboundLocal
  | some x => .ok (e, { obs := (e.xs, e.ys, e.c2, e.c3), reward := reward, done := e.done, x := x })

/-- `step` for the methods that choose all cities at once ('ppo', 'a2c', 'acktr', 'neat'), tsp.py:100-151 and 213-217; every action comes with the random number
used if it is too large. -/
def stepAll (M : Map K) (L : ℕ) (e : Env K) (x : List (ℕ × ℕ)) : Py (Env K × Out K) :=
  match visits M { e with counter := 0 } none x with
  | .error err => .error err
  | .ok e =>
    let (s, e) := record M e
    let e := { e with sub := e.sub + 1 }
    let (ind, e) := next M L e
    finish L e s ind

/-- `step` for 'acer' and 'dqn': one city per call, tsp.py:153-217. -/
def stepOne (M : Map K) (L : ℕ) (e : Env K) (a r : ℕ) : Py (Env K × Out K) :=
  match visit M e none a r with
  | .error err => .error err
  | .ok (e, _) =>
    let partialReward := (-cost M e.xs e.ys) * -1000
    if e.xs.countP (fun x => x = blank) = 0 then
      let (s, e) := record M e
      let e := { e with sub := e.sub + 1, counter := 0 }
      let (ind, e) := next M L e
      finish L e s ind
    else finish L e partialReward (some e.list)

/-! ### Specification -/

/-- Length of a closed tour: from every stop to the next one and from the last back to the first. -/
def tourLen (d : K × K → K × K → ℤ) (t : List (K × K)) : ℤ := (List.zipWith d t (t.rotate 1)).sum

/-- `Greedy d t seq`: the tour `t` arises by inserting the stops of `seq` one after the other, each at a position where the closed tour is shortest. -/
inductive Greedy (d : K × K → K × K → ℤ) : List (K × K) → List (K × K) → Prop
  | one (a : K × K) : Greedy d [a] [a]
  | more {t seq : List (K × K)} (v : K × K) (k : ℕ) (hk : k ≤ t.length) (h : Greedy d t seq)
      (hmin : ∀ k' ≤ t.length, tourLen d (t.insertIdx k v) ≤ tourLen d (t.insertIdx k' v)) : Greedy d (t.insertIdx k v) (seq ++ [v])

/-! ### Lemmas -/

theorem tourLen_rotate (d : K × K → K × K → ℤ) (t : List (K × K)) (k : ℕ) : tourLen d (t.rotate k) = tourLen d t := by
  unfold tourLen
  rw [List.rotate_rotate, Nat.add_comm, ← List.rotate_rotate, ← List.zipWith_rotate_distrib _ _ _ _ (by simp)]
  exact (List.rotate_perm _ _).sum_eq

/-- Inserting at the end or at the front gives the same closed tour. -/
theorem tourLen_snoc (d : K × K → K × K → ℤ) (t : List (K × K)) (v : K × K) : tourLen d (t ++ [v]) = tourLen d (v :: t) := by
  have : t ++ [v] = (v :: t).rotate 1 := by simp
  rw [this, tourLen_rotate]

theorem tourLen_cons (d : K × K → K × K → ℤ) (a : K × K) (s : List (K × K)) : tourLen d (a :: s) =
    ((List.range s.length).map (fun i => d ((a :: s).getD i (0, 0)) ((a :: s).getD (i + 1) (0, 0)))).sum + d ((a :: s).getD s.length (0, 0)) a := by
  unfold tourLen
  have h1 : (a :: s).rotate 1 = s ++ [a] := by simp
  rw [h1]
  have h2 : List.zipWith d (a :: s) (s ++ [a]) = (List.range (s.length + 1)).map (fun i => d ((a :: s).getD i (0, 0)) ((s ++ [a]).getD i (0, 0))) := by
    apply List.ext_getElem
    · simp
    · intro i hi1 hi2
      have hi : i < s.length + 1 := by simpa using hi2
      rw [List.getElem_zipWith, List.getElem_map, List.getElem_range, List.getD_eq_getElem _ _ (by simpa using hi), List.getD_eq_getElem _ _ (by simpa using hi)]
  rw [h2, List.range_succ, List.map_append, List.sum_append]
  congr 1
  · congr 1
    apply List.map_congr_left
    intro i hi
    have hi' := List.mem_range.1 hi
    congr 1
    rw [List.getD_append _ _ _ _ hi']
    simp
  · simp

/-- The state `t ++ blanks` as a pair of columns. -/
def Shape (n : ℕ) (t : List (K × K)) (xs ys : List K) : Prop :=
  xs = t.map Prod.fst ++ List.replicate (n - t.length) blank ∧ ys = t.map Prod.snd ++ List.replicate (n - t.length) blank ∧ t.length ≤ n ∧ ∀ p ∈ t, p.1 ≠ blank

theorem Shape.point {n : ℕ} {t : List (K × K)} {xs ys : List K} (h : Shape n t xs ys) {i : ℕ} (hi : i < t.length) : point xs ys i = t.getD i (0, 0) := by
  obtain ⟨rfl, rfl, -, -⟩ := h
  unfold TSP.point
  rw [List.getD_append _ _ _ _ (by simpa using hi), List.getD_append _ _ _ _ (by simpa using hi)]
  simp [hi]

theorem Shape.find {n : ℕ} {t : List (K × K)} {xs ys : List K} (h : Shape n t xs ys) :
    xs.findIdx? (fun x => decide (x = blank)) = if t.length < n then some t.length else none := by
  obtain ⟨rfl, -, h3, h4⟩ := h
  have h0 : (t.map Prod.fst).findIdx? (fun x => decide (x = blank)) = none := by
    rw [List.findIdx?_eq_none_iff]
    intro x hx
    simp only [List.mem_map] at hx
    obtain ⟨p, hp, rfl⟩ := hx
    simpa using h4 p hp
  rw [List.findIdx?_append, h0]
  split_ifs with hc
  · obtain ⟨m, hm⟩ : ∃ m, n - t.length = m + 1 := ⟨n - t.length - 1, by omega⟩
    rw [hm, List.replicate_succ]
    simp [List.findIdx?_cons]
  · rw [show n - t.length = 0 by omega]; simp

/-- The computed cost is the length of the closed (partial) tour. -/
theorem Shape.cost {M : Map K} {t : List (K × K)} {xs ys : List K} (h : Shape M.n t xs ys) (h0 : t ≠ []) : cost M xs ys = tourLen M.d t := by
  cases t with
  | nil => exact absurd rfl h0
  | cons a s =>
    have hf := h.find
    have hlim : (match xs.findIdx? (fun x => decide (x = blank)) with | some k => k - 1 | none => M.n - 1) = s.length := by
      rw [hf]
      have := h.2.2.1
      simp only [List.length_cons] at this ⊢
      split_ifs with hc
      · simp
      · simp; omega
    have hlast : xs.findIdx? (fun x => decide (x = blank)) ≠ some 0 := by
      rw [hf]; split_ifs <;> simp
    unfold TSP.cost
    dsimp only
    rw [hlim, if_neg hlast, tourLen_cons]
    congr 1
    · congr 1
      apply List.map_congr_left
      intro i hi
      have hi' := List.mem_range.1 hi
      rw [h.point (by simp; omega), h.point (by simp; omega)]
    · rw [h.point (by simp), h.point (by simp)]; simp

theorem insertIdx_append {α : Type} (v : α) (B : List α) : ∀ (A : List α) (k : ℕ), k ≤ A.length → (A ++ B).insertIdx k v = A.insertIdx k v ++ B
  | A, 0, _ => by simp
  | [], k + 1, h => by simp at h
  | a :: A, k + 1, h => by
    simp only [List.cons_append, List.insertIdx_succ_cons]
    rw [insertIdx_append v B A k (by simpa using h)]

theorem ins_blank {α : Type} (A : List α) (b v : α) (m k : ℕ) (hk : k ≤ A.length) : ins (A ++ List.replicate (m + 1) b) k v = A.insertIdx k v ++ List.replicate m b := by
  unfold ins
  rw [insertIdx_append _ _ _ _ hk, List.dropLast_append_of_ne_nil (by simp)]
  congr 1
  simp [List.replicate_succ']

theorem Shape.ins {n : ℕ} {t : List (K × K)} {xs ys : List K} (h : Shape n t xs ys) (hn : t.length < n) {k : ℕ} (hk : k ≤ t.length) {v : K × K} (hv : v.1 ≠ blank) :
    Shape n (t.insertIdx k v) (ins xs k v.1) (ins ys k v.2) := by
  obtain ⟨rfl, rfl, h3, h4⟩ := h
  obtain ⟨m, hm⟩ : ∃ m, n - t.length = m + 1 := ⟨n - t.length - 1, by omega⟩
  have hl : (t.insertIdx k v).length = t.length + 1 := by rw [List.length_insertIdx_of_le_length hk]
  refine ⟨?_, ?_, by omega, ?_⟩
  · rw [hm, ins_blank _ _ _ _ _ (by simpa using hk), hl, show n - (t.length + 1) = m by omega, List.map_insertIdx]
  · rw [hm, ins_blank _ _ _ _ _ (by simpa using hk), hl, show n - (t.length + 1) = m by omega, List.map_insertIdx]
  · intro p hp
    rw [List.mem_insertIdx hk] at hp
    rcases hp with rfl | hp
    · exact hv
    · exact h4 p hp

theorem Shape.count {n : ℕ} {t : List (K × K)} {xs ys : List K} (h : Shape n t xs ys) :
    xs.countP (fun x => decide (x ≠ blank)) = t.length ∧ xs.countP (fun x => decide (x = blank)) = n - t.length := by
  obtain ⟨rfl, -, h3, h4⟩ := h
  constructor
  · rw [List.countP_append, List.countP_eq_length.2 (by
      intro x hx; simp only [List.mem_map] at hx; obtain ⟨p, hp, rfl⟩ := hx; simpa using h4 p hp), List.countP_eq_zero.2 (by
      intro x hx; rw [List.eq_of_mem_replicate hx]; simp)]
    simp
  · rw [List.countP_append, List.countP_eq_zero.2 (by
      intro x hx; simp only [List.mem_map] at hx; obtain ⟨p, hp, rfl⟩ := hx; simpa using h4 p hp), List.countP_eq_length.2 (by
      intro x hx; rw [List.eq_of_mem_replicate hx]; simp)]
    simp

theorem bestPos_aux (score : ℕ → ℤ) (stale : Option ℕ) : ∀ c, let b := (List.range c).foldl (fun (b : Option ℕ × ℤ) k => if b.2 < score k then (some k, score k) else b) (stale, -1000000)
    (b = (stale, -1000000) ∧ ∀ k < c, score k ≤ -1000000) ∨ (∃ k < c, b = (some k, score k) ∧ -1000000 < score k ∧ ∀ k' < c, score k' ≤ score k)
  | 0 => by simp
  | c + 1 => by
    have ih := bestPos_aux score stale c
    dsimp only at ih ⊢
    rw [List.range_succ, List.foldl_append]
    simp only [List.foldl_cons, List.foldl_nil]
    rcases ih with ⟨h1, h2⟩ | ⟨k, hk, h1, h2, h3⟩
    · rw [h1]
      dsimp only
      split_ifs with hc
      · right
        refine ⟨c, by omega, rfl, hc, ?_⟩
        intro k' hk'
        rcases Nat.lt_succ_iff_lt_or_eq.1 hk' with h | rfl
        · have := h2 k' h; omega
        · exact le_refl _
      · left
        refine ⟨rfl, ?_⟩
        intro k' hk'
        rcases Nat.lt_succ_iff_lt_or_eq.1 hk' with h | rfl
        · exact h2 k' h
        · omega
    · rw [h1]
      dsimp only
      split_ifs with hc
      · right
        refine ⟨c, by omega, rfl, by omega, ?_⟩
        intro k' hk'
        rcases Nat.lt_succ_iff_lt_or_eq.1 hk' with h | rfl
        · have := h3 k' h; omega
        · exact le_refl _
      · right
        refine ⟨k, by omega, rfl, h2, ?_⟩
        intro k' hk'
        rcases Nat.lt_succ_iff_lt_or_eq.1 hk' with h | rfl
        · exact h3 k' h
        · omega

theorem bestPos_spec {score : ℕ → ℤ} {c : ℕ} {stale : Option ℕ} :
    (bestPos score c stale = stale ∧ ∀ k < c, score k ≤ -1000000) ∨ (∃ k < c, bestPos score c stale = some k ∧ ∀ k' < c, score k' ≤ score k) := by
  rcases bestPos_aux score stale c with ⟨h1, h2⟩ | ⟨k, hk, h1, _, h3⟩
  · left; refine ⟨?_, h2⟩; unfold bestPos; rw [h1]
  · right; refine ⟨k, hk, ?_, h3⟩; unfold bestPos; rw [h1]

/-- The state in the middle of a tour: the columns hold the tour `t`, a rearrangement of the visited cities, and the open cities are the others. -/
structure Mid (M : Map K) (e : Env K) (t : List (K × K)) (seen : List ℕ) : Prop where
  shape : Shape M.n t e.xs e.ys
  perm : t.Perm (seen.map M.loc)
  ids : (seen ++ e.ids).Perm M.all
  cols : e.c2.length = M.n ∧ e.c3.length = M.n
  counter : e.counter = seen.length

theorem Mid.length {M : Map K} {e : Env K} {t : List (K × K)} {seen : List ℕ} (h : Mid M e t seen) : t.length = seen.length := by
  have := h.perm.length_eq; simpa using this

theorem Mid.total {M : Map K} {e : Env K} {t : List (K × K)} {seen : List ℕ} (h : Mid M e t seen) : seen.length + e.ids.length = M.n := by
  have := h.ids.length_eq; simpa [Map.all] using this

theorem mid_reset (M : Map K) (e : Env K) (h : e.counter = 0) : Mid M (reset M e) [] [] := by
  refine ⟨⟨by simp [reset, wipe], by simp [reset, wipe], by simp, by simp⟩, .refl _, .refl _, by simp [reset, wipe], by simpa [reset, wipe] using h⟩

/-- No city has the x-coordinate that marks an empty row. -/
def Map.Clear (M : Map K) : Prop := ∀ i, (M.loc i).1 ≠ blank

theorem place_fields {M : Map K} {e e' : Env K} {s b : Option ℕ} {city : ℕ} (h : place M e s city = .ok (e', b)) :
    e'.ids = e.ids ∧ e'.list = e.list ∧ e'.counter = e.counter ∧ e'.sub = e.sub ∧ e'.best = e.best ∧ e'.episode = e.episode ∧ e'.done = e.done ∧
    e'.c2.length = e.c2.length ∧ e'.c3.length = e.c3.length := by
  unfold place at h
  dsimp only at h
  split at h
  · cases h
  split at h
  · split at h
    · cases h
    · simp only [Except.ok.injEq, Prod.mk.injEq] at h
      obtain ⟨rfl, -⟩ := h
      simp
  · simp only [Except.ok.injEq, Prod.mk.injEq] at h
    obtain ⟨rfl, -⟩ := h
    simp

/-- Placing one city inserts it into the tour; if the search found a position it is a best one. -/
theorem place_spec {M : Map K} (hM : M.Clear) {e e' : Env K} {t : List (K × K)} {s b : Option ℕ} {city : ℕ} (hsh : Shape M.n t e.xs e.ys) (hlt : t.length < M.n)
    (hc : t = [] → e.counter = 1) (hs : ∀ k, s = some k → k ≤ t.length) (h : place M e s city = .ok (e', b)) :
    ∃ k ≤ t.length, Shape M.n (t.insertIdx k (M.loc city)) e'.xs e'.ys ∧ (∀ k, b = some k → k ≤ t.length) ∧
      ((∃ k' < t.length, tourLen M.d (t.insertIdx k' (M.loc city)) < 1000000) →
        ∀ k' ≤ t.length, tourLen M.d (t.insertIdx k (M.loc city)) ≤ tourLen M.d (t.insertIdx k' (M.loc city))) := by
  unfold place at h
  dsimp only at h
  have hcnt := hsh.count.1
  have hcost : ∀ k ≤ t.length, cost M (ins e.xs k (M.loc city).1) (ins e.ys k (M.loc city).2) = tourLen M.d (t.insertIdx k (M.loc city)) := by
    intro k hk
    refine (hsh.ins hlt hk (hM city)).cost ?_
    intro h0
    have := congrArg List.length h0
    rw [List.length_insertIdx_of_le_length hk] at this
    simp at this
  split at h
  · cases h
  split at h
  · rename_i h0
    rw [hcnt] at h h0
    split at h
    · cases h
    rename_i k hk
    simp only [Except.ok.injEq, Prod.mk.injEq] at h
    obtain ⟨rfl, rfl⟩ := h
    rcases bestPos_spec (score := fun k => -cost M (ins e.xs k (M.loc city).1) (ins e.ys k (M.loc city).2)) (c := t.length) (stale := s) with ⟨h1, h2⟩ | ⟨k0, hk0, h1, h2⟩
    · have hk' : s = some k := by rw [← h1]; exact hk
      have hle := hs k hk'
      refine ⟨k, hle, hsh.ins hlt hle (hM city), by rintro k1 ⟨⟩; exact hle, ?_⟩
      rintro ⟨k', hk', hlen⟩
      have := h2 k' hk'
      rw [hcost k' hk'.le] at this
      omega
    · have hkk : k = k0 := by have := h1.symm.trans hk; simpa using this.symm
      subst hkk
      refine ⟨k, hk0.le, hsh.ins hlt hk0.le (hM city), by rintro k1 ⟨⟩; exact hk0.le, ?_⟩
      rintro -
      have hin : ∀ k' < t.length, tourLen M.d (t.insertIdx k (M.loc city)) ≤ tourLen M.d (t.insertIdx k' (M.loc city)) := by
        intro k' hk'
        have := h2 k' hk'
        rw [hcost k hk0.le, hcost k' hk'.le] at this
        omega
      intro k' hk'
      rcases hk'.lt_or_eq with h | rfl
      · exact hin k' h
      · rw [List.insertIdx_length_self, tourLen_snoc]
        have := hin 0 (by omega)
        simpa using this
  · rename_i h0
    rw [hcnt] at h0
    have ht : t = [] := by simpa using h0
    subst ht
    simp only [Except.ok.injEq, Prod.mk.injEq] at h
    obtain ⟨rfl, rfl⟩ := h
    refine ⟨0, le_refl _, ?_, by intro k hk; exact hs k hk, ?_⟩
    · have h1 := hc rfl
      obtain ⟨hx, hy, -, -⟩ := hsh
      obtain ⟨m, hm⟩ : ∃ m, M.n = m + 1 := ⟨M.n - 1, by simp at hlt; omega⟩
      refine ⟨?_, ?_, by simp; omega, by simp; exact hM city⟩
      · dsimp only; rw [hx, h1, hm]; simp [List.replicate_succ]
      · dsimp only; rw [hy, h1, hm]; simp [List.replicate_succ]
    · rintro ⟨k', hk', _⟩; simp at hk'

/-- `valid` returns an open position; a valid action is kept. -/
theorem valid_spec {ids : List ℕ} {a r i : ℕ} (h : valid ids a r = .ok i) : i < ids.length ∧ (a < ids.length → i = a) := by
  unfold valid at h
  split_ifs at h with h1 h2
  · simp only [Except.ok.injEq] at h; subst h; exact ⟨h1, fun _ => rfl⟩
  · simp only [Except.ok.injEq] at h; subst h; exact ⟨Nat.mod_lt _ (by omega), fun h => absurd h h1⟩

theorem visit_spec {M : Map K} (hM : M.Clear) {e e' : Env K} {t : List (K × K)} {seen : List ℕ} {s b : Option ℕ} {a r : ℕ} (hi : Mid M e t seen)
    (hs : ∀ k, s = some k → k ≤ t.length) (h : visit M e s a r = .ok (e', b)) :
    ∃ city k, city ∈ e.ids ∧ (∀ j, a < e.ids.length → e.ids[a]? = some j → city = j) ∧ k ≤ t.length ∧ Mid M e' (t.insertIdx k (M.loc city)) (seen ++ [city]) ∧
      (∀ k, b = some k → k ≤ t.length) ∧ e'.list = e.list ++ [city] ∧ (e'.sub = e.sub ∧ e'.best = e.best ∧ e'.episode = e.episode ∧ e'.done = e.done) ∧
      ((∃ k' < t.length, tourLen M.d (t.insertIdx k' (M.loc city)) < 1000000) →
        ∀ k' ≤ t.length, tourLen M.d (t.insertIdx k (M.loc city)) ≤ tourLen M.d (t.insertIdx k' (M.loc city))) := by
  unfold visit at h
  split at h
  · cases h
  rename_i i hv
  obtain ⟨hi1, hi2⟩ := valid_spec hv
  dsimp only at h
  split at h
  · cases h
  rename_i e1 b1 hp
  simp only [Except.ok.injEq, Prod.mk.injEq] at h
  obtain ⟨rfl, rfl⟩ := h
  have hlen := hi.length
  have htot := hi.total
  obtain ⟨f1, f2, f3, f4, f5, f6, f7, f8, f9⟩ := place_fields hp
  dsimp only at f1 f2 f3 f4 f5 f6 f7 f8 f9
  have hcity : e.ids.getD i 0 = e.ids[i] := List.getD_eq_getElem _ _ hi1
  have hmem : e.ids.getD i 0 ∈ e.ids := by rw [hcity]; exact List.getElem_mem _
  obtain ⟨k, hk, hsh, hb, hbest⟩ := place_spec (e := { e with counter := e.counter + 1 }) hM hi.shape (by omega)
    (by intro h0; dsimp only; rw [hi.counter, ← hlen, h0]; rfl) hs hp
  refine ⟨e.ids.getD i 0, k, hmem, ?_, hk, ⟨hsh, ?_, ?_, ⟨f8.trans hi.cols.1, f9.trans hi.cols.2⟩, by dsimp only; rw [f3, hi.counter]; simp⟩, hb, by dsimp only; rw [f2], ⟨f4, f5, f6, f7⟩, hbest⟩
  · intro j hj1 hj2
    have := hi2 hj1
    subst this
    rw [hcity]
    obtain ⟨_, h3⟩ := List.getElem?_eq_some_iff.1 hj2
    exact h3
  · rw [List.map_append]
    refine (List.perm_insertIdx _ _ hk).trans ?_
    refine (List.Perm.cons _ hi.perm).trans ?_
    simpa using (List.perm_append_singleton _ _).symm
  · dsimp only
    rw [f1]
    refine List.Perm.trans ?_ hi.ids
    rw [List.append_assoc]
    refine List.Perm.append_left _ ?_
    have h2 := List.getElem_cons_eraseIdx_perm (l := e.ids) (n := e.ids.idxOf (e.ids.getD i 0)) (List.idxOf_lt_length_of_mem hmem)
    rw [List.getElem_idxOf] at h2
    simpa using h2

end Neorl.TSP

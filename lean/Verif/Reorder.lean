import Verif.Rescale
import Verif.JAYA

/-!
# Order of the variables, variables without influence

Lemmas behind C141: the optimizers on a search space of continuous variables and rounded integers when the variables are listed in another order, when variables on which the fitness
does not depend are left out, or when a variable is listed twice.  No new code is modelled here.
-/

set_option linter.unusedSectionVars false
set_option linter.unusedVariables false
set_option linter.unusedSimpArgs false

namespace Neorl.Reorder

open Neorl.Rescale (Cont disc_cont mapRows_pt)

section
variable {α β γ : Type}

/-- The entries `σ 0, σ 1, …, σ (m-1)` of a list; stops at the first that does not exist. -/
def sel : (ℕ → ℕ) → ℕ → List α → List α
  | _, 0, _ => []
  | σ, m + 1, v =>
    match v[σ 0]? with
    | none => []
    | some x => x :: sel (fun j => σ (j + 1)) m v

theorem sel_get (σ : ℕ → ℕ) (m : ℕ) (v : List α) (j : ℕ) :
    (sel σ m v)[j]? = if j < m ∧ ∀ i ≤ j, σ i < v.length then v[σ j]? else none := by
  induction m generalizing σ j with
  | zero => simp [sel]
  | succ m ih =>
    simp only [sel]
    cases h : v[σ 0]? with
    | none =>
      have h0 := List.getElem?_eq_none_iff.1 h
      rw [if_neg]
      · rfl
      · rintro ⟨_, h2⟩
        have := h2 0 (Nat.zero_le _)
        omega
    | some x =>
      obtain ⟨h0, _⟩ := List.getElem?_eq_some_iff.1 h
      cases j with
      | zero =>
        rw [if_pos ⟨by omega, fun i hi => (Nat.le_zero.1 hi) ▸ h0⟩, h]
        rfl
      | succ j =>
        rw [List.getElem?_cons_succ, ih]
        have : (j < m ∧ ∀ i ≤ j, σ (i + 1) < v.length) ↔ (j + 1 < m + 1 ∧ ∀ i ≤ j + 1, σ i < v.length) := by
          constructor
          · rintro ⟨h1, h2⟩
            refine ⟨by omega, fun i hi => ?_⟩
            cases i with
            | zero => exact h0
            | succ i => exact h2 i (by omega)
          · rintro ⟨h1, h2⟩
            exact ⟨by omega, fun i hi => h2 (i + 1) (by omega)⟩
        simp only [this]

theorem sel_nil (σ : ℕ → ℕ) (m : ℕ) : sel σ m ([] : List α) = [] := by cases m <;> simp [sel]

/-- On a list with enough entries: `m` entries, the `j`-th being entry `σ j`. -/
theorem sel_get_full {σ : ℕ → ℕ} {m : ℕ} {v : List α} (h : ∀ j < m, σ j < v.length) (j : ℕ) :
    (sel σ m v)[j]? = if j < m then v[σ j]? else none := by
  rw [sel_get]
  by_cases hj : j < m
  · rw [if_pos ⟨hj, fun i hi => h i (by omega)⟩, if_pos hj]
  · rw [if_neg (fun h => hj h.1), if_neg hj]

theorem sel_full {σ : ℕ → ℕ} {m : ℕ} {v : List α} (d : α) (h : ∀ j < m, σ j < v.length) :
    sel σ m v = (List.range m).map fun j => v.getD (σ j) d := by
  apply List.ext_getElem?
  intro j
  rw [sel_get_full h]
  by_cases hj : j < m
  · simp [hj, h j hj]
  · simp [hj]

theorem sel_length {σ : ℕ → ℕ} {m : ℕ} {v : List α} (h : ∀ j < m, σ j < v.length) : (sel σ m v).length = m := by
  cases v with
  | nil =>
    cases m with
    | zero => rfl
    | succ m => exact absurd (h 0 (by omega)) (by simp)
  | cons a v => rw [sel_full a h]; simp

theorem sel_mem {σ : ℕ → ℕ} {m : ℕ} {v : List α} {x : α} (h : x ∈ sel σ m v) : x ∈ v := by
  obtain ⟨j, hj⟩ := List.mem_iff_getElem?.1 h
  rw [sel_get] at hj
  split_ifs at hj
  exact List.mem_of_getElem? hj

theorem sel_getD {σ : ℕ → ℕ} {m : ℕ} {v : List α} (d : α) (h : ∀ j < m, σ j < v.length) {j : ℕ} (hj : j < m) :
    (sel σ m v).getD j d = v.getD (σ j) d := by
  rw [List.getD_eq_getElem?_getD, sel_get_full h, if_pos hj, List.getD_eq_getElem?_getD]

theorem sel_mapIdx {σ : ℕ → ℕ} {m : ℕ} {v : List α} {g h : ℕ → α → β} (e : ∀ j x, j < m → v[σ j]? = some x → g j x = h (σ j) x) :
    (sel σ m v).mapIdx g = sel σ m (v.mapIdx h) := by
  apply List.ext_getElem?
  intro j
  rw [List.getElem?_mapIdx, sel_get, sel_get, List.length_mapIdx, List.getElem?_mapIdx]
  split_ifs with hc
  · cases hv : v[σ j]? with
    | none => rfl
    | some x => simp [e j x hc.1 hv]
  · rfl

theorem sel_zipWith (σ : ℕ → ℕ) (m : ℕ) (v : List α) (w : List β) (g : α → β → γ) :
    List.zipWith g (sel σ m v) (sel σ m w) = sel σ m (List.zipWith g v w) := by
  apply List.ext_getElem?
  intro j
  rw [List.getElem?_zipWith, sel_get, sel_get, sel_get, List.getElem?_zipWith, List.length_zipWith]
  by_cases h1 : j < m ∧ ∀ i ≤ j, σ i < v.length
  · by_cases h2 : j < m ∧ ∀ i ≤ j, σ i < w.length
    · rw [if_pos h1, if_pos h2, if_pos ⟨h1.1, fun i hi => lt_min (h1.2 i hi) (h2.2 i hi)⟩]
    · have h3 : ¬ (j < m ∧ ∀ i ≤ j, σ i < min v.length w.length) := fun h => h2 ⟨h.1, fun i hi => (lt_min_iff.1 (h.2 i hi)).2⟩
      rw [if_neg h2, if_neg h3]
      cases (if j < m ∧ ∀ i ≤ j, σ i < v.length then v[σ j]? else none) <;> rfl
  · have h3 : ¬ (j < m ∧ ∀ i ≤ j, σ i < min v.length w.length) := fun h => h1 ⟨h.1, fun i hi => (lt_min_iff.1 (h.2 i hi)).1⟩
    rw [if_neg h1, if_neg h3]

theorem sel_replicate {σ : ℕ → ℕ} {m n : ℕ} (h : ∀ j < m, σ j < n) (x : α) : sel σ m (List.replicate n x) = List.replicate m x := by
  apply List.ext_getElem?
  intro j
  rw [sel_get_full (by simpa using h)]
  by_cases hj : j < m
  · simp [hj, h j hj]
  · simp [hj]

end

section
variable {K : Type} [Field K] [LinearOrder K] [IsStrictOrderedRing K] [FloorRing K]

/-- The search space with the variables listed as `σ 0, …, σ (m-1)`. -/
def space (σ : ℕ → ℕ) (m : ℕ) (S : Space K) : Space K := { S with bounds := sel σ m S.bounds, types := sel σ m S.types }

/-- Every listed variable exists. -/
def Within (σ : ℕ → ℕ) (m : ℕ) (S : Space K) : Prop := ∀ j < m, σ j < S.bounds.length

/-- All rows have one entry per variable. -/
def Full (S : Space K) (ps : List (List K)) : Prop := ∀ p ∈ ps, p.length = S.bounds.length

/-- Both fitness functions describe the same problem: on points with one entry per variable, `f' ` sees only the listed entries. -/
def Same (σ : ℕ → ℕ) (m : ℕ) (S : Space K) (f f' : List K → K) : Prop := ∀ x : List K, x.length = S.bounds.length → f' (sel σ m x) = f x

def p1 {Y : Type} (σ : ℕ → ℕ) (m : ℕ) (p : List K × Y) : List K × Y := (sel σ m p.1, p.2)

def p2 {Y : Type} (σ : ℕ → ℕ) (m : ℕ) (p : Y × List K) : Y × List K := (p.1, sel σ m p.2)

theorem Same.sgn {σ : ℕ → ℕ} {m : ℕ} {S : Space K} {f f' : List K → K} (h : Same σ m S f f') (b : Bool) :
    Same σ m S (fun x => Neorl.sgn b (f x)) (fun x => Neorl.sgn b (f' x)) := fun x hx => by simp only [h x hx]

theorem Within.at {σ : ℕ → ℕ} {m : ℕ} {S : Space K} (h : Within σ m S) {v : List K} (hv : v.length = S.bounds.length) : ∀ j < m, σ j < v.length :=
  fun j hj => by rw [hv]; exact h j hj

theorem bounds_length {σ : ℕ → ℕ} {m : ℕ} {S : Space K} (h : Within σ m S) : (space σ m S).bounds.length = m := sel_length h

theorem cont_space {σ : ℕ → ℕ} {m : ℕ} {S : Space K} (h : Cont S) : Cont (space σ m S) := fun t ht => h t (sel_mem ht)

theorem clip_sel (σ : ℕ → ℕ) (m : ℕ) {S : Space K} (hS : S.OK) (v : List K) : (space σ m S).clip (sel σ m v) = sel σ m (S.clip v) := by
  have hB := hS.ordered
  have hB' : BoundsOK (space σ m S).bounds := fun q hq => hB q (sel_mem hq)
  unfold Space.clip
  rw [ensureBounds_eq_zipWith hB, ensureBounds_eq_zipWith hB']
  exact sel_zipWith σ m S.bounds v _

theorem clip_full {S : Space K} (hS : S.OK) {v : List K} (h : v.length = S.bounds.length) : (S.clip v).length = S.bounds.length :=
  Space.length_clip hS h

/-- Continuous variables only, or integers made by rounding (`int_transform='nearest_int'`). -/
def Plain (S : Space K) : Prop := Cont S ∨ S.method = .nearestInt

theorem plain_space {σ : ℕ → ℕ} {m : ℕ} {S : Space K} (h : Plain S) : Plain (space σ m S) := h.imp cont_space id

/-- What the discrete repair then does to entry `j`. -/
def rnd (S : Space K) (j : ℕ) (x : K) : K :=
  match S.types[j]? with
  | some .int => ((clampInt (truncZ (S.bounds.getD j (0, 0)).1) (truncZ (S.bounds.getD j (0, 0)).2) (truncZ x) : ℤ) : K)
  | _ => x

theorem disc_plain {S : Space K} (h : Plain S) (al : K) (d : ℕ → K × ℕ) {v : List K} (hv : v.length = S.bounds.length) :
    S.disc al d v = .ok (v.mapIdx (rnd S)) := by
  have key : ∀ n ≤ S.bounds.length, ensureDiscrete S.expf S.types S.bounds al S.method d n v = .ok (v.mapIdx fun j x => if j < n then rnd S j x else x) := by
    intro n
    induction n with
    | zero => intro _; simp [ensureDiscrete, pure, Except.pure, List.mapIdx_eq_zipIdx_map]
    | succ n ih =>
      intro hn
      have hnv : n < v.length := by omega
      simp only [ensureDiscrete, ih (by omega), bind, Except.bind, discStep]
      have same : (∀ x : K, rnd S n x = x) → (v.mapIdx fun j x => if j < n then rnd S j x else x) = v.mapIdx fun j x => if j < n + 1 then rnd S j x else x := by
        intro hx
        apply List.ext_getElem?
        intro k
        rw [List.getElem?_mapIdx, List.getElem?_mapIdx]
        cases v[k]? with
        | none => rfl
        | some y =>
          by_cases h1 : k < n
          · simp [h1, Nat.lt_succ_of_lt h1]
          · by_cases h2 : k = n
            · subst h2; simp [hx]
            · have : ¬ k < n + 1 := by omega
              simp [h1, this]
      cases ht : S.types[n]? with
      | none => simp only [pure, Except.pure]; rw [same (fun x => by simp [rnd, ht])]
      | some t =>
        cases t with
        | float => simp only [pure, Except.pure]; rw [same (fun x => by simp [rnd, ht])]
        | int =>
          have hm : S.method = .nearestInt := by
            rcases h with h | h
            · exact absurd (h _ (List.mem_of_getElem? ht)) (by simp)
            · exact h
          generalize hu : (v.mapIdx fun j x => if j < n then rnd S j x else x) = u
          have hul : u.length = v.length := by rw [← hu]; simp
          have hux : u[n]? = some v[n] := by rw [← hu, List.getElem?_mapIdx, List.getElem?_eq_getElem hnv]; simp
          have hne : u ≠ [] := by
            intro h0
            rw [h0] at hul
            simp only [List.length_nil] at hul
            omega
          have hb : S.bounds[n]? = some (S.bounds.getD n (0, 0)) := by
            rw [List.getD_eq_getElem?_getD, List.getElem?_eq_getElem (by omega : n < S.bounds.length)]; rfl
          obtain ⟨mn, hmn⟩ : ∃ a, u.min? = some a := by
            cases h' : u.min? with
            | none => exact absurd (List.min?_eq_none_iff.1 h') hne
            | some a => exact ⟨a, rfl⟩
          obtain ⟨mx, hmx⟩ : ∃ a, u.max? = some a := by
            cases h' : u.max? with
            | none => exact absurd (List.max?_eq_none_iff.1 h') hne
            | some a => exact ⟨a, rfl⟩
          have e : ∀ b : K × K, S.bounds[n]? = some b → b = S.bounds.getD n (0, 0) := fun b h' => by rw [hb] at h'; exact (Option.some.inj h').symm
          simp only [hux, hmn, hmx]
          cases hb' : S.bounds[n]? with
          | none => rw [hb] at hb'; cases hb'
          | some b =>
            simp only [hm, mutateDiscrete, pure, Except.pure, bind, Except.bind]
            congr 1
            apply List.ext_getElem?
            intro k
            rw [List.getElem?_set, List.getElem?_mapIdx]
            by_cases h2 : n = k
            · subst h2
              rw [if_pos rfl, if_pos (by omega), List.getElem?_eq_getElem hnv]
              simp only [Option.map_some, Nat.lt_succ_self, if_true, rnd, ht]
              rw [e b hb']
            · rw [if_neg h2, ← hu, List.getElem?_mapIdx]
              cases v[k]? with
              | none => rfl
              | some y =>
                have : (k < n + 1) ↔ k < n := by omega
                simp [this]
  have := key _ le_rfl
  unfold Space.disc
  rw [this]
  congr 1
  apply List.ext_getElem?
  intro k
  rw [List.getElem?_mapIdx, List.getElem?_mapIdx]
  cases hk : v[k]? with
  | none => rfl
  | some y =>
    have : k < S.bounds.length := by rw [← hv]; exact (List.getElem?_eq_some_iff.1 hk).1
    simp [this]

theorem disc_sel {σ : ℕ → ℕ} {m : ℕ} {S : Space K} (hS : S.OK) (hc : Plain S) (hσ : Within σ m S) (al : K) (d d' : ℕ → K × ℕ) {v : List K}
    (hv : v.length = S.bounds.length) : (space σ m S).disc al d' (sel σ m v) = (S.disc al d v).map (sel σ m) := by
  have hv' : (sel σ m v).length = (space σ m S).bounds.length := by rw [bounds_length hσ, sel_length (hσ.at hv)]
  rw [disc_plain hc _ _ hv, disc_plain (plain_space hc) _ _ hv']
  simp only [Except.map]
  congr 1
  refine sel_mapIdx fun j x hj _ => ?_
  have ht : (space σ m S).types[j]? = S.types[σ j]? := by
    show (sel σ m S.types)[j]? = _
    rw [sel_get_full (by rw [hS.ntypes]; exact hσ), if_pos hj]
  have hb : (space σ m S).bounds.getD j (0, 0) = S.bounds.getD (σ j) (0, 0) := sel_getD _ hσ hj
  simp only [rnd, ht, hb]

theorem repair_sel {σ : ℕ → ℕ} {m : ℕ} {S : Space K} (hS : S.OK) (hc : Plain S) (hσ : Within σ m S) (al : K) (d d' : ℕ → K × ℕ) {v : List K}
    (hv : v.length = S.bounds.length) :
    (space σ m S).disc al d' ((space σ m S).clip (sel σ m v)) = (S.disc al d (S.clip v)).map (sel σ m) := by
  rw [clip_sel σ m hS]
  exact disc_sel hS hc hσ al d d' (clip_full hS hv)

/-- `fit_worker` clamps first. -/
theorem Same.clip {σ : ℕ → ℕ} {m : ℕ} {S : Space K} (hS : S.OK) {f f' : List K → K} (h : Same σ m S f f') :
    Same σ m S (fun x => f (S.clip x)) (fun x => f' ((space σ m S).clip x)) := fun x hx => by
  simp only [clip_sel σ m hS]
  exact h _ (clip_full hS hx)

theorem map_clip (σ : ℕ → ℕ) (m : ℕ) {S : Space K} (hS : S.OK) (l : List (List K)) :
    (l.map (sel σ m)).map (space σ m S).clip = (l.map S.clip).map (sel σ m) := by
  simp only [List.map_map]
  exact List.map_congr_left fun x _ => clip_sel σ m hS x

theorem map_fit {σ : ℕ → ℕ} {m : ℕ} {S : Space K} {f f' : List K → K} (h : Same σ m S f f') {l : List (List K)} (hl : Full S l) :
    (l.map (sel σ m)).map f' = l.map f := by
  simp only [List.map_map]
  exact List.map_congr_left fun x hx => h x (hl x hx)

theorem Full.set {S : Space K} {ps : List (List K)} (h : Full S ps) {i : ℕ} {x : List K} (hx : x.length = S.bounds.length) : Full S (ps.set i x) := by
  intro p hp
  rcases List.mem_or_eq_of_mem_set hp with hp | rfl
  · exact h p hp
  · exact hx

theorem Full.append {S : Space K} {ps qs : List (List K)} (h : Full S ps) (h' : Full S qs) : Full S (ps ++ qs) := by
  intro p hp
  rcases List.mem_append.1 hp with hp | hp
  · exact h p hp
  · exact h' p hp

theorem upd_sel (σ : ℕ → ℕ) (m : ℕ) (s : WithTop K × List K) (v : K) (x : List K) : upd (p2 σ m s) v (sel σ m x) = p2 σ m (upd s v x) := by
  by_cases h : (v : WithTop K) < s.1 <;> simp [upd, p2, h]

theorem updAll_sel {σ : ℕ → ℕ} {m : ℕ} {S : Space K} {f f' : List K → K} (hf : Same σ m S f f') {xs : List (List K)} (hx : Full S xs)
    (s : WithTop K × List K) : updAll f' (p2 σ m s) (xs.map (sel σ m)) = p2 σ m (updAll f s xs) := by
  induction xs generalizing s with
  | nil => rfl
  | cons x xs ih =>
    simp only [List.map_cons, updAll, hf x (hx x (by simp)), upd_sel, ih (fun y hy => hx y (by simp [hy]))]

/-- A step that agrees on every full row and keeps rows full. -/
theorem mapRows_sel {σ : ℕ → ℕ} {m : ℕ} {S : Space K} {f g : ℕ → List K → Py (List K)} {xs : List (List K)} (hx : Full S xs)
    (h : ∀ i x, x.length = S.bounds.length → g i (sel σ m x) = (f i x).map (sel σ m)) (i : ℕ) :
    mapRows g i (xs.map (sel σ m)) = (mapRows f i xs).map (List.map (sel σ m)) :=
  mapRows_pt (fun i x hxm => h i x (hx x hxm)) i

theorem mapRows_full {S : Space K} {f : ℕ → List K → Py (List K)} {xs ys : List (List K)} (hx : Full S xs)
    (h : ∀ i x y, x.length = S.bounds.length → f i x = .ok y → y.length = S.bounds.length) {i : ℕ} (e : mapRows f i xs = .ok ys) : Full S ys :=
  mapRows_forall e hx h

theorem disc_full' {S : Space K} (hc : Plain S) {al : K} {d : ℕ → K × ℕ} {v w : List K} (hv : v.length = S.bounds.length)
    (e : S.disc al d v = .ok w) : w.length = S.bounds.length := by
  rw [disc_plain hc al d hv] at e
  cases e
  simpa using hv

theorem disc_full {S : Space K} (hS : S.OK) (hc : Plain S) {al : K} {d : ℕ → K × ℕ} {v w : List K} (hv : v.length = S.bounds.length)
    (e : S.disc al d (S.clip v) = .ok w) : w.length = S.bounds.length := disc_full' hc (clip_full hS hv) e

end

/-! ### Differential evolution -/

section
variable {K : Type} [Field K] [LinearOrder K] [IsStrictOrderedRing K] [FloorRing K]

namespace DE
open Neorl.DE

def conf (σ : ℕ → ℕ) (m : ℕ) (c : Conf K) : Conf K := { c with S := space σ m c.S }

/-- The crossover draw of a variable is the one it had before. -/
def draw (σ : ℕ → ℕ) (d : Draw K) : Draw K := { d with cross := fun j => d.cross (σ j) }

def mapState (σ : ℕ → ℕ) (m : ℕ) (s : State K) : State K :=
  { s with pop := s.pop.map (sel σ m), sel := s.sel.map (p1 σ m), last := s.last.map (p1 σ m), log := s.log.map (sel σ m) }

/-- The answer in the new listing: points rewritten, fitness values as they were. -/
def mapResult (σ : ℕ → ℕ) (m : ℕ) (r : Result K) : Result K :=
  { r with x := sel σ m r.x, lastPop := r.lastPop.map (p1 σ m), log := r.log.map (sel σ m) }

theorem donor_sel (σ : ℕ → ℕ) (m : ℕ) (F : K) (x y z : List K) : donor F (sel σ m x) (sel σ m y) (sel σ m z) = sel σ m (donor F x y z) := by
  unfold donor
  rw [sel_zipWith, sel_zipWith]

theorem recombine_get (CR : K) (cr : ℕ → K) (d x : List K) (j : ℕ) :
    (recombine CR cr d x)[j]? = match d[j]?, x[j]? with
      | some a, some b => some (if cr j ≤ CR then a else b)
      | _, _ => none := by
  induction x generalizing d cr j with
  | nil => cases d <;> simp [recombine]
  | cons b x ih =>
    cases d with
    | nil => simp [recombine]
    | cons a d =>
      cases j with
      | zero => simp [recombine]
      | succ j => simp only [recombine, List.getElem?_cons_succ]; exact ih _ _ _

theorem recombine_sel {σ : ℕ → ℕ} {m n : ℕ} (hσ : ∀ j < m, σ j < n) (CR : K) (cr : ℕ → K) {d x : List K} (hd : d.length = n) (hx : x.length = n) :
    recombine CR (fun j => cr (σ j)) (sel σ m d) (sel σ m x) = sel σ m (recombine CR cr d x) := by
  have hl : (recombine CR cr d x).length = n := by rw [length_recombine CR cr (by rw [hd, hx]), hx]
  apply List.ext_getElem?
  intro j
  rw [sel_get_full (by rw [hl]; exact hσ), recombine_get, sel_get_full (by rw [hd]; exact hσ), sel_get_full (by rw [hx]; exact hσ)]
  by_cases hj : j < m
  · simp only [if_pos hj, recombine_get]
  · simp only [if_neg hj]

theorem getIdx_sel (σ : ℕ → ℕ) (m : ℕ) (l : List (List K)) (i : ℕ) : getIdx (l.map (sel σ m)) i = (getIdx l i).map (sel σ m) := by
  simp only [getIdx, List.getElem?_map]
  cases l[i]? <;> rfl

theorem target_sel {σ : ℕ → ℕ} {m : ℕ} {c : Conf K} (hS : c.S.OK) (hc : Plain c.S) (hσ : Within σ m c.S) (j : ℕ) (dr : Draw K) {pop : List (List K)}
    (hp : Full c.S pop) :
    target (conf σ m c) j (draw σ dr) (pop.map (sel σ m)) = (target c j dr pop).map fun r => (r.1.map (sel σ m), sel σ m r.2) := by
  unfold target
  have e1 : (draw σ dr).i1 = dr.i1 := rfl
  have e2 : (draw σ dr).i2 = dr.i2 := rfl
  have e3 : (draw σ dr).i3 = dr.i3 := rfl
  simp only [e1, e2, e3, getIdx_sel]
  cases h1 : getIdx pop dr.i1 with
  | error e => rfl
  | ok x1 =>
    cases h2 : getIdx pop dr.i2 with
    | error e => rfl
    | ok x2 =>
      cases h3 : getIdx pop dr.i3 with
      | error e => rfl
      | ok x3 =>
        cases h4 : getIdx pop j with
        | error e => rfl
        | ok xt =>
          have l1 := hp _ (List.mem_of_getElem? (getIdx_ok h1))
          have l2 := hp _ (List.mem_of_getElem? (getIdx_ok h2))
          have l3 := hp _ (List.mem_of_getElem? (getIdx_ok h3))
          have l4 := hp _ (List.mem_of_getElem? (getIdx_ok h4))
          have l5 := clip_full hS (length_donor c.F l1 l2 l3)
          have er := recombine_sel hσ c.CR dr.cross l5 l4
          have l6 : (recombine c.CR dr.cross (c.S.clip (donor c.F x1 x2 x3)) xt).length = c.S.bounds.length := by
            rw [length_recombine _ _ (by rw [l5, l4]), l4]
          have d1 := disc_sel hS hc hσ (1 - (j : K) * (1 / (c.ngen : K))) dr.discT dr.discT l4
          have d2 := disc_sel hS hc hσ (1 - (j : K) * (1 / (c.ngen : K))) dr.discV dr.discV l6
          simp only [Except.map, conf, draw, donor_sel, clip_sel σ m hS, er]
          simp only [Except.map] at d1 d2
          rw [d1, d2]
          cases c.S.disc (1 - (j : K) * (1 / (c.ngen : K))) dr.discT xt with
          | error e => rfl
          | ok u =>
            simp only
            cases c.S.disc (1 - (j : K) * (1 / (c.ngen : K))) dr.discV (recombine c.CR dr.cross (c.S.clip (donor c.F x1 x2 x3)) xt) with
            | error e => rfl
            | ok w => simp only [List.map_set]

theorem target_full {c : Conf K} (hS : c.S.OK) (hc : Plain c.S) {j : ℕ} {dr : Draw K} {pop p : List (List K)} {t : List K} (hp : Full c.S pop)
    (e : target c j dr pop = .ok (p, t)) : Full c.S p ∧ t.length = c.S.bounds.length := by
  obtain ⟨x1, x2, x3, xt, xt', h1, h2, h3, h4, h5, h6, rfl⟩ := target_ok e
  have l4 := hp _ (List.mem_of_getElem? h4)
  refine ⟨hp.set (disc_full' hc l4 h5), disc_full' hc ?_ h6⟩
  rw [length_recombine, l4]
  rw [l4]
  exact clip_full hS (length_donor c.F (hp _ (List.mem_of_getElem? h1)) (hp _ (List.mem_of_getElem? h2)) (hp _ (List.mem_of_getElem? h3)))

theorem sweep_full {c : Conf K} (hS : c.S.OK) (hc : Plain c.S) {dr : ℕ → Draw K} {pop : List (List K)} (hp : Full c.S pop) {n : ℕ}
    {p ts : List (List K)} (e : Neorl.DE.sweep c dr n pop = .ok (p, ts)) : Full c.S p ∧ Full c.S ts := by
  induction n generalizing p ts with
  | zero => cases e; exact ⟨hp, fun _ h => by simp at h⟩
  | succ n ih =>
    simp only [Neorl.DE.sweep] at e
    rcases hs : Neorl.DE.sweep c dr n pop with er | ⟨q, us⟩
    · rw [hs] at e; cases e
    · rw [hs] at e
      simp only at e
      rcases ht : target c n (dr n) q with er | ⟨q', t⟩
      · rw [ht] at e; cases e
      · rw [ht] at e
        cases e
        obtain ⟨hq, hu⟩ := ih hs
        obtain ⟨hq', ht'⟩ := target_full hS hc hq ht
        exact ⟨hq', hu.append fun x hx => by simp at hx; rw [hx]; exact ht'⟩

theorem sweep_sel {σ : ℕ → ℕ} {m : ℕ} {c : Conf K} (hS : c.S.OK) (hc : Plain c.S) (hσ : Within σ m c.S) (dr : ℕ → Draw K) {pop : List (List K)}
    (hp : Full c.S pop) (n : ℕ) :
    Neorl.DE.sweep (conf σ m c) (fun j => draw σ (dr j)) n (pop.map (sel σ m))
      = (Neorl.DE.sweep c dr n pop).map fun r => (r.1.map (sel σ m), r.2.map (sel σ m)) := by
  induction n with
  | zero => rfl
  | succ n ih =>
    simp only [Neorl.DE.sweep, ih]
    rcases hs : Neorl.DE.sweep c dr n pop with e | ⟨p, ts⟩
    · rfl
    · simp only [Except.map, target_sel hS hc hσ n (dr n) (sweep_full hS hc hp hs).1]
      rcases target c n (dr n) p with e | ⟨p', t⟩
      · rfl
      · simp [Except.map]

theorem select_sel {σ : ℕ → ℕ} {m : ℕ} {S : Space K} {f f' : List K → K} (hf : Same σ m S f f') {xs ts : List (List K)} (hx : Full S xs) (ht : Full S ts) :
    select f' (xs.map (sel σ m)) (ts.map (sel σ m)) = (select f xs ts).map (p1 σ m) := by
  induction xs generalizing ts with
  | nil => cases ts <;> rfl
  | cons x xs ih =>
    cases ts with
    | nil => rfl
    | cons t ts =>
      simp only [List.map_cons, select, ih (ts := ts) (fun y hy => hx y (by simp [hy])) (fun y hy => ht y (by simp [hy])), hf x (hx x (by simp)), hf t (ht t (by simp))]
      split_ifs <;> rfl

theorem select_full {S : Space K} {f : List K → K} {xs ts : List (List K)} (hx : Full S xs) (ht : Full S ts) :
    Full S ((select f xs ts).map Prod.fst) := by
  induction xs generalizing ts with
  | nil => cases ts <;> exact fun _ h => by simp [select] at h
  | cons x xs ih =>
    cases ts with
    | nil => exact fun _ h => by simp [select] at h
    | cons t ts =>
      intro p hp
      simp only [select, List.map_cons, List.mem_cons] at hp
      rcases hp with rfl | hp
      · split_ifs
        · exact ht t (by simp)
        · exact hx x (by simp)
      · exact ih (fun y hy => hx y (by simp [hy])) (fun y hy => ht y (by simp [hy])) p hp

theorem bestOf_sel (σ : ℕ → ℕ) (m : ℕ) (l : List (List K × K)) : bestOf (l.map (p1 σ m)) = (bestOf l).map (p1 σ m) := by
  induction l with
  | nil => rfl
  | cons p l ih =>
    simp only [List.map_cons, bestOf, ih]
    cases bestOf l with
    | none => rfl
    | some q =>
      by_cases h : p.2 ≥ q.2
      · have h' : (p1 σ m p).2 ≥ (p1 σ m q).2 := h
        simp only [Option.map_some, if_pos h, if_pos h']
      · have h' : ¬ (p1 σ m p).2 ≥ (p1 σ m q).2 := h
        simp only [Option.map_some, if_neg h, if_neg h']

theorem mix_sel (σ : ℕ → ℕ) (m : ℕ) (rl : List (ℕ × List K)) (pop : List (List K)) :
    mix (rl.map (p2 σ m)) (pop.map (sel σ m)) = (mix rl pop).map (sel σ m) := by
  induction rl generalizing pop with
  | nil => rfl
  | cons r rl ih =>
    obtain ⟨i, x⟩ := r
    simp only [List.map_cons, p2, mix, ← List.map_set]
    exact ih _

theorem mix_full {S : Space K} {rl : List (ℕ × List K)} {pop : List (List K)} (hr : ∀ r ∈ rl, r.2.length = S.bounds.length) (hp : Full S pop) :
    Full S (mix rl pop) := by
  induction rl generalizing pop with
  | nil => exact hp
  | cons r rl ih => exact ih (fun q hq => hr q (by simp [hq])) (hp.set (hr r (by simp)))

theorem gen_sel {σ : ℕ → ℕ} {m : ℕ} {c : Conf K} (hS : c.S.OK) (hc : Plain c.S) (hσ : Within σ m c.S) {f f' : List K → K} (hf : Same σ m c.S f f')
    (dr : ℕ → Draw K) {rl : List (ℕ × List K)} (hr : ∀ r ∈ rl, r.2.length = c.S.bounds.length) {s : State K} (hp : Full c.S s.pop) :
    gen (conf σ m c) f' (fun j => draw σ (dr j)) (rl.map (p2 σ m)) (mapState σ m s) = (gen c f dr rl s).map (mapState σ m) ∧
      ∀ s', gen c f dr rl s = .ok s' → Full c.S s'.pop := by
  unfold gen
  have hn : (conf σ m c).npop = c.npop := rfl
  simp only [mapState, hn, sweep_sel hS hc hσ dr hp]
  rcases hs : Neorl.DE.sweep c dr c.npop s.pop with e | ⟨xs, ts⟩
  · exact ⟨rfl, fun s' h => by cases h⟩
  · simp only [Except.map]
    obtain ⟨hx, ht⟩ := sweep_full hS hc hp hs
    have e0 : (conf σ m c).S = space σ m c.S := rfl
    rw [e0, select_sel (hf.clip hS) hx ht, bestOf_sel]
    cases hb : bestOf (select (fun x => f (c.S.clip x)) xs ts) with
    | none => exact ⟨rfl, fun s' h => by cases h⟩
    | some q =>
      have e : (List.map (p1 σ m) (select (fun x => f (c.S.clip x)) xs ts)).map Prod.fst
          = ((select (fun x => f (c.S.clip x)) xs ts).map Prod.fst).map (sel σ m) := by
        rw [List.map_map, List.map_map]; rfl
      refine ⟨?_, fun s' h => ?_⟩
      · simp only [Option.map_some, map_clip σ m hS, List.map_append, e, mix_sel, mapState]
        rfl
      · cases h
        exact mix_full hr (select_full hx ht)

theorem run_sel {σ : ℕ → ℕ} {m : ℕ} {c : Conf K} (hS : c.S.OK) (hc : Plain c.S) (hσ : Within σ m c.S) {f f' : List K → K} (hf : Same σ m c.S f f')
    (dr : ℕ → ℕ → Draw K) {rl : ℕ → List (ℕ × List K)} (hr : ∀ g, ∀ r ∈ rl g, r.2.length = c.S.bounds.length) {pop0 : List (List K)}
    (hp : Full c.S pop0) (g : ℕ) :
    run (conf σ m c) f' (fun g j => draw σ (dr g j)) (fun g => (rl g).map (p2 σ m)) (pop0.map (sel σ m)) g = (run c f dr rl pop0 g).map (mapState σ m) ∧
      ∀ s', run c f dr rl pop0 g = .ok s' → Full c.S s'.pop := by
  induction g with
  | zero => exact ⟨rfl, fun s' h => by cases h; exact hp⟩
  | succ g ih =>
    simp only [run, ih.1]
    cases h : run c f dr rl pop0 g with
    | error e => exact ⟨rfl, fun s' h => by cases h⟩
    | ok s => exact gen_sel hS hc hσ hf (dr g) (hr g) (ih.2 s h)

theorem zip_p1 {Y : Type} (σ : ℕ → ℕ) (m : ℕ) (l : List (List K)) (ys : List Y) : List.zip (l.map (sel σ m)) ys = (List.zip l ys).map (p1 σ m) := by
  rw [List.zip_map_left]
  rfl

theorem evolute_sel {σ : ℕ → ℕ} {m : ℕ} {c : Conf K} (hS : c.S.OK) (hc : Plain c.S) (hσ : Within σ m c.S) (b : Bool) {f f' : List K → K}
    (hf : Same σ m c.S f f') (dr : ℕ → ℕ → Draw K) {rl : ℕ → List (ℕ × List K)} (hr : ∀ g, ∀ r ∈ rl g, r.2.length = c.S.bounds.length)
    {pop0 : List (List K)} (hp : Full c.S pop0) :
    evolute (conf σ m c) b f' (fun g j => draw σ (dr g j)) (fun g => (rl g).map (p2 σ m)) (pop0.map (sel σ m))
      = (evolute c b f dr rl pop0).map (mapResult σ m) := by
  unfold evolute
  have h1 : Same σ m c.S (if b then (fun x => -f x) else f) (if b then (fun x => -f' x) else f') := by
    cases b
    · exact hf
    · intro x hx; simp [hf x hx]
  have hn : (conf σ m c).ngen = c.ngen := rfl
  simp only [hn, (run_sel hS hc hσ h1 dr hr hp _).1]
  cases run c (if b then (fun x => -f x) else f) dr rl pop0 c.ngen with
  | error e => rfl
  | ok s =>
    simp only [Except.map, mapState]
    cases hl : s.last with
    | none => rfl
    | some q =>
      obtain ⟨x, y⟩ := q
      cases b <;> simp [p1, mapResult, zip_p1, Function.comp_def]

end DE

/-! ### JAYA -/

namespace JAYA
open Neorl.JAYA

def conf (σ : ℕ → ℕ) (m : ℕ) (c : Conf K) : Conf K := { c with S := space σ m c.S }

def draw (σ : ℕ → ℕ) (d : Draw K) : Draw K := { d with r1 := fun j => d.r1 (σ j), r2 := fun j => d.r2 (σ j) }

def mapState (σ : ℕ → ℕ) (m : ℕ) (s : State K) : State K :=
  { s with pos := s.pos.map (sel σ m), last := s.last.map (p1 σ m), log := s.log.map (sel σ m) }

/-- The answer in the new listing. -/
def mapResult (σ : ℕ → ℕ) (m : ℕ) (r : Result K) : Result K :=
  { r with x := sel σ m r.x, lastPop := r.lastPop.map (p1 σ m), log := r.log.map (sel σ m) }

theorem greedy_sel (σ : ℕ → ℕ) (m : ℕ) (ps : List (List K)) (fs : List K) (qs : List (List K)) (gs : List K) :
    greedy (ps.map (sel σ m)) fs (qs.map (sel σ m)) gs = ((greedy ps fs qs gs).1.map (sel σ m), (greedy ps fs qs gs).2) := by
  induction ps generalizing fs qs gs with
  | nil => cases fs <;> cases qs <;> cases gs <;> rfl
  | cons p ps ih =>
    cases fs with
    | nil => cases qs <;> cases gs <;> rfl
    | cons f fs =>
      cases qs with
      | nil => cases gs <;> rfl
      | cons q qs =>
        cases gs with
        | nil => rfl
        | cons g gs =>
          simp only [List.map_cons, greedy, ih]
          split_ifs <;> rfl

theorem greedy_full {S : Space K} {ps : List (List K)} (fs : List K) {qs : List (List K)} (gs : List K) (hp : Full S ps) (hq : Full S qs) :
    Full S (greedy ps fs qs gs).1 := by
  induction ps generalizing fs qs gs with
  | nil => cases fs <;> cases qs <;> cases gs <;> exact fun _ h => by simp [greedy] at h
  | cons p ps ih =>
    cases fs with
    | nil => cases qs <;> cases gs <;> exact hp
    | cons f fs =>
      cases qs with
      | nil => cases gs <;> exact hp
      | cons q qs =>
        cases gs with
        | nil => exact hp
        | cons g gs =>
          have := ih fs (qs := qs) gs (fun y hy => hp y (by simp [hy])) (fun y hy => hq y (by simp [hy]))
          intro x hx
          simp only [greedy] at hx
          split_ifs at hx
          · rcases List.mem_cons.1 hx with rfl | hx
            · exact hq _ (by simp)
            · exact this x hx
          · rcases List.mem_cons.1 hx with rfl | hx
            · exact hp _ (by simp)
            · exact this x hx

theorem trial_sel {σ : ℕ → ℕ} {m : ℕ} {S : Space K} (hσ : Within σ m S) {b w : List K} (hb : b.length = S.bounds.length) (hw : w.length = S.bounds.length)
    (d : Draw K) (row : List K) : trial (sel σ m b) (sel σ m w) (draw σ d) (sel σ m row) = sel σ m (trial b w d row) := by
  unfold trial
  refine sel_mapIdx fun j x hj _ => ?_
  rw [sel_getD 0 (hσ.at hb) hj, sel_getD 0 (hσ.at hw) hj]
  rfl

theorem gen_sel {σ : ℕ → ℕ} {m : ℕ} {c : Conf K} (hS : c.S.OK) (hc : Plain c.S) (hσ : Within σ m c.S) {f f' : List K → K} (hf : Same σ m c.S f f')
    (g : ℕ) (dr : ℕ → Draw K) {s : State K} (hp : Full c.S s.pos) :
    gen (conf σ m c) f' g (fun i => draw σ (dr i)) (mapState σ m s) = (gen c f g dr s).map (mapState σ m) ∧
      ∀ s', gen c f g dr s = .ok s' → Full c.S s'.pos := by
  unfold gen
  have e1 : (mapState σ m s).pos = s.pos.map (sel σ m) := rfl
  have e2 : (mapState σ m s).best = s.best := rfl
  have e3 : (mapState σ m s).worst = s.worst := rfl
  have e4 : (mapState σ m s).fits = s.fits := rfl
  simp only [e1, e2, e3, e4, List.getElem?_map]
  cases hb : s.pos[s.best.2]? with
  | none => exact ⟨rfl, fun s' h => by cases h⟩
  | some b =>
    cases hw : s.pos[s.worst.2]? with
    | none => exact ⟨rfl, fun s' h => by cases h⟩
    | some w =>
      have lb := hp _ (List.mem_of_getElem? hb)
      have lw := hp _ (List.mem_of_getElem? hw)
      have hm := mapRows_sel (σ := σ) (m := m) (f := fun i row => repair c g (dr i) (trial b w (dr i) row))
        (g := fun i row => repair (conf σ m c) g (draw σ (dr i)) (trial (sel σ m b) (sel σ m w) (draw σ (dr i)) row)) hp (fun i x hx => by
          simp only [trial_sel hσ lb lw, repair]
          exact repair_sel hS hc hσ _ _ _ (by simp [trial, hx])) 0
      simp only [Option.map_some, hm]
      cases hr : mapRows (fun i row => repair c g (dr i) (trial b w (dr i) row)) 0 s.pos with
      | error e => exact ⟨rfl, fun s' h => by cases h⟩
      | ok new =>
        have hnew : Full c.S new := mapRows_full hp (fun i x y hx e => disc_full hS hc (by simp [trial, hx]) e) hr
        simp only [Except.map, map_fit hf hnew, greedy_sel]
        cases listMax (new.map f) with
        | error e => exact ⟨rfl, fun s' h => by cases h⟩
        | ok mx =>
          refine ⟨?_, fun s' h => by cases h; exact greedy_full _ _ hp hnew⟩
          have e5 : (new.map (sel σ m)).map (fun x => (x, f' x)) = (new.map fun x => (x, f x)).map (p1 σ m) := by
            simp only [List.map_map]
            exact List.map_congr_left fun x hx => by simp [p1, hf x (hnew x hx)]
          simp only [mapState, e5, List.map_append]

theorem run_sel {σ : ℕ → ℕ} {m : ℕ} {c : Conf K} (hS : c.S.OK) (hc : Plain c.S) (hσ : Within σ m c.S) {f f' : List K → K} (hf : Same σ m c.S f f')
    (dr : ℕ → ℕ → Draw K) {pos0 : List (List K)} (hp : Full c.S pos0) (g : ℕ) :
    run (conf σ m c) f' (fun g i => draw σ (dr g i)) (pos0.map (sel σ m)) g = (run c f dr pos0 g).map (mapState σ m) ∧
      ∀ s', run c f dr pos0 g = .ok s' → Full c.S s'.pos := by
  induction g with
  | zero =>
    simp only [run, init, map_fit hf hp]
    cases pos0.map f with
    | nil => exact ⟨rfl, fun s' h => by cases h⟩
    | cons v vs => exact ⟨rfl, fun s' h => by cases h; exact hp⟩
  | succ g ih =>
    simp only [run, ih.1]
    cases h : run c f dr pos0 g with
    | error e => exact ⟨rfl, fun s' h => by cases h⟩
    | ok s => exact gen_sel hS hc hσ hf g (dr g) (ih.2 s h)

theorem evolute_sel {σ : ℕ → ℕ} {m : ℕ} {c : Conf K} (hS : c.S.OK) (hc : Plain c.S) (hσ : Within σ m c.S) (b : Bool) {f f' : List K → K}
    (hf : Same σ m c.S f f') (dr : ℕ → ℕ → Draw K) {pos0 : List (List K)} (hp : Full c.S pos0) :
    evolute (conf σ m c) b f' (fun g i => draw σ (dr g i)) (pos0.map (sel σ m)) = (evolute c b f dr pos0).map (mapResult σ m) := by
  unfold evolute
  have e1 : (conf σ m c).npop = c.npop := rfl
  have e2 : (conf σ m c).ngen = c.ngen := rfl
  rw [List.length_map, e1, e2]
  by_cases h1 : pos0.length ≠ c.npop
  · simp only [if_pos h1]; rfl
  simp only [if_neg h1, (run_sel hS hc hσ (hf.sgn (!b)) dr hp _).1]
  cases run c (fun x => sgn (!b) (f x)) dr pos0 c.ngen with
  | error e => rfl
  | ok s =>
    simp only [Except.map]
    by_cases h2 : c.ngen = 0
    · simp only [if_pos h2]
    simp only [if_neg h2, mapState, List.getElem?_map]
    cases s.pos[s.best.2]? with
    | none => rfl
    | some x => simp [mapResult, p1, Function.comp_def]

end JAYA

end

end Neorl.Reorder

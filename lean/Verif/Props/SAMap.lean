import Verif.SAMap

/-!
# C138 and C141 for simulated annealing
-/

set_option linter.unusedSectionVars false
set_option linter.unusedVariables false

namespace Neorl.SA

open Neorl.Rescale (pt Cont)
open Neorl.Reorder (sel Within Same Full)

variable {K : Type} [Field K] [LinearOrder K] [IsStrictOrderedRing K] [FloorRing K]

theorem sampler_pt {a : K} (b : K) (p : K × K) (d : K × ℕ) : sampler .float (a * p.1 + b, a * p.2 + b) d = a * sampler .float p d + b := by
  simp only [sampler]
  ring

theorem resample_pt {a : K} (ha : 0 < a) (b : K) (p : K × K) (x : K) : ∀ ds : List (K × ℕ), resample .float (a * p.1 + b, a * p.2 + b) (a * x + b) ds = (resample .float p x ds).map fun y => a * y + b
  | [] => rfl
  | d :: ds => by
    unfold resample
    have e1 : (a * x + b = a * sampler .float p d + b) ↔ x = sampler .float p d := ⟨fun h => mul_left_cancel₀ ha.ne' (add_right_cancel h), fun h => by rw [← h]⟩
    have e2 : (a * p.1 + b ≠ a * p.2 + b) ↔ p.1 ≠ p.2 := not_congr ⟨fun h => mul_left_cancel₀ ha.ne' (add_right_cancel h), fun h => by rw [h]⟩
    rw [sampler_pt, resample_pt ha b p x ds]
    simp only [e1, e2]
    split_ifs <;> rfl

/-- C138: the built-in move of simulated annealing (each variable drawn anew with probability `chi`) does not depend on the units of continuous variables. -/
theorem C138_move {chi : K} {u : ℕ → K} {ds : ℕ → List (K × ℕ)} : ∀ {a b : ℕ → K} (ha : ∀ j, 0 < a j) (i : ℕ) (ts : List VType) (hts : ∀ t ∈ ts, t = VType.float) (bs : List (K × K)) (x : List K),
    defMove chi u ds i ts (bs.mapIdx fun j p => (a j * p.1 + b j, a j * p.2 + b j)) (pt a b x) = (defMove chi u ds i ts bs x).map (pt a b)
  | a, b, ha, i, [], _, bs, x => by simp [defMove, pt, Units.tr]
  | a, b, ha, i, t :: ts, _, [], x => by simp [defMove, pt, Units.tr]
  | a, b, ha, i, t :: ts, _, p :: bs, [] => by simp [defMove, pt, Units.tr]
  | a, b, ha, i, t :: ts, hts, p :: bs, x :: xs => by
    have ht : t = .float := hts t (by simp)
    subst ht
    have ih := C138_move (chi := chi) (u := u) (ds := ds) (a := fun j => a (j + 1)) (b := fun j => b (j + 1)) (fun j => ha _) (i + 1) ts (fun t ht => hts t (by simp [ht])) bs xs
    have e1 : pt a b (x :: xs) = (a 0 * x + b 0) :: pt (fun j => a (j + 1)) (fun j => b (j + 1)) xs := by
      simp only [pt, Units.tr, List.mapIdx_cons]
      rfl
    rw [e1, List.mapIdx_cons]
    simp only [defMove, ih, resample_pt (ha 0)]
    have e2 : (if u i < chi then (resample .float p x (ds i)).map (fun y => a 0 * y + b 0) else some (a 0 * x + b 0)) = (if u i < chi then resample .float p x (ds i) else some x).map fun y => a 0 * y + b 0 := by
      split_ifs <;> rfl
    rw [e2]
    cases (if u i < chi then resample .float p x (ds i) else some x) with
    | none => rfl
    | some y =>
      cases defMove chi u ds (i + 1) ts bs xs with
      | none => rfl
      | some ys =>
        simp only [Option.map_some, pt, Units.tr, List.mapIdx_cons]
        rfl

/-- C138: simulated annealing does not depend on the units of continuous variables, scale and zero, provided the moves do not: with the same other draws the run in the new units has the rewritten
evaluated points and answer and the same fitness values, statistics and steps. -/
theorem C138_annealing {a b : ℕ → K} (ha : ∀ j, 0 < a j) (m : Bool) {f f' : List K → K} (hf : ∀ x, f' (pt a b x) = f x) {c : Conf K} (hS : c.S.OK) (dr : ℕ → GDraw K)
    {mv' : ℕ → ℕ → ℕ → List K → List K} (hm : ∀ n j k x, mv' n j k (pt a b x) = pt a b (((dr n).core j).mv k x)) (x0 : List (List K)) :
    evolute { c with S := Rescale.space a b c.S } m f' (fun n => { dr n with core := fun j => { (dr n).core j with mv := mv' n j } }) (x0.map (pt a b))
      = (evolute c m f dr x0).map fun r => { r with x := pt a b r.x, log := r.log.map (pt a b) } :=
  evolute_map (P := fun _ => True) ⟨fun x _ => Rescale.clip_pt ha hS x, fun _ _ => trivial, fun x _ => hf x⟩ m dr (fun n j k x _ => ⟨trivial, hm n j k x⟩) fun _ _ => trivial

/-- C138: in particular with the built-in move; it is given the same draws in both units, and the draws suffice. -/
theorem C138_annealing_default {a b : ℕ → K} (ha : ∀ j, 0 < a j) (m : Bool) {f f' : List K → K} (hf : ∀ x, f' (pt a b x) = f x) {c : Conf K} (hS : c.S.OK) (hc : Cont c.S) (dr : ℕ → GDraw K)
    {mv' : ℕ → ℕ → ℕ → List K → List K} {chi : K} (u : ℕ → ℕ → ℕ → ℕ → K) (ds : ℕ → ℕ → ℕ → ℕ → List (K × ℕ))
    (hd : ∀ n j k x, x.length = c.S.bounds.length → defMove chi (u n j k) (ds n j k) 0 c.S.types c.S.bounds x = some (((dr n).core j).mv k x))
    (hd' : ∀ n j k x, x.length = c.S.bounds.length → defMove chi (u n j k) (ds n j k) 0 c.S.types (Rescale.space a b c.S).bounds x = some (mv' n j k x))
    (x0 : List (List K)) (h0 : ∀ x ∈ x0, x.length = c.S.bounds.length) :
    evolute { c with S := Rescale.space a b c.S } m f' (fun n => { dr n with core := fun j => { (dr n).core j with mv := mv' n j } }) (x0.map (pt a b))
      = (evolute c m f dr x0).map fun r => { r with x := pt a b r.x, log := r.log.map (pt a b) } := by
  have len : ∀ (u : ℕ → K) (ds : ℕ → List (K × ℕ)) (i : ℕ) (ts : List VType) (bs : List (K × K)) (x y : List K), ts.length = bs.length → x.length = bs.length →
      defMove chi u ds i ts bs x = some y → y.length = bs.length := by
    intro u ds i ts
    induction ts generalizing i with
    | nil =>
      intro bs x y h1 h2 h
      cases bs with
      | nil => simp [defMove] at h; simp [← h]
      | cons p bs => simp at h1
    | cons t ts ih =>
      intro bs x y h1 h2 h
      cases bs with
      | nil => simp at h1
      | cons p bs =>
        cases x with
        | nil => simp at h2
        | cons x xs =>
          simp only [defMove] at h
          split at h
          · rename_i z zs e1 e2
            cases h
            simp [ih (i + 1) bs xs zs (by simpa using h1) (by simpa using h2) e2]
          · cases h
  refine evolute_map (P := fun x => x.length = c.S.bounds.length) ⟨fun x _ => Rescale.clip_pt ha hS x, fun x hx => Rescale.length_clip' hS hx, fun x _ => hf x⟩ m dr (fun n j k x hx => ?_) h0
  refine ⟨len _ _ _ _ _ _ _ hS.ntypes hx (hd n j k x hx), ?_⟩
  have e := C138_move (chi := chi) (u := u n j k) (ds := ds n j k) (b := b) ha 0 c.S.types hc c.S.bounds x
  rw [hd n j k x hx] at e
  have e' := hd' n j k (pt a b x) (by simpa using hx)
  have : some (mv' n j k (pt a b x)) = some (pt a b (((dr n).core j).mv k x)) := e'.symm.trans e
  exact Option.some.inj this

/-- One entry of the built-in move. -/
theorem defMove_get {chi : K} {u : ℕ → K} {ds : ℕ → List (K × ℕ)} : ∀ (i : ℕ) (ts : List VType) (bs : List (K × K)) (x y : List K), ts.length = bs.length → x.length = bs.length →
    (defMove chi u ds i ts bs x = some y ↔ y.length = bs.length ∧ ∀ k t p v, ts[k]? = some t → bs[k]? = some p → x[k]? = some v →
      y[k]? = if u (i + k) < chi then resample t p v (ds (i + k)) else some v)
  | i, [], [], [], y, _, _ => by
    simp only [defMove, Option.some.injEq, List.length_nil, List.length_eq_zero_iff]
    exact ⟨fun h => ⟨h.symm, fun k t p v h => by simp at h⟩, fun h => h.1.symm⟩
  | i, t :: ts, p :: bs, v :: xs, y, h1, h2 => by
    have ih := fun ys => (defMove_get (chi := chi) (u := u) (ds := ds) (i + 1) ts bs xs ys (by simpa using h1) (by simpa using h2))
    simp only [defMove]
    constructor
    · intro h
      split at h
      · rename_i z zs e1 e2
        cases h
        obtain ⟨q1, q2⟩ := (ih zs).1 e2
        refine ⟨by simp [q1], fun k t' p' v' ht hp hv => ?_⟩
        cases k with
        | zero =>
          simp only [List.getElem?_cons_zero, Option.some.injEq] at ht hp hv ⊢
          subst ht hp hv
          rw [Nat.add_zero, e1]
        | succ k =>
          simp only [List.getElem?_cons_succ] at ht hp hv ⊢
          have := q2 k t' p' v' ht hp hv
          rw [this, show i + 1 + k = i + (k + 1) by omega]
      · cases h
    · rintro ⟨l, h⟩
      cases y with
      | nil => simp at l
      | cons z zs =>
        have e1 := h 0 t p v rfl rfl rfl
        simp only [List.getElem?_cons_zero, Nat.add_zero] at e1
        have e2 : defMove chi u ds (i + 1) ts bs xs = some zs := by
          refine (ih zs).2 ⟨by simpa using l, fun k t' p' v' ht hp hv => ?_⟩
          have := h (k + 1) t' p' v' (by simpa using ht) (by simpa using hp) (by simpa using hv)
          rw [List.getElem?_cons_succ] at this
          rw [this, show i + 1 + k = i + (k + 1) by omega]
        rw [← e1, e2]

/-- C141: the built-in move works on every variable alone, integers included: in the new listing, every variable keeping its draws, it gives the same point. -/
theorem C141_move {chi : K} {u : ℕ → K} {ds : ℕ → List (K × ℕ)} {σ : ℕ → ℕ} {m : ℕ} {ts : List VType} {bs : List (K × K)} {x y : List K} (h1 : ts.length = bs.length) (h2 : x.length = bs.length)
    (hσ : ∀ j < m, σ j < bs.length) (h : defMove chi u ds 0 ts bs x = some y) :
    defMove chi (fun j => u (σ j)) (fun j => ds (σ j)) 0 (sel σ m ts) (sel σ m bs) (sel σ m x) = some (sel σ m y) := by
  obtain ⟨q1, q2⟩ := (defMove_get 0 ts bs x y h1 h2).1 h
  have s1 : ∀ j < m, σ j < ts.length := fun j hj => by rw [h1]; exact hσ j hj
  have s2 : ∀ j < m, σ j < x.length := fun j hj => by rw [h2]; exact hσ j hj
  have s3 : ∀ j < m, σ j < y.length := fun j hj => by rw [q1]; exact hσ j hj
  refine (defMove_get 0 _ _ _ _ (by rw [Reorder.sel_length s1, Reorder.sel_length hσ]) (by rw [Reorder.sel_length s2, Reorder.sel_length hσ])).2
    ⟨by rw [Reorder.sel_length s3, Reorder.sel_length hσ], fun k t p v ht hp hv => ?_⟩
  have hk : k < m := by
    have := (List.getElem?_eq_some_iff.1 hp).1
    rwa [Reorder.sel_length hσ] at this
  rw [Reorder.sel_get_full s1, if_pos hk] at ht
  rw [Reorder.sel_get_full hσ, if_pos hk] at hp
  rw [Reorder.sel_get_full s2, if_pos hk] at hv
  rw [Reorder.sel_get_full s3, if_pos hk, q2 (σ k) t p v ht hp hv]
  simp

/-- C141: simulated annealing with the built-in move does not depend on how the variables are listed, integer variables included: with every variable keeping its draws, the run on the new listing
evaluates the same points, rewritten, in the same order and gives the same answer, fitness values and statistics. -/
theorem C141_annealing {σ : ℕ → ℕ} {m : ℕ} (b : Bool) {c : Conf K} {f f' : List K → K} (hS : c.S.OK) (hσ : Within σ m c.S) (hf : Same σ m c.S f f') (dr : ℕ → GDraw K)
    {mv' : ℕ → ℕ → ℕ → List K → List K} {chi : K} (u : ℕ → ℕ → ℕ → ℕ → K) (ds : ℕ → ℕ → ℕ → ℕ → List (K × ℕ))
    (hd : ∀ n j k x, x.length = c.S.bounds.length → defMove chi (u n j k) (ds n j k) 0 c.S.types c.S.bounds x = some (((dr n).core j).mv k x))
    (hd' : ∀ n j k x, x.length = m → defMove chi (fun i => u n j k (σ i)) (fun i => ds n j k (σ i)) 0 (sel σ m c.S.types) (sel σ m c.S.bounds) x = some (mv' n j k x))
    (x0 : List (List K)) (h0 : Full c.S x0) :
    evolute { c with S := Reorder.space σ m c.S } b f' (fun n => { dr n with core := fun j => { (dr n).core j with mv := mv' n j } }) (x0.map (sel σ m))
      = (evolute c b f dr x0).map fun r => { r with x := sel σ m r.x, log := r.log.map (sel σ m) } := by
  refine evolute_map (P := fun x => x.length = c.S.bounds.length) ⟨fun x _ => Reorder.clip_sel σ m hS x, fun x hx => Reorder.clip_full hS hx, fun x hx => hf x hx⟩ b dr (fun n j k x hx => ?_) h0
  have e := hd n j k x hx
  refine ⟨((defMove_get 0 _ _ _ _ hS.ntypes hx).1 e).1, ?_⟩
  have e1 := C141_move hS.ntypes hx hσ e
  have e2 := hd' n j k (sel σ m x) (Reorder.sel_length fun j hj => by rw [hx]; exact hσ j hj)
  exact Option.some.inj (e2.symm.trans e1)

/-! ### Concrete cases -/

def exBox : Space ℚ := { bounds := [(0, 10), (-3, 3)], types := [.float, .int], method := .nearestInt, expf := fun _ => 1 }

/-- The built-in move in metres and in kilometres from elsewhere. -/
example : defMove (1 / 2) (fun _ => (0 : ℚ)) (fun _ => [(1 / 4, 0)]) 0 [.float] [(0, 10)] [7] = some [5 / 2] ∧
    defMove (1 / 2) (fun _ => (0 : ℚ)) (fun _ => [(1 / 4, 0)]) 0 [.float] [(100, 1100)] [800] = some [350] := by decide +kernel

/-- The built-in move, and the variables listed the other way round. -/
example : defMove (1 / 2) (fun i => if i = 0 then (0 : ℚ) else 1 / 4) (fun i => if i = 0 then [(1 / 4, 0)] else [(0, 5)]) 0 exBox.types exBox.bounds [7, 1] = some [5 / 2, 2] ∧
    defMove (1 / 2) (fun i => if i = 0 then (1 / 4 : ℚ) else 0) (fun i => if i = 0 then [(0, 5)] else [(1 / 4, 0)]) 0 [.int, .float] [(-3, 3), (0, 10)] [1, 7] = some [2, 5 / 2] := by decide +kernel

/-- A run of one chain with two steps that meets the hypotheses of `C138_annealing`: the move adds half of the upper bound. -/
def exChain : Conf ℚ := { S := { exBox with bounds := [(0, 10)], types := [.float] }, ncores := 1, npop := 2, ngen := 1, reinforce := .no, accP := fun _ _ => 0, stop := fun _ => false }

def exDraws (w : ℚ) : ℕ → GDraw ℚ := fun _ => { core := fun _ => { mv := fun _ x => x.map (· + w), u := fun _ => 1 / 2 }, temp := fun _ _ => 1, rho := fun _ => 1, wt := fun _ => 1, nan := fun _ => false }

example : (evolute exChain true (fun v => (v.getD 0 0 - 6) ^ 2) (exDraws 5) [[3]]).toOption.map (fun r => (r.x, r.y, r.log)) = some ([8], 4, [[3], [8], [10]]) ∧
    (evolute { exChain with S := Rescale.space (fun _ => 10) (fun _ => 100) exChain.S } true (fun v => ((v.getD 0 0 - 100) / 10 - 6) ^ 2) (exDraws 50) [[130]]).toOption.map (fun r => (r.x, r.y, r.log)) =
      some ([180], 4, [[130], [180], [200]]) := by decide +kernel

example : (fun v : List ℚ => v.map (· + 50)) (pt (fun _ => 10) (fun _ => 100) [3]) = pt (fun _ => 10) (fun _ => 100) ([3].map (· + 5)) := by decide +kernel

end Neorl.SA

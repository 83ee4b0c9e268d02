import Verif.NSGA
import Verif.Compare

/-!
# Units of the objectives

Lemmas behind C136: the non-dominated sorts, the crowding distance and the runs of NSGA-II under a change of every objective by a function of its own.
No new code is modelled here.
-/

set_option linter.unusedSectionVars false
set_option linter.unusedVariables false
set_option linter.unusedSimpArgs false

namespace Neorl.Units

open Neorl.ND

/-- Objective `i` of a fitness vector is changed by `φ i`. -/
def tr {K : Type} (φ : ℕ → K → K) (v : List K) : List K := v.mapIdx φ

section
variable {K : Type}

@[simp] theorem tr_length (φ : ℕ → K → K) (v : List K) : (tr φ v).length = v.length := by simp [tr]

@[simp] theorem tr_nil (φ : ℕ → K → K) : tr φ ([] : List K) = [] := rfl

theorem tr_cons (φ : ℕ → K → K) (a : K) (v : List K) : tr φ (a :: v) = φ 0 a :: tr (fun i => φ (i + 1)) v := by simp [tr, List.mapIdx_cons]

theorem tr_get (φ : ℕ → K → K) (v : List K) (i : ℕ) : (tr φ v)[i]? = (v[i]?).map (φ i) := by simp [tr]

theorem tr_getD [Zero K] (φ : ℕ → K → K) {v : List K} {i : ℕ} (h : i < v.length) : (tr φ v).getD i 0 = φ i (v.getD i 0) := by
  rw [List.getD_eq_getElem?_getD, List.getD_eq_getElem?_getD, tr_get, List.getElem?_eq_getElem h]
  rfl
end

section
variable {K : Type} [LinearOrder K]

theorem tr_inj {φ : ℕ → K → K} (h : ∀ i, StrictMono (φ i)) : Function.Injective (tr φ) := by
  intro a b e
  apply List.ext_getElem?
  intro i
  have := congrArg (fun l : List K => l[i]?) e
  simp only [tr_get] at this
  exact Option.map_injective (h i).injective this

theorem tr_lt {φ : ℕ → K → K} (h : ∀ i, StrictMono (φ i)) : ∀ (a b : List K), tr φ a < tr φ b ↔ a < b
  | [], [] => Iff.rfl
  | [], b :: bs => by simp [tr_cons]
  | a :: as, [] => by simp [tr_cons]
  | a :: as, b :: bs => by
    rw [tr_cons, tr_cons, List.cons_lt_cons_iff, List.cons_lt_cons_iff, (h 0).lt_iff_lt, (h 0).injective.eq_iff,
      tr_lt (φ := fun i => φ (i + 1)) (fun i => h (i + 1)) as bs]

theorem tr_le {φ : ℕ → K → K} (h : ∀ i, StrictMono (φ i)) (a b : List K) : tr φ a ≤ tr φ b ↔ a ≤ b := by
  rw [← not_lt, ← not_lt, tr_lt h]

theorem isDominatedGo_tr : ∀ {φ : ℕ → K → K} (h : ∀ i, StrictMono (φ i)) (ne : Bool) (a b : List K), isDominatedGo ne (tr φ a) (tr φ b) = isDominatedGo ne a b
  | φ, h, ne, [], b => by cases b <;> rfl
  | φ, h, ne, a :: as, [] => by rw [tr_cons]; rfl
  | φ, h, ne, a :: as, b :: bs => by
    rw [tr_cons, tr_cons]
    simp only [isDominatedGo, gt_iff_lt, (h 0).lt_iff_lt, isDominatedGo_tr (φ := fun i => φ (i + 1)) (fun i => h (i + 1)) _ as bs]

theorem isDominated_tr {φ : ℕ → K → K} (h : ∀ i, StrictMono (φ i)) (a b : List K) : isDominated (tr φ a) (tr φ b) = isDominated a b :=
  isDominatedGo_tr h false a b

theorem val_tr (φ : ℕ → K → K) (vals : List (List K)) (i : ℕ) : val (vals.map (tr φ)) i = tr φ (val vals i) := by
  unfold val
  rw [List.getD_eq_getElem?_getD, List.getD_eq_getElem?_getD, List.getElem?_map]
  cases vals[i]? <;> rfl

theorem pairStep_tr {φ : ℕ → K → K} (h : ∀ i, StrictMono (φ i)) (vals : List (List K)) (i : ℕ) : pairStep (vals.map (tr φ)) i = pairStep vals i := by
  funext s j
  unfold pairStep
  rw [val_tr, val_tr, isDominated_tr h, isDominated_tr h]

theorem rows_tr {φ : ℕ → K → K} (h : ∀ i, StrictMono (φ i)) (vals : List (List K)) (m : ℕ) : rows (vals.map (tr φ)) m = rows vals m := by
  induction m with
  | zero => rfl
  | succ m ih => simp only [rows, ih, pairStep_tr h, List.length_map]

theorem sortNondominated_tr {φ : ℕ → K → K} (h : ∀ i, StrictMono (φ i)) (vals : List (List K)) (k : ℕ) :
    sortNondominated (vals.map (tr φ)) k = sortNondominated vals k := by
  unfold sortNondominated
  rw [List.length_map, rows_tr h]

theorem dominates_tr {φ : ℕ → K → K} (h : ∀ i, StrictMono (φ i)) (a b : List K) : Dominates (tr φ a) (tr φ b) ↔ Dominates a b := by
  rw [← isDominated_iff, ← isDominated_iff, isDominated_tr h]

theorem dom_tr {φ : ℕ → K → K} (h : ∀ i, StrictMono (φ i)) (vals : List (List K)) (i j : ℕ) : Dom (vals.map (tr φ)) i j ↔ Dom vals i j := by
  unfold Dom
  rw [List.length_map, val_tr, val_tr, dominates_tr h]

theorem hasChain_tr {φ : ℕ → K → K} (h : ∀ i, StrictMono (φ i)) (vals : List (List K)) (r : ℕ) : ∀ i, HasChain (vals.map (tr φ)) r i ↔ HasChain vals r i := by
  induction r with
  | zero => intro i; simp [HasChain]
  | succ r ih => intro i; simp only [HasChain, dom_tr h, ih]
end

section
variable {K : Type} [Field K] [LinearOrder K] [IsStrictOrderedRing K]

theorem fitnesses_tr {φ : ℕ → K → K} (h : ∀ i, StrictMono (φ i)) (vals : List (List K)) : fitnesses (vals.map (tr φ)) = (fitnesses vals).map (tr φ) := by
  unfold fitnesses sortDesc
  rw [List.dedup_map_of_injective (tr_inj h)]
  exact (List.map_insertionSort _ _ (tr φ) vals.dedup (fun a _ b _ => (tr_le h b a).symm)).symm

theorem group_tr {φ : ℕ → K → K} (h : ∀ i, StrictMono (φ i)) (vals : List (List K)) (f : List K) : group (vals.map (tr φ)) (tr φ f) = group vals f := by
  unfold group
  rw [List.length_map]
  apply List.filter_congr
  intro i _
  rw [val_tr]
  exact decide_eq_decide.2 (tr_inj h).eq_iff

theorem sortLog_tr {φ : ℕ → K → K} (h : ∀ i, StrictMono (φ i)) {vals : List (List K)} {m : ℕ} (hm : 2 ≤ m) (hv : ∀ v ∈ vals, v.length = m) (k : ℕ) :
    sortLog (vals.map (tr φ)) k = sortLog vals k := by
  by_cases hk : k = 0
  · simp [sortLog, hk]
  by_cases hne : vals = []
  · subst hne; rfl
  obtain ⟨m, rfl⟩ : ∃ m', m = m' + 1 := ⟨m - 1, by omega⟩
  have hpos : 0 < vals.length := List.length_pos_iff.2 hne
  have hv' : ∀ v ∈ vals.map (tr φ), v.length = m + 1 := by
    intro v hv1
    obtain ⟨w, hw, rfl⟩ := List.mem_map.1 hv1
    rw [tr_length]; exact hv w hw
  have hobj : (val vals 0).length - 1 = m := by rw [hv _ (val_mem hpos)]; rfl
  obtain ⟨f1, e1, l1⟩ := helperA_spec (m + (fitnesses vals).length) (fitnesses vals) m (fun _ => 0) (by omega) (by omega) (fitnesses_desc hv)
    (fitnesses_apart hv) (le_refl _)
  obtain ⟨f2, e2, l2⟩ := helperA_spec (m + (fitnesses (vals.map (tr φ))).length) (fitnesses (vals.map (tr φ))) m (fun _ => 0) (by omega) (by omega)
    (fitnesses_desc hv') (fitnesses_apart hv') (le_refl _)
  have hf : ∀ v ∈ vals, f2 (tr φ v) = f1 v := by
    intro v hv1
    obtain ⟨i, hi, rfl⟩ := exists_index hv1
    have a1 := fun r => levA_rank (r := r) hv l1 hi
    have a2 := fun r => levA_rank (r := r) hv' l2 (i := i) (by simpa using hi)
    rw [val_tr] at a2
    have b1 := (a2 (f1 (val vals i))).1 ((hasChain_tr h vals _ i).2 ((a1 _).2 (le_refl _)))
    have b2 := (a1 (f2 (tr φ (val vals i)))).1 ((hasChain_tr h vals _ i).1 ((a2 _).2 (le_refl _)))
    omega
  have hmax : maxFront f2 (fitnesses (vals.map (tr φ))) = maxFront f1 (fitnesses vals) := by
    unfold maxFront
    rw [fitnesses_tr h, List.map_map]
    congr 1
    apply List.map_congr_left
    intro v hv1
    exact hf v ((mem_fitnesses _ _).1 hv1)
  have hfr : frontAt (vals.map (tr φ)) f2 = frontAt vals f1 := by
    funext r
    unfold frontAt
    rw [fitnesses_tr h, List.filter_map, List.flatMap_map]
    have : (fitnesses vals).filter ((fun f => decide (f2 f = r)) ∘ tr φ) = (fitnesses vals).filter (fun f => decide (f1 f = r)) := by
      apply List.filter_congr
      intro v hv1
      simp only [Function.comp_apply, hf v ((mem_fitnesses _ _).1 hv1)]
    rw [this]
    congr 1
    funext v
    exact group_tr h vals v
  unfold sortLog
  rw [if_neg hk, if_neg hk, if_neg hne, if_neg (by simpa using hne)]
  simp only [val_tr, tr_length, hobj, e1, e2, hmax, hfr]

/-- The fronts of the sort chosen. -/
theorem ndSort_tr {φ : ℕ → K → K} (h : ∀ i, StrictMono (φ i)) {lg : Bool} {vals : List (List K)} {m : ℕ} (hm : lg = true → 2 ≤ m)
    (hv : ∀ v ∈ vals, v.length = m) (k : ℕ) : ndSort lg (vals.map (tr φ)) k = ndSort lg vals k := by
  cases lg with
  | false => exact sortNondominated_tr h vals k
  | true => exact sortLog_tr h (hm rfl) hv k

/-! ### Crowding -/

/-- `φ` is a positive scale and an offset per objective. -/
def aff (a b : ℕ → K) (i : ℕ) (x : K) : K := a i * x + b i

theorem aff_mono {a b : ℕ → K} (ha : ∀ i, 0 < a i) (i : ℕ) : StrictMono (aff a b i) := by
  intro x y hxy
  unfold aff
  have := mul_lt_mul_of_pos_left hxy (ha i)
  linarith

theorem sortAsc_congr {key key' : ℕ → K} {l : List ℕ} (h : ∀ x ∈ l, ∀ y ∈ l, (key' x ≤ key' y ↔ key x ≤ key y)) : sortAsc key' l = sortAsc key l := by
  unfold sortAsc
  have := List.map_insertionSort (fun a b => key a ≤ key b) (fun a b => key' a ≤ key' b) id l (fun a ha b hb => (h a ha b hb).symm)
  simpa using this.symm

theorem addGaps_congr {key key' : ℕ → K} {n n' : K} : ∀ (l : List ℕ) (d : ℕ → WithTop K),
    (∀ x ∈ l, ∀ y ∈ l, (key' y - key' x) / n' = (key y - key x) / n) → addGaps key' n' l d = addGaps key n l d
  | [], d, _ => rfl
  | [_], d, _ => rfl
  | [_, _], d, _ => rfl
  | a :: b :: c :: t, d, h => by
    simp only [addGaps]
    rw [h a (by simp) c (by simp)]
    exact addGaps_congr (b :: c :: t) _ (fun x hx y hy => h x (List.mem_cons_of_mem _ hx) y (List.mem_cons_of_mem _ hy))

theorem crowdObj_congr {key key' : ℕ → K} {a b : K} (ha : 0 < a) (m : ℕ) {s : List ℕ × (ℕ → WithTop K)} (hne : s.1 ≠ [])
    (h : ∀ x ∈ s.1, key' x = a * key x + b) : crowdObj m key' s = crowdObj m key s := by
  have ho : sortAsc key' s.1 = sortAsc key s.1 := by
    apply sortAsc_congr
    intro x hx y hy
    rw [h x hx, h y hy, add_le_add_iff_right, mul_le_mul_iff_right₀ ha]
  have hmem : ∀ x ∈ sortAsc key s.1, key' x = a * key x + b := fun x hx => h x (mem_sortAsc.1 hx)
  have hne' : sortAsc key s.1 ≠ [] := by
    intro e
    have := length_sortAsc key s.1
    rw [e] at this
    exact hne (List.length_eq_zero_iff.1 this.symm)
  have hf : (sortAsc key s.1).headD 0 ∈ sortAsc key s.1 := List.mem_of_mem_head? (headD_of hne')
  have hl : (sortAsc key s.1).getLastD 0 ∈ sortAsc key s.1 := List.mem_of_getLast? (getLastD_of hne')
  unfold crowdObj
  simp only [ho]
  refine Prod.ext rfl ?_
  dsimp only
  rw [hmem _ hf, hmem _ hl]
  by_cases hc : key ((sortAsc key s.1).getLastD 0) = key ((sortAsc key s.1).headD 0)
  · rw [if_pos hc, if_pos (by rw [hc])]
  · rw [if_neg hc, if_neg (by
      intro e
      exact hc (mul_left_cancel₀ (ne_of_gt ha) (add_right_cancel e)))]
    apply addGaps_congr
    intro x hx y hy
    rw [hmem x hx, hmem y hy]
    have e1 : a * key y + b - (a * key x + b) = a * (key y - key x) := by ring
    have e2 : (m : K) * (a * key ((sortAsc key s.1).getLastD 0) + b - (a * key ((sortAsc key s.1).headD 0) + b)) =
        a * ((m : K) * (key ((sortAsc key s.1).getLastD 0) - key ((sortAsc key s.1).headD 0))) := by ring
    rw [e1, e2, mul_div_mul_left _ _ (ne_of_gt ha)]

theorem crowdLoop_tr {a b : ℕ → K} (ha : ∀ i, 0 < a i) {vals : List (List K)} {m : ℕ} (hv : ∀ v ∈ vals, v.length = m) (hne : vals ≠ []) (M : ℕ) :
    ∀ i, i ≤ m → crowdLoop (vals.map (tr (aff a b))) M i = crowdLoop vals M i := by
  intro i
  induction i with
  | zero => intro _; simp [crowdLoop]
  | succ i ih =>
    intro hi
    simp only [crowdLoop]
    rw [ih (by omega)]
    have hp := crowdLoop_ord vals M i
    refine crowdObj_congr (a := a i) (b := b i) (ha i) M ?_ ?_
    · intro e
      rw [e] at hp
      have := hp.length_eq
      simp at this
      exact hne (List.length_eq_zero_iff.1 this.symm)
    · intro x hx
      have hx' : x < vals.length := by simpa using hp.mem_iff.1 hx
      unfold obj
      rw [val_tr, tr_getD _ (by rw [hv _ (val_mem hx')]; omega)]
      rfl

theorem crowding_tr {a b : ℕ → K} (ha : ∀ i, 0 < a i) {vals : List (List K)} {m : ℕ} (hv : ∀ v ∈ vals, v.length = m) :
    crowding (vals.map (tr (aff a b))) = crowding vals := by
  cases vals with
  | nil => rfl
  | cons v vs =>
    have := crowdLoop_tr (b := b) ha hv (by simp) m m (le_refl _)
    have hvm : v.length = m := hv v List.mem_cons_self
    unfold crowding
    simp only [List.map_cons] at this ⊢
    simp only [tr_length, hvm, this, List.length_cons, List.length_map]

theorem survivors_tr {a b : ℕ → K} (ha : ∀ i, 0 < a i) {vals : List (List K)} {m : ℕ} (hv : ∀ v ∈ vals, v.length = m) (k : ℕ) {fronts : List (List ℕ)}
    (hf : ∀ f ∈ fronts, ∀ i ∈ f, i < vals.length) : survivors (vals.map (tr (aff a b))) k fronts = survivors vals k fronts := by
  unfold survivors
  dsimp only
  cases hl : fronts.getLast? with
  | none => rfl
  | some last =>
    have hin := hf last (List.mem_of_getLast? hl)
    have e : last.map (val (vals.map (tr (aff a b)))) = (last.map (val vals)).map (tr (aff a b)) := by
      rw [List.map_map]
      exact List.map_congr_left fun i _ => val_tr _ _ _
    dsimp only
    rw [e, crowding_tr ha (m := m)]
    intro v hv1
    obtain ⟨i, hi, rfl⟩ := List.mem_map.1 hv1
    exact hv _ (val_mem (hin i hi))

theorem ndSort_lt {lg : Bool} {vals : List (List K)} {m : ℕ} (hm : lg = true → 2 ≤ m) (hv : ∀ v ∈ vals, v.length = m) {k : ℕ} {fronts : List (List ℕ)}
    (h : ndSort lg vals k = .ok fronts) : ∀ f ∈ fronts, ∀ i ∈ f, i < vals.length := by
  by_cases hk : k = 0
  · subst hk
    cases lg <;> (simp [ndSort, sortNondominated, sortLog] at h; subst h; simp)
  have key : FrontsSpec vals k fronts := by
    cases lg with
    | false =>
      obtain ⟨out, h1, h2⟩ := sortNondominated_spec ⟨m, hv⟩ hk
      have h : sortNondominated vals k = .ok fronts := h
      rw [h1] at h
      cases h; exact h2
    | true =>
      by_cases hne : vals = []
      · subst hne
        simp [ndSort, sortLog, hk] at h
      · obtain ⟨out, h1, h2, _⟩ := sortLog_spec (m := m - 1) (by have := hm rfl; omega) (fun v hv1 => by have := hm rfl; rw [hv v hv1]; omega) hne hk
        have h : sortLog vals k = .ok fronts := h
        rw [h1] at h
        cases h; exact h2
  intro f hf i hi
  obtain ⟨r, hr, e⟩ := List.mem_iff_getElem.1 hf
  exact ((key.mem r f (by rw [List.getElem?_eq_getElem hr, e]) i).1 hi).lt

theorem selectII_tr {a b : ℕ → K} (ha : ∀ i, 0 < a i) {lg : Bool} {vals : List (List K)} {m : ℕ} (hm : lg = true → 2 ≤ m) (hv : ∀ v ∈ vals, v.length = m) (k : ℕ) :
    selectII lg (vals.map (tr (aff a b))) k = selectII lg vals k := by
  unfold selectII
  rw [ndSort_tr (aff_mono ha) hm hv]
  cases e : ndSort lg vals k with
  | error e => rfl
  | ok fronts => exact survivors_tr ha hv k (ndSort_lt hm hv e)

end

/-! ### Runs -/

section
variable {K : Type} [Field K] [LinearOrder K] [IsStrictOrderedRing K] [FloorRing K]
open Neorl.NSGA Neorl.ES

/-- The selection does not see the change. -/
def SelInv (φ : ℕ → K → K) (mm : ℕ) (sel : List (List K) → ℕ → Py (List ℕ)) : Prop :=
  ∀ (vals : List (List K)), (∀ v ∈ vals, v.length = mm) → ∀ k, sel (vals.map (tr φ)) k = sel vals k

def onFit (φ : ℕ → K → K) (p : MInd K) : MInd K := { p with fit := tr φ p.fit }

def onSnd (φ : ℕ → K → K) (p : List K × List K) : List K × List K := (p.1, tr φ p.2)

/-- Two states that differ in the fitness only (and, with different modes, in the running values of `y_opt`). -/
structure Alike (φ : ℕ → K → K) (mx : Prop) (s s' : NSGA.State K) : Prop where
  pop : s'.pop = s.pop.map (onFit φ)
  x : s'.x = s.x
  front : s'.front = s.front.map (onSnd φ)
  hist : s'.hist = s.hist.map (fun f => f.map (onSnd φ))
  log : s'.log = s.log
  some : s'.y.isSome = s.y.isSome
  y : mx → s'.y = s.y.map (tr φ)

/-- The same outcome up to a relation of the values. -/
def Same {α β : Type} (R : α → β → Prop) : Py α → Py β → Prop
  | .ok a, .ok b => R a b
  | .error e, .error e' => e = e'
  | _, _ => False

theorem listMin_map {φ : K → K} (h : StrictMono φ) {l : List K} (hne : l ≠ []) : listMin (l.map φ) = φ (listMin l) := by
  cases l with
  | nil => exact absurd rfl hne
  | cons a l =>
    simp only [listMin, List.map_cons]
    have : ∀ (l : List K) (a : K), (l.map φ).foldl min (φ a) = φ (l.foldl min a) := by
      intro l
      induction l with
      | nil => intro a; rfl
      | cons b l ih => intro a; rw [List.map_cons, List.foldl_cons, List.foldl_cons, ← h.monotone.map_min, ih]
    exact this l a

theorem idxOf_map' {φ : K → K} (h : Function.Injective φ) (l : List K) (a : K) : (l.map φ).idxOf (φ a) = l.idxOf a := by
  induction l with
  | nil => rfl
  | cons b l ih =>
    rw [List.map_cons, List.idxOf_cons, List.idxOf_cons, ih]
    by_cases hb : b = a
    · simp [hb]
    · have hb' : φ b ≠ φ a := fun e => hb (h e)
      rw [beq_eq_false_iff_ne.2 hb, beq_eq_false_iff_ne.2 hb']

theorem col_tr {φ : ℕ → K → K} {rwd : List (List K)} {mm f : ℕ} (hf : f < mm) (hv : ∀ v ∈ rwd, v.length = mm) :
    col (rwd.map (tr φ)) f = (col rwd f).map (φ f) := by
  unfold col
  rw [List.map_map, List.map_map]
  apply List.map_congr_left
  intro v hv1
  exact tr_getD φ (by rw [hv v hv1]; exact hf)

theorem yStep_tr {φ : ℕ → K → K} (h : ∀ i, StrictMono (φ i)) (old : Option (List K)) (mins : List K) :
    yStep false (old.map (tr φ)) (tr φ mins) = tr φ (yStep false old mins) := by
  cases old with
  | none => rfl
  | some y =>
    simp only [yStep, Option.map_some]
    apply List.ext_getElem?
    intro i
    rw [tr_get, List.getElem?_zipWith, List.getElem?_zipWith, tr_get, tr_get]
    cases y[i]? <;> cases mins[i]? <;> simp [(h i).lt_iff_lt]
    split_ifs <;> rfl

theorem gen_tr {φ : ℕ → K → K} (h : ∀ i, StrictMono (φ i)) {c : Conf K} {m m' : Bool} {sel : List (List K) → ℕ → Py (List ℕ)} {lg : Bool} {mm : ℕ}
    (hm : lg = true → 2 ≤ mm) (hsel : SelInv φ mm sel) {F : List K → List K} (hF : ∀ x, (F x).length = mm) (dr : ℕ → Draw K) {s s' : NSGA.State K}
    (hs : Alike φ (m = false ∧ m' = false) s s') (hl : ∀ p ∈ s.pop, p.fit.length = mm) :
    Same (fun t t' => Alike φ (m = false ∧ m' = false) t t' ∧ ∀ p ∈ t.pop, p.fit.length = mm) (NSGA.gen c m sel lg F dr s) (NSGA.gen c m' sel lg (fun x => tr φ (F x)) dr s') := by
  unfold NSGA.gen
  have e1 : s'.pop.map (fun p => ({ ind := p.ind, strat := p.strat, fit := 0 } : Ind K)) = s.pop.map (fun p => { ind := p.ind, strat := p.strat, fit := 0 }) := by
    rw [hs.pop, List.map_map]; rfl
  rw [e1]
  cases hg : genLoopP c dr 0 c.lam (s.pop.map fun p => ({ ind := p.ind, strat := p.strat, fit := 0 } : Ind K)) with
  | error e => exact rfl
  | ok q =>
    obtain ⟨os, par⟩ := q
    dsimp only
    generalize hos : (if c.clip = true then os.map (fun o => (o.1, clipS c.smin c.smax o.2)) else os) = os'
    have e2 : os'.map (fun o : List K × List K => ({ ind := o.1, strat := o.2, fit := tr φ (F o.1) } : MInd K)) ++
        List.zipWith (fun (p : MInd K) (q : Ind K) => { p with ind := q.ind }) s'.pop par =
        (os'.map (fun o : List K × List K => ({ ind := o.1, strat := o.2, fit := F o.1 } : MInd K)) ++
          List.zipWith (fun (p : MInd K) (q : Ind K) => { p with ind := q.ind }) s.pop par).map (onFit φ) := by
      rw [List.map_append, List.map_map, hs.pop, List.zipWith_map_left, List.map_zipWith]
      rfl
    rw [e2]
    generalize hall : os'.map (fun o : List K × List K => ({ ind := o.1, strat := o.2, fit := F o.1 } : MInd K)) ++
          List.zipWith (fun (p : MInd K) (q : Ind K) => { p with ind := q.ind }) s.pop par = all
    have hlen : ∀ p ∈ all, p.fit.length = mm := by
      intro p hp
      rw [← hall] at hp
      rcases List.mem_append.1 hp with hp | hp
      · obtain ⟨o, _, rfl⟩ := List.mem_map.1 hp
        exact hF _
      · obtain ⟨i, hi, rfl⟩ := List.mem_iff_getElem.1 hp
        rw [List.getElem_zipWith]
        exact hl (s.pop[i]'(by rw [List.length_zipWith] at hi; omega)) (List.getElem_mem _)
    have e3 : (all.map (onFit φ)).map (fun p => p.fit) = (all.map fun p => p.fit).map (tr φ) := by
      rw [List.map_map, List.map_map]; rfl
    rw [e3, hsel _ (by
      intro v hv
      obtain ⟨p, hp, rfl⟩ := List.mem_map.1 hv
      exact hlen p hp)]
    cases hse : sel (all.map fun p => p.fit) c.lam with
    | error e => exact rfl
    | ok idx =>
      dsimp only
      have e4 : idx.filterMap (fun i => (all.map (onFit φ))[i]?) = (idx.filterMap fun i => all[i]?).map (onFit φ) := by
        rw [List.map_filterMap]
        simp only [List.getElem?_map]
      rw [e4]
      generalize hpop : idx.filterMap (fun i => all[i]?) = pop
      have hpl : ∀ p ∈ pop, p.fit.length = mm := by
        intro p hp
        rw [← hpop, List.mem_filterMap] at hp
        obtain ⟨i, _, hi⟩ := hp
        exact hlen p (List.mem_of_getElem? hi)
      have e5 : (pop.map (onFit φ)).map (fun p => p.fit) = (pop.map fun p => p.fit).map (tr φ) := by
        rw [List.map_map, List.map_map]; rfl
      rw [e5, List.length_map, ndSort_tr h hm (by
        intro v hv
        obtain ⟨p, hp, rfl⟩ := List.mem_map.1 hv
        exact hpl p hp)]
      cases hns : ndSort lg (pop.map fun p => p.fit) pop.length with
      | error e => exact rfl
      | ok fronts =>
        dsimp only
        cases hh : fronts.head? with
        | none => exact rfl
        | some f =>
          dsimp only
          have e6 : f.filterMap (fun i => ((pop.map (onFit φ))[i]?).map fun p => (p.ind, p.fit)) =
              (f.filterMap fun i => (pop[i]?).map fun p => (p.ind, p.fit)).map (onSnd φ) := by
            rw [List.map_filterMap]
            apply List.filterMap_congr
            intro i _
            rw [List.getElem?_map]
            cases pop[i]? <;> rfl
          rw [e6]
          generalize hfr : f.filterMap (fun i => (pop[i]?).map fun p => (p.ind, p.fit)) = fr
          have hfl : ∀ v ∈ fr.map (fun p => p.2), v.length = mm := by
            intro v hv
            obtain ⟨q, hq, rfl⟩ := List.mem_map.1 hv
            rw [← hfr, List.mem_filterMap] at hq
            obtain ⟨i, _, hi⟩ := hq
            obtain ⟨p, hp, rfl⟩ := Option.map_eq_some_iff.1 hi
            exact hpl p (List.mem_of_getElem? hp)
          have e7 : (fr.map (onSnd φ)).map (fun p => p.2) = (fr.map fun p => p.2).map (tr φ) := by
            rw [List.map_map, List.map_map]; rfl
          have e8 : (fr.map (onSnd φ)).map (fun p => p.1) = fr.map (fun p => p.1) := by
            rw [List.map_map]; rfl
          rw [e7, e8]
          generalize hrw : fr.map (fun p => p.2) = rwd at hfl
          have e9 : ((rwd.map (tr φ)).headD []).length = (rwd.headD []).length := by cases rwd <;> simp
          rw [e9]
          have hcol : ∀ f ∈ List.range (rwd.headD []).length, col (rwd.map (tr φ)) f = (col rwd f).map (φ f) ∧ col rwd f ≠ [] := by
            intro f hf
            rw [List.mem_range] at hf
            cases rwd with
            | nil => simp at hf
            | cons v vs =>
              refine ⟨col_tr (mm := mm) ?_ hfl, by simp [col]⟩
              rw [← hfl v List.mem_cons_self]
              exact hf
          refine ⟨⟨rfl, ?_, rfl, ?_, ?_, rfl, ?_⟩, hpl⟩
          · apply List.map_congr_left
            intro f hf
            obtain ⟨h1, h2⟩ := hcol f hf
            rw [h1, listMin_map (h f) h2, idxOf_map' (h f).injective]
          · simp [hs.hist]
          · simp [hs.log]
          · rintro ⟨rfl, rfl⟩
            dsimp only
            rw [Option.map_some, ← yStep_tr h, hs.y ⟨rfl, rfl⟩]
            congr 2
            apply List.ext_getElem?
            intro i
            rw [tr_get, List.getElem?_map, List.getElem?_map]
            by_cases hi : i < (rwd.headD []).length
            · rw [List.getElem?_range hi]
              obtain ⟨h1, h2⟩ := hcol i (List.mem_range.2 hi)
              simp only [Option.map_some]
              rw [h1, listMin_map (h i) h2]
            · rw [List.getElem?_eq_none (by simpa using hi)]
              rfl

theorem run_tr {φ : ℕ → K → K} (h : ∀ i, StrictMono (φ i)) {c : Conf K} {m m' : Bool} {sel : ℕ → List (List K) → ℕ → Py (List ℕ)} {lg : Bool} {mm : ℕ}
    (hm : lg = true → 2 ≤ mm) (hsel : ∀ g, SelInv φ mm (sel g)) {F : List K → List K} (hF : ∀ x, (F x).length = mm) (dr : ℕ → ℕ → Draw K)
    (pop0 : List (List K × List K)) : ∀ g,
    Same (fun t t' => Alike φ (m = false ∧ m' = false) t t' ∧ ∀ p ∈ t.pop, p.fit.length = mm) (NSGA.run c m sel lg F dr pop0 g) (NSGA.run c m' sel lg (fun x => tr φ (F x)) dr pop0 g)
  | 0 => by
    refine ⟨⟨?_, rfl, rfl, rfl, rfl, rfl, fun _ => rfl⟩, ?_⟩
    · dsimp only
      rw [List.map_map]; rfl
    · intro p hp
      obtain ⟨q, _, rfl⟩ := List.mem_map.1 hp
      exact hF _
  | g + 1 => by
    have ih := run_tr h (m := m) (m' := m') hm hsel hF dr pop0 (c := c) g
    unfold NSGA.run
    cases h1 : NSGA.run c m sel lg F dr pop0 g with
    | error e =>
      cases h2 : NSGA.run c m' sel lg (fun x => tr φ (F x)) dr pop0 g with
      | error e' => rw [h1, h2] at ih; exact ih
      | ok s' => rw [h1, h2] at ih; exact ih.elim
    | ok s =>
      cases h2 : NSGA.run c m' sel lg (fun x => tr φ (F x)) dr pop0 g with
      | error e' => rw [h1, h2] at ih; exact ih.elim
      | ok s' =>
        rw [h1, h2] at ih
        exact gen_tr h hm (hsel g) hF (dr g) ih.1 ih.2

end
end Neorl.Units

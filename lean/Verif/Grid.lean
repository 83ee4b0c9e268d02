import Verif.Py

/-!
# Mixed search spaces: grid encoding, initial-guess check, population tables

Models of `neorl/evolu/discrete.py` lines 104-151 and of `neorl/utils/tools.py`.
-/

set_option linter.unusedSectionVars false
set_option linter.unusedVariables false

namespace Neorl

section
variable {K : Type} [Field K] [LinearOrder K] [IsStrictOrderedRing K] [FloorRing K]

/-- Python values that may occur in an individual: a Python `int`, a `float` (`np.float64` is a subclass of `float`), a numpy
integer (which is *not* an instance of `int`) or a string. -/
inductive Val (K : Type)
  | pyint (n : ℤ) | float (x : K) | npint (n : ℤ) | str (s : String)
  deriving DecidableEq

/-- What Python's `==` (and dictionary lookup) looks at: `2 == 2.0 == np.int64(2)`; strings only equal strings. -/
def Val.canon : Val K → K ⊕ String
  | .pyint n => .inl (n : K)
  | .float x => .inl x
  | .npint n => .inl (n : K)
  | .str s => .inr s

/-- Python `a == b`. -/
def Val.pyEq (a b : Val K) : Prop := a.canon = b.canon

instance (a b : Val K) : Decidable (Val.pyEq a b) := by unfold Val.pyEq; infer_instance

/-- Numeric value, `none` for strings. -/
def Val.num? : Val K → Option K
  | .pyint n => some (n : K)
  | .float x => some x
  | .npint n => some (n : K)
  | .str _ => none

/-- A variable of a NEORL `bounds` dictionary: `['grid', values]`, `['int', lb, ub]`, `['float', lb, ub]`. -/
inductive Spec (K : Type)
  | grid (vals : List (Val K)) | int (lb ub : K) | float (lb ub : K)
  deriving DecidableEq

/-- A `bounds` dictionary in insertion order (keys of a dictionary are distinct; a hypothesis where needed). -/
abbrev Bounds (K : Type) := List (String × Spec K)

/-- `bounds_map`: for every grid variable the dictionary from index to value. -/
abbrev BMap (K : Type) := List (String × List (ℤ × Val K))

/-- Lines 111-113 of `neorl/evolu/discrete.py`. -/
def gridDict : ℕ → List (Val K) → List (ℤ × Val K)
  | _, [] => []
  | i, v :: vs => ((i : ℤ), v) :: gridDict (i + 1) vs

/-- `encode_grid_to_discrete`, `neorl/evolu/discrete.py` lines 104-118: new bounds and the map. -/
def encodeBounds : Bounds K → Bounds K × BMap K
  | [] => ([], [])
  | (k, .grid vals) :: bs =>
    let (nb, mp) := encodeBounds bs
    ((k, .int 0 ((vals.length : K) - 1)) :: nb, (k, gridDict 0 vals) :: mp)
  | (k, s) :: bs =>
    let (nb, mp) := encodeBounds bs
    ((k, s) :: nb, mp)

/-- Python dictionary access `d[key]` for an integer-keyed dictionary, with Python equality on numbers. -/
def dictGet (d : List (ℤ × Val K)) (key : Val K) : Py (Val K) :=
  match d.find? (fun p => decide (Val.pyEq (Val.pyint p.1) key)) with
  | some p => .ok p.2
  | none => .error .keyError

/-- `bounds_map[key]`. -/
def mapGet (m : BMap K) (k : String) : Py (List (ℤ × Val K)) :=
  match m.lookup k with
  | some d => .ok d
  | none => .error .keyError

/-- `decode_discrete_to_grid`, `neorl/evolu/discrete.py` lines 123-133 (loop over `bounds` with a running index; the
index runs off a short individual with `IndexError`, a long individual is cut). -/
def decodeIndv (m : BMap K) : Bounds K → List (Val K) → Py (List (Val K))
  | [], _ => .ok []
  | _ :: _, [] => .error .indexError
  | (k, .grid _) :: bs, x :: xs =>
    match mapGet m k with
    | .error e => .error e
    | .ok d =>
      match dictGet d x with
      | .error e => .error e
      | .ok v =>
        match decodeIndv m bs xs with
        | .error e => .error e
        | .ok r => .ok (v :: r)
  | (_, _) :: bs, x :: xs =>
    match decodeIndv m bs xs with
    | .error e => .error e
    | .ok r => .ok (x :: r)

/-- `encode_grid_indv_to_discrete`, `neorl/evolu/discrete.py` lines 138-151. -/
def encodeIndv (m : BMap K) : Bounds K → List (Val K) → Py (List (Val K))
  | [], _ => .ok []
  | _ :: _, [] => .error .indexError
  | (k, .grid _) :: bs, x :: xs =>
    match mapGet m k with
    | .error e => .error e
    | .ok d =>
      match d.filter (fun p => decide (Val.pyEq p.2 x)) with
      | [p] =>
        match encodeIndv m bs xs with
        | .error e => .error e
        | .ok r => .ok (.pyint p.1 :: r)
      | _ => .error .assertion
  | (_, _) :: bs, x :: xs =>
    match encodeIndv m bs xs with
    | .error e => .error e
    | .ok r => .ok (x :: r)

/-- `is_integer_num`, `neorl/utils/tools.py` lines 27-32: numpy integers are neither `int` nor `float`. -/
def isIntegerNum : Val K → Bool
  | .pyint _ => true
  | .float x => decide ((⌊x⌋ : K) = x)
  | .npint _ => false
  | .str _ => false

/-- One round of `check_mixed_individual`, `neorl/utils/tools.py` lines 49-64.  In the float branch a string either fails
`float()` (`Exception`) or the comparison with the bound (`TypeError`); both are reported as `typeError`. -/
def checkVar (s : Spec K) (x : Val K) : Py Unit :=
  match s with
  | .grid vals => if ∃ v ∈ vals, Val.pyEq x v then .ok () else .error .assertion
  | .int lb ub =>
    if isIntegerNum x = true then
      match x.num? with
      | some y => if lb ≤ y ∧ y ≤ ub then .ok () else .error .assertion
      | none => .error .typeError
    else .error .assertion
  | .float lb ub =>
    match x.num? with
    | some y => if lb ≤ y ∧ y ≤ ub then .ok () else .error .assertion
    | none => .error .typeError

/-- `check_mixed_individual`, `neorl/utils/tools.py` lines 43-64. -/
def checkIndv : Bounds K → List (Val K) → Py Unit
  | [], _ => .ok ()
  | _ :: _, [] => .error .indexError
  | (_, s) :: bs, x :: xs =>
    match checkVar s x with
    | .ok () => checkIndv bs xs
    | .error e => .error e

/-! ### Specifications -/

/-- Independent membership predicate: a value belongs to a variable's domain. -/
def Spec.Member (s : Spec K) (x : Val K) : Prop :=
  match s with
  | .grid vals => ∃ v ∈ vals, Val.pyEq x v
  | .int lb ub => ∃ n : ℤ, x.num? = some (n : K) ∧ lb ≤ n ∧ (n : K) ≤ ub
  | .float lb ub => ∃ y : K, x.num? = some y ∧ lb ≤ y ∧ y ≤ ub

/-- Not a numpy integer scalar. -/
def Val.NotNp (x : Val K) : Prop := ∀ n, x ≠ .npint n

/-- All values of a grid are pairwise different in the sense of Python's `==`. -/
def GridsDistinct (bs : Bounds K) : Prop :=
  ∀ k vals, (k, Spec.grid vals) ∈ bs → vals.Pairwise (fun a b => ¬ Val.pyEq a b)

/-- Same individual up to Python equality. -/
def SameIndv (x y : List (Val K)) : Prop := List.Forall₂ Val.pyEq x y

/-! ### Helper lemmas -/

theorem mem_gridDict {i : ℕ} {vals : List (Val K)} {p : ℤ × Val K} :
    p ∈ gridDict i vals ↔ ∃ j : ℕ, vals[j]? = some p.2 ∧ p.1 = ((i + j : ℕ) : ℤ) := by
  induction vals generalizing i with
  | nil => simp [gridDict]
  | cons v vs ih =>
    simp only [gridDict, List.mem_cons, ih]
    constructor
    · rintro (rfl | ⟨j, h1, h2⟩)
      · exact ⟨0, by simp⟩
      · exact ⟨j + 1, by simpa using h1, by rw [h2]; push_cast; ring⟩
    · rintro ⟨j, h1, h2⟩
      cases j with
      | zero => left; simp at h1; ext <;> simp [h1, h2]
      | succ j => right; exact ⟨j, by simpa using h1, by rw [h2]; push_cast; ring⟩

theorem find_gridDict (i : ℕ) (vals : List (Val K)) (key : Val K) (j : ℕ)
    (hk : Val.pyEq (Val.pyint (((i + j : ℕ)) : ℤ)) key) :
    (gridDict i vals).find? (fun p => decide (Val.pyEq (Val.pyint p.1) key)) =
      (vals[j]?).map (fun v => ((((i + j : ℕ)) : ℤ), v)) := by
  induction vals generalizing i j with
  | nil => simp [gridDict]
  | cons v vs ih =>
    simp only [gridDict]
    cases j with
    | zero =>
      rw [List.find?_cons_of_pos (by simpa using hk)]; simp
    | succ j =>
      rw [List.find?_cons_of_neg]
      · rw [ih (i + 1) j (by rwa [show i + 1 + j = i + (j + 1) by omega])]
        simp [show i + 1 + j = i + (j + 1) by omega]
      · simp only [decide_eq_true_eq]
        intro h
        unfold Val.pyEq at h hk
        rw [← hk] at h
        simp only [Val.canon, Sum.inl.injEq] at h
        have : ((i : ℕ) : ℤ) = ((i + (j + 1) : ℕ) : ℤ) := by exact_mod_cast h
        omega

theorem filter_gridDict {i : ℕ} {vals : List (Val K)} (hd : vals.Pairwise (fun a b => ¬ Val.pyEq a b))
    {j : ℕ} {v x : Val K} (hj : vals[j]? = some v) (hx : Val.pyEq v x) :
    (gridDict i vals).filter (fun p => decide (Val.pyEq p.2 x)) = [(((i + j : ℕ) : ℤ), v)] := by
  induction vals generalizing i j with
  | nil => simp at hj
  | cons w ws ih =>
    rw [List.pairwise_cons] at hd
    cases j with
    | zero =>
      simp at hj; subst hj
      simp only [gridDict]
      rw [List.filter_cons_of_pos (by simpa using hx)]
      have : (gridDict (i + 1) ws).filter (fun p => decide (Val.pyEq p.2 x)) = [] := by
        rw [List.filter_eq_nil_iff]
        intro p hp
        obtain ⟨j, h1, h2⟩ := mem_gridDict.1 hp
        simp only [decide_eq_true_eq]
        intro hpx
        exact hd.1 p.2 (List.mem_of_getElem? h1) (by unfold Val.pyEq at *; rw [hx, hpx])
      rw [this]; simp
    | succ j =>
      simp only [gridDict]
      have hj' : ws[j]? = some v := by simpa using hj
      rw [List.filter_cons_of_neg]
      · rw [ih hd.2 hj', show i + 1 + j = i + (j + 1) by omega]
      · simp only [decide_eq_true_eq]
        intro hw
        exact hd.1 v (List.mem_of_getElem? hj') (by unfold Val.pyEq at *; rw [hw, hx])

theorem map_lookup_head {k : String} {vals : List (Val K)} {bs : Bounds K} :
    mapGet (encodeBounds ((k, .grid vals) :: bs)).2 k = .ok (gridDict 0 vals) := by
  simp [encodeBounds, mapGet]

theorem keys_encodeBounds_map (bs : Bounds K) : ∀ k d, (k, d) ∈ (encodeBounds bs).2 → k ∈ bs.map Prod.fst := by
  induction bs with
  | nil => simp [encodeBounds]
  | cons b bs ih =>
    obtain ⟨k0, s⟩ := b
    intro k d hk
    cases s <;> simp [encodeBounds] at hk ⊢
    · rcases hk with ⟨rfl, _⟩ | hk
      · exact Or.inl rfl
      · right; simpa using ih k d hk
    · right; simpa using ih k d hk
    · right; simpa using ih k d hk

/-- The map built for a dictionary with distinct keys answers every grid variable with its own values. -/
theorem mapGet_encodeBounds {bs : Bounds K} (hk : (bs.map Prod.fst).Nodup) {k : String} {vals : List (Val K)}
    (h : (k, Spec.grid vals) ∈ bs) : mapGet (encodeBounds bs).2 k = .ok (gridDict 0 vals) := by
  induction bs with
  | nil => simp at h
  | cons b bs ih =>
    obtain ⟨k0, s⟩ := b
    simp only [List.map_cons, List.nodup_cons] at hk
    rcases List.mem_cons.1 h with h' | h'
    · cases h'; exact map_lookup_head
    · have hne : k ≠ k0 := by
        rintro rfl
        exact hk.1 (List.mem_map_of_mem (f := Prod.fst) h')
      have := ih hk.2 h'
      cases s with
      | grid vs =>
        simp only [encodeBounds, mapGet] at this ⊢
        rw [List.lookup_cons]
        have hb : (k == k0) = false := by simpa using hne
        simp only [hb]
        exact this
      | int l u => simpa [encodeBounds] using this
      | float l u => simpa [encodeBounds] using this

theorem isIntegerNum_iff {x : Val K} (hn : x.NotNp) : isIntegerNum x = true ↔ ∃ n : ℤ, x.num? = some (n : K) := by
  cases x with
  | pyint n => simp [isIntegerNum, Val.num?]
  | float y =>
    simp only [isIntegerNum, Val.num?, decide_eq_true_eq, Option.some.injEq]
    constructor
    · intro h; exact ⟨⌊y⌋, h.symm⟩
    · rintro ⟨n, rfl⟩; simp
  | npint n => exact absurd rfl (hn n)
  | str s => simp [isIntegerNum, Val.num?]

theorem checkVar_iff {s : Spec K} {x : Val K} (hn : x.NotNp) : checkVar s x = .ok () ↔ s.Member x := by
  cases s with
  | grid vals =>
    simp only [checkVar, Spec.Member]
    split_ifs with h
    · simp only [true_iff]; exact h
    · constructor
      · intro h'; cases h'
      · intro h'; exact absurd h' h
  | int lb ub =>
    simp only [checkVar, Spec.Member]
    by_cases h : isIntegerNum x = true
    · obtain ⟨n, hx⟩ := (isIntegerNum_iff hn).1 h
      rw [if_pos h, hx]
      simp only [Option.some.injEq]
      by_cases hb : lb ≤ (n : K) ∧ (n : K) ≤ ub
      · rw [if_pos hb]; simp only [true_iff]; exact ⟨n, rfl, hb⟩
      · rw [if_neg hb]
        constructor
        · intro h'; cases h'
        · rintro ⟨m, hm, hm'⟩; rw [← hm] at hm'; exact absurd hm' hb
    · rw [if_neg h]
      constructor
      · intro h'; cases h'
      · rintro ⟨n, hx, _⟩; exact absurd ((isIntegerNum_iff hn).2 ⟨n, hx⟩) h
  | float lb ub =>
    simp only [checkVar, Spec.Member]
    cases hx : x.num? with
    | none =>
      constructor
      · intro h; cases h
      · rintro ⟨y, hy, _⟩; cases hy
    | some y =>
      simp only [Option.some.injEq]
      by_cases hb : lb ≤ y ∧ y ≤ ub
      · rw [if_pos hb]; simp only [true_iff]; exact ⟨y, rfl, hb⟩
      · rw [if_neg hb]
        constructor
        · intro h'; cases h'
        · rintro ⟨m, hm, hm'⟩; rw [← hm] at hm'; exact absurd hm' hb

/-! ### Population tables -/

/-- Numpy assignment of a vector to a row slice of width `d`: equal length, or a one-element vector is broadcast. -/
def assignRow (d : ℕ) (v : List K) : Py (List K) :=
  if v.length = d then .ok v
  else match v with
    | [a] => .ok (List.replicate d a)
    | _ => .error .valueError

/-- A member of an ES/PSO population dictionary: position, strategy or speed, fitness. -/
structure Member (K : Type) where
  x : List K
  s : List K
  f : K
  deriving DecidableEq

/-- The row loop of `get_population`, `neorl/utils/tools.py` lines 73-75, over the keys `ks` of the dictionary. -/
def dictRows (pop : List (ℤ × Member K)) (d : ℕ) : List ℤ → Py (List (List K × K))
  | [] => .ok []
  | k :: ks =>
    match pop.lookup k with
    | none => .error .keyError
    | some m =>
      match assignRow d m.x with
      | .error e => .error e
      | .ok r =>
        match dictRows pop d ks with
        | .error e => .error e
        | .ok rs => .ok ((r, m.f) :: rs)

/-- `get_population` on a dictionary, `neorl/utils/tools.py` lines 68-75: rows `(x, fitness)` in dictionary order.  The row
and column labels (lines 99-101) are functions of the shape only and are left out. -/
def getPopulationDict (pop : List (ℤ × Member K)) : Py (List (List K × K)) :=
  match pop.lookup 0 with
  | none => .error .keyError
  | some m0 => dictRows pop m0.x.length (pop.map Prod.fst)

/-- The row loop of `get_population` on a list, `neorl/utils/tools.py` lines 84-86. -/
def listRows (d : ℕ) : List (List K) → List K → Py (List (List K × K))
  | [], _ => .ok []
  | _ :: _, [] => .error .indexError
  | x :: xs, f :: fs =>
    match assignRow d x with
    | .error e => .error e
    | .ok r =>
      match listRows d xs fs with
      | .error e => .error e
      | .ok rs => .ok ((r, f) :: rs)

/-- `get_population` on a list of vectors with fitness values, `neorl/utils/tools.py` lines 77-86 (the
numpy branch, lines 88-93, is the same table for a rectangular array). -/
def getPopulationList (pop : List (List K)) (fits : List K) : Py (List (List K × K)) :=
  match pop with
  | [] => .error .indexError
  | p0 :: _ =>
    if fits.length = pop.length then listRows p0.length pop fits else .error .assertion

/-- A member of an NSGA population: position, strategy, objective values (internal, maximised). -/
structure MMember (K : Type) where
  x : List K
  s : List K
  f : List K
  deriving DecidableEq

/-- The row loop of `get_population_nsga`, `neorl/utils/tools.py` lines 126-131. -/
def nsgaRows (minMode : Bool) (pop : List (ℤ × MMember K)) (d p : ℕ) : List ℤ → Py (List (List K × List K))
  | [] => .ok []
  | k :: ks =>
    match pop.lookup k with
    | none => .error .keyError
    | some m =>
      match assignRow d m.x, assignRow p (if minMode then m.f.map (fun v => -v) else m.f) with
      | .ok r, .ok o =>
        match nsgaRows minMode pop d p ks with
        | .error e => .error e
        | .ok rs => .ok ((r, o) :: rs)
      | .error e, _ => .error e
      | _, .error e => .error e

/-- `get_population_nsga`, `neorl/utils/tools.py` lines 115-131 (labels left out as above). -/
def getPopulationNsga (minMode : Bool) (pop : List (ℤ × MMember K)) : Py (List (List K × List K)) :=
  match pop.lookup 0 with
  | none => .error .keyError
  | some m0 => nsgaRows minMode pop m0.x.length m0.f.length (pop.map Prod.fst)

theorem assignRow_eq {d : ℕ} {v : List K} (h : v.length = d) : assignRow d v = .ok v := by
  simp [assignRow, h]

theorem lookup_of_mem_nodup {α β : Type} [DecidableEq α] {l : List (α × β)} (hn : (l.map Prod.fst).Nodup) {k : α} {m : β}
    (h : (k, m) ∈ l) : l.lookup k = some m := by
  induction l with
  | nil => simp at h
  | cons p ps ih =>
    obtain ⟨a, b⟩ := p
    simp only [List.map_cons, List.nodup_cons] at hn
    rcases List.mem_cons.1 h with h' | h'
    · cases h'; simp
    · have hne : k ≠ a := by
        intro hk
        exact hn.1 (hk ▸ List.mem_map_of_mem (f := Prod.fst) h')
      rw [List.lookup_cons]
      have hb : (k == a) = false := by simpa using hne
      simp only [hb]
      exact ih hn.2 h'

end
end Neorl

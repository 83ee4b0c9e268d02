import Verif.Grid

/-!
# Property theorems C05, C06, C60: mixed search spaces and population tables
-/

set_option linter.unusedSectionVars false
set_option linter.unusedVariables false

namespace Neorl

section
variable {K : Type} [Field K] [LinearOrder K] [IsStrictOrderedRing K] [FloorRing K]

/-- Specification: `x` has one entry per variable, each in the variable's domain. -/
def InSpace (bs : Bounds K) (x : List (Val K)) : Prop := List.Forall₂ (fun b v => b.2.Member v) bs x

private theorem encode_aux (m : BMap K) {bs : Bounds K} {x : List (Val K)}
    (hm : ∀ k vals, (k, Spec.grid vals) ∈ bs → mapGet m k = .ok (gridDict 0 vals))
    (hd : GridsDistinct bs) (hx : InSpace bs x) :
    ∃ y, encodeIndv m bs x = .ok y ∧ InSpace (encodeBounds bs).1 y ∧
      ∃ x', decodeIndv m bs y = .ok x' ∧ SameIndv x' x := by
  unfold InSpace at hx
  induction hx with
  | nil => exact ⟨[], rfl, List.Forall₂.nil, [], rfl, List.Forall₂.nil⟩
  | cons h1 _ ih =>
    rename_i b v bs xs _
    obtain ⟨k, s⟩ := b
    obtain ⟨y, hy1, hy2, x', hx1, hx2⟩ := ih (fun k' vs hk => hm k' vs (by simp [hk]))
      (fun k' vs hk => hd k' vs (by simp [hk]))
    cases s with
    | grid vals =>
      obtain ⟨w, hw, hvw⟩ := h1
      obtain ⟨j, hj⟩ := List.mem_iff_getElem?.1 hw
      have hf := filter_gridDict (i := 0) (hd k vals (by simp)) hj (x := v) hvw.symm
      have hmk := hm k vals (by simp)
      refine ⟨.pyint ((0 + j : ℕ) : ℤ) :: y, ?_, ?_, ?_⟩
      · simp only [encodeIndv, hmk, hf, hy1]
      · refine List.Forall₂.cons ?_ hy2
        have hlt : j < vals.length := (List.getElem?_eq_some_iff.1 hj).1
        refine ⟨((0 + j : ℕ) : ℤ), rfl, by push_cast; simp, ?_⟩
        have : ((j : ℕ) : K) + 1 ≤ vals.length := by exact_mod_cast hlt
        push_cast; simp only [zero_add]; linarith
      · refine ⟨w :: x', ?_, List.Forall₂.cons hvw.symm hx2⟩
        have hfd := find_gridDict 0 vals (.pyint ((0 + j : ℕ) : ℤ)) j rfl
        rw [hj] at hfd
        simp only [decodeIndv, hmk, dictGet, hfd, hx1, Option.map]
    | int l u =>
      exact ⟨v :: y, by simp only [encodeIndv, hy1], List.Forall₂.cons h1 hy2, v :: x', by simp only [decodeIndv, hx1],
        List.Forall₂.cons rfl hx2⟩
    | float l u =>
      exact ⟨v :: y, by simp only [encodeIndv, hy1], List.Forall₂.cons h1 hy2, v :: x', by simp only [decodeIndv, hx1],
        List.Forall₂.cons rfl hx2⟩

/-- **C05, encode then decode.** For a space with distinct names and pairwise different grid values, every member of
the space is encoded to a member of the encoded (int/float) space, and decoding gives back the same individual. -/
theorem C05_encode_decode {bs : Bounds K} (hk : (bs.map Prod.fst).Nodup) (hd : GridsDistinct bs)
    {x : List (Val K)} (hx : InSpace bs x) :
    ∃ y, encodeIndv (encodeBounds bs).2 bs x = .ok y ∧ InSpace (encodeBounds bs).1 y ∧
      ∃ x', decodeIndv (encodeBounds bs).2 bs y = .ok x' ∧ SameIndv x' x :=
  encode_aux _ (fun _ _ h => mapGet_encodeBounds hk h) hd hx

private theorem decode_aux (m : BMap K) {bs : Bounds K} {y : List (Val K)}
    (hm : ∀ k vals, (k, Spec.grid vals) ∈ bs → mapGet m k = .ok (gridDict 0 vals))
    (hy : InSpace (encodeBounds bs).1 y) :
    ∃ x, decodeIndv m bs y = .ok x ∧ InSpace bs x ∧
      (GridsDistinct bs → ∃ y', encodeIndv m bs x = .ok y' ∧ SameIndv y' y) := by
  induction bs generalizing y with
  | nil =>
    cases hy
    exact ⟨[], rfl, List.Forall₂.nil, fun _ => ⟨[], rfl, List.Forall₂.nil⟩⟩
  | cons b bs ih =>
    obtain ⟨k, s⟩ := b
    cases s with
    | grid vals =>
      simp only [encodeBounds] at hy
      unfold InSpace at hy
      cases hy with
      | cons h1 h2 =>
        rename_i v ys
        obtain ⟨x, hx1, hx2, hx3⟩ := ih (fun k' vs hk => hm k' vs (by simp [hk])) h2
        obtain ⟨n, hn, hn0, hn1⟩ := h1
        have hn0' : 0 ≤ n := by exact_mod_cast hn0
        have hn1' : n < vals.length := by
          have h3 : (n : K) < vals.length := by linarith
          exact_mod_cast h3
        obtain ⟨j, rfl⟩ := Int.eq_ofNat_of_zero_le hn0'
        have hjl : j < vals.length := by exact_mod_cast hn1'
        have hj : vals[j]? = some vals[j] := List.getElem?_eq_getElem hjl
        have hvk : Val.pyEq (Val.pyint ((0 + j : ℕ) : ℤ)) v := by
          unfold Val.pyEq
          cases v <;> simp [Val.num?] at hn <;> simp [Val.canon, hn]
        have hfd := find_gridDict 0 vals v j hvk
        rw [hj] at hfd
        have hmk := hm k vals (by simp)
        refine ⟨vals[j] :: x, ?_, List.Forall₂.cons ⟨_, List.getElem_mem hjl, rfl⟩ hx2, ?_⟩
        · simp only [decodeIndv, hmk, dictGet, hfd, hx1, Option.map]
        · intro hd
          obtain ⟨y', hy1, hy2⟩ := hx3 (fun k' vs hk => hd k' vs (by simp [hk]))
          have hf := filter_gridDict (i := 0) (hd k vals (by simp)) hj (x := vals[j]) rfl
          exact ⟨.pyint ((0 + j : ℕ) : ℤ) :: y', by simp only [encodeIndv, hmk, hf, hy1], List.Forall₂.cons hvk hy2⟩
    | int l u =>
      simp only [encodeBounds] at hy
      unfold InSpace at hy
      cases hy with
      | cons h1 h2 =>
        rename_i v ys
        obtain ⟨x, hx1, hx2, hx3⟩ := ih (fun k' vs hk => hm k' vs (by simp [hk])) h2
        refine ⟨v :: x, by simp only [decodeIndv, hx1], List.Forall₂.cons h1 hx2, ?_⟩
        intro hd
        obtain ⟨y', hy1, hy2⟩ := hx3 (fun k' vs hk => hd k' vs (by simp [hk]))
        exact ⟨v :: y', by simp only [encodeIndv, hy1], List.Forall₂.cons rfl hy2⟩
    | float l u =>
      simp only [encodeBounds] at hy
      unfold InSpace at hy
      cases hy with
      | cons h1 h2 =>
        rename_i v ys
        obtain ⟨x, hx1, hx2, hx3⟩ := ih (fun k' vs hk => hm k' vs (by simp [hk])) h2
        refine ⟨v :: x, by simp only [decodeIndv, hx1], List.Forall₂.cons h1 hx2, ?_⟩
        intro hd
        obtain ⟨y', hy1, hy2⟩ := hx3 (fun k' vs hk => hd k' vs (by simp [hk]))
        exact ⟨v :: y', by simp only [encodeIndv, hy1], List.Forall₂.cons rfl hy2⟩

/-- **C05, decode then encode.** Every member of the encoded space decodes (no exception) to a member of the original space;
if grid values are pairwise different, encoding it gives the encoded vector back. -/
theorem C05_decode_encode {bs : Bounds K} (hk : (bs.map Prod.fst).Nodup) {y : List (Val K)}
    (hy : InSpace (encodeBounds bs).1 y) :
    ∃ x, decodeIndv (encodeBounds bs).2 bs y = .ok x ∧ InSpace bs x ∧
      (GridsDistinct bs → ∃ y', encodeIndv (encodeBounds bs).2 bs x = .ok y' ∧ SameIndv y' y) :=
  decode_aux _ (fun _ _ h => mapGet_encodeBounds hk h) hy

/-- **C05, encoded bounds.** Names and order are kept, int and float variables are unchanged, and an integer is in the
encoded range of a grid variable iff it is an index of one of its values. -/
theorem C05_encoded_bounds (bs : Bounds K) :
    ((encodeBounds bs).1.map Prod.fst) = bs.map Prod.fst ∧
    (∀ (i : ℕ) (k : String) (s : Spec K), bs[i]? = some (k, s) → (∀ vals, s ≠ .grid vals) → (encodeBounds bs).1[i]? = some (k, s)) ∧
    (∀ (i : ℕ) (k : String) (vals : List (Val K)), bs[i]? = some (k, .grid vals) → ∃ s : Spec K, (encodeBounds bs).1[i]? = some (k, s) ∧
      ∀ n : ℤ, s.Member (.pyint n) ↔ ∃ j : ℕ, n = j ∧ j < vals.length) := by
  induction bs with
  | nil => simp [encodeBounds]
  | cons b bs ih =>
    obtain ⟨k0, s0⟩ := b
    obtain ⟨i1, i2, i3⟩ := ih
    refine ⟨?_, ?_, ?_⟩
    · cases s0 <;> simp [encodeBounds, i1]
    · intro i k s hi hs
      cases i with
      | zero =>
        simp only [List.getElem?_cons_zero, Option.some.injEq, Prod.mk.injEq] at hi
        obtain ⟨rfl, rfl⟩ := hi
        cases s0 with
        | grid vals => exact absurd rfl (hs vals)
        | int l u => simp [encodeBounds]
        | float l u => simp [encodeBounds]
      | succ i =>
        have := i2 i k s (by simpa using hi) hs
        cases s0 <;> simpa [encodeBounds] using this
    · intro i k vals hi
      cases i with
      | zero =>
        simp only [List.getElem?_cons_zero, Option.some.injEq, Prod.mk.injEq] at hi
        obtain ⟨rfl, rfl⟩ := hi
        refine ⟨.int 0 ((vals.length : K) - 1), by simp [encodeBounds], ?_⟩
        intro n
        simp only [Spec.Member, Val.num?, Option.some.injEq, Int.cast_inj]
        constructor
        · rintro ⟨m, rfl, h1, h2⟩
          have h1' : 0 ≤ n := by exact_mod_cast h1
          have h2' : n < vals.length := by
            have h3 : (n : K) < vals.length := by linarith
            exact_mod_cast h3
          exact ⟨n.toNat, by omega, by omega⟩
        · rintro ⟨j, rfl, hj⟩
          refine ⟨j, rfl, by exact_mod_cast Nat.zero_le j, ?_⟩
          have : ((j : ℕ) : K) + 1 ≤ vals.length := by exact_mod_cast hj
          push_cast; linarith
      | succ i =>
        obtain ⟨s, hs1, hs2⟩ := i3 i k vals (by simpa using hi)
        refine ⟨s, ?_, hs2⟩
        cases s0 <;> simpa [encodeBounds] using hs1

/-- **C05, duplicates.** If a grid lists a value twice, encoding an individual using that value fails with the assertion. -/
theorem C05_duplicate_grid (k : String) {vals : List (Val K)} {i j : ℕ} (hij : i < j) {v w : Val K}
    (hi : vals[i]? = some v) (hj : vals[j]? = some w) (hvw : Val.pyEq v w) (xs : List (Val K)) (bs : Bounds K) :
    encodeIndv (encodeBounds ((k, .grid vals) :: bs)).2 ((k, .grid vals) :: bs) (v :: xs) = .error .assertion := by
  have h1 : (((0 + i : ℕ) : ℤ), v) ∈ (gridDict 0 vals).filter (fun p => decide (Val.pyEq p.2 v)) :=
    List.mem_filter.2 ⟨mem_gridDict.2 ⟨i, hi, rfl⟩, by simp [Val.pyEq]⟩
  have h2 : (((0 + j : ℕ) : ℤ), w) ∈ (gridDict 0 vals).filter (fun p => decide (Val.pyEq p.2 v)) :=
    List.mem_filter.2 ⟨mem_gridDict.2 ⟨j, hj, rfl⟩, by simp only [decide_eq_true_eq]; exact hvw.symm⟩
  simp only [encodeIndv, map_lookup_head]
  split
  · rename_i p hp
    rw [hp] at h1 h2
    simp only [List.mem_singleton] at h1 h2
    rw [← h1] at h2
    simp at h2
    omega
  · rfl

private theorem check_iff_aux {bs : Bounds K} {x : List (Val K)} (hn : ∀ v ∈ x, v.NotNp) :
    checkIndv bs x = .ok () ↔ bs.length ≤ x.length ∧ InSpace bs (x.take bs.length) := by
  induction bs generalizing x with
  | nil => simp [checkIndv, InSpace]
  | cons b bs ih =>
    obtain ⟨k, s⟩ := b
    cases x with
    | nil => simp [checkIndv, InSpace]
    | cons v xs =>
      have hv := checkVar_iff (s := s) (hn v (by simp))
      have hxs := ih (x := xs) (fun w hw => hn w (by simp [hw]))
      simp only [checkIndv, InSpace, List.length_cons, List.take_succ_cons, List.forall₂_cons, add_le_add_iff_right] at *
      cases hc : checkVar s v with
      | error e =>
        rw [hc] at hv
        simp only [reduceCtorEq, false_iff] at hv ⊢
        exact fun h => hv h.2.1
      | ok u =>
        rw [hc] at hv
        have : s.Member v := hv.1 rfl
        simp only [this, true_and]
        exact hxs

/-- **C06.** For individuals made of Python numbers and strings, of the right length, the initial-guess check accepts exactly
the members of the space. -/
theorem C06_check_iff {bs : Bounds K} {x : List (Val K)} (hl : x.length = bs.length) (hn : ∀ v ∈ x, v.NotNp) :
    checkIndv bs x = .ok () ↔ InSpace bs x := by
  rw [check_iff_aux hn, ← hl, List.take_length]
  simp

/-- **C06, length.** A too short individual is always rejected; surplus entries are never looked at. -/
theorem C06_check_length {bs : Bounds K} {x : List (Val K)} (hn : ∀ v ∈ x, v.NotNp) :
    (x.length < bs.length → ∃ e, checkIndv bs x = .error e) ∧
    (∀ extra : List (Val K), InSpace bs x → (∀ v ∈ extra, v.NotNp) → checkIndv bs (x ++ extra) = .ok ()) := by
  constructor
  · intro h
    cases hc : checkIndv bs x with
    | error e => exact ⟨e, rfl⟩
    | ok u => exact absurd ((check_iff_aux hn).1 hc).1 (not_le.2 h)
  · intro extra hx hne
    have hl : bs.length = x.length := List.Forall₂.length_eq hx
    rw [check_iff_aux (by intro v hv; rcases List.mem_append.1 hv with h | h; exacts [hn v h, hne v h])]
    rw [List.length_append, hl, List.take_left]
    exact ⟨by omega, hx⟩

/-- **C06, negation for numpy integers.** A numpy integer in an int variable is rejected whatever its value, although its
value is in the domain. -/
theorem C06_numpy_int_rejected (k : String) {lb ub : K} {n : ℤ} (h1 : lb ≤ n) (h2 : (n : K) ≤ ub) :
    InSpace [(k, .int lb ub)] [.npint n] ∧ checkIndv [(k, .int lb ub)] [.npint n] = .error .assertion := by
  refine ⟨?_, by simp [checkIndv, checkVar, isIntegerNum]⟩
  exact List.Forall₂.cons ⟨n, rfl, h1, h2⟩ List.Forall₂.nil

private theorem dictRows_eq (pop : List (ℤ × Member K)) (hk : (pop.map Prod.fst).Nodup) (d : ℕ) :
    ∀ sub : List (ℤ × Member K), (∀ p ∈ sub, p ∈ pop ∧ p.2.x.length = d) →
      dictRows pop d (sub.map Prod.fst) = .ok (sub.map (fun p => (p.2.x, p.2.f))) := by
  intro sub
  induction sub with
  | nil => intro _; rfl
  | cons p ps ih =>
    intro h
    have hp := h p (by simp)
    have : pop.lookup p.1 = some p.2 := lookup_of_mem_nodup hk hp.1
    simp only [List.map_cons, dictRows, this, assignRow_eq hp.2, ih (fun q hq => h q (by simp [hq]))]

/-- **C60, dictionaries.** The table of an ES/PSO population has one row per individual, in order, each holding
the individual's own position and its own fitness. -/
theorem C60_dict_table {pop : List (ℤ × Member K)} (hk : (pop.map Prod.fst).Nodup) {d : ℕ}
    (h0 : 0 ∈ pop.map Prod.fst) (hd : ∀ p ∈ pop, p.2.x.length = d) :
    getPopulationDict pop = .ok (pop.map (fun p => (p.2.x, p.2.f))) := by
  obtain ⟨p0, hp0, hp1⟩ := List.mem_map.1 h0
  have : pop.lookup 0 = some p0.2 := lookup_of_mem_nodup hk (by rw [← hp1]; exact hp0)
  simp only [getPopulationDict, this]
  rw [hd p0 hp0]
  exact dictRows_eq pop hk d pop (fun p hp => ⟨hp, hd p hp⟩)

private theorem listRows_eq {d : ℕ} {pop : List (List K)} {fits : List K} (hl : fits.length = pop.length)
    (hd : ∀ x ∈ pop, x.length = d) : listRows d pop fits = .ok (pop.zip fits) := by
  induction pop generalizing fits with
  | nil => simp [listRows]
  | cons x xs ih =>
    cases fits with
    | nil => simp at hl
    | cons f fs =>
      simp only [listRows, assignRow_eq (hd x (by simp)), ih (by simpa using hl) (fun y hy => hd y (by simp [hy])),
        List.zip_cons_cons]

/-- **C60, lists.** The table of a list population pairs the i-th vector with the i-th fitness; unequal lengths are refused. -/
theorem C60_list_table {pop : List (List K)} {fits : List K} (hne : pop ≠ []) {d : ℕ} (hd : ∀ x ∈ pop, x.length = d) :
    (fits.length = pop.length → getPopulationList pop fits = .ok (pop.zip fits)) ∧
    (fits.length ≠ pop.length → getPopulationList pop fits = .error .assertion) := by
  cases pop with
  | nil => exact absurd rfl hne
  | cons x xs =>
    constructor
    · intro hl
      simp only [getPopulationList, hl, if_true]
      rw [hd x (by simp)]
      exact listRows_eq hl hd
    · intro hl
      simp only [getPopulationList, hl, if_false]

private theorem nsgaRows_eq (minMode : Bool) (pop : List (ℤ × MMember K)) (hk : (pop.map Prod.fst).Nodup) (d p : ℕ) :
    ∀ sub : List (ℤ × MMember K), (∀ q ∈ sub, q ∈ pop ∧ q.2.x.length = d ∧ q.2.f.length = p) →
      nsgaRows minMode pop d p (sub.map Prod.fst) =
        .ok (sub.map (fun q => (q.2.x, if minMode then q.2.f.map (fun v => -v) else q.2.f))) := by
  intro sub
  induction sub with
  | nil => intro _; rfl
  | cons q qs ih =>
    intro h
    have hp := h q (by simp)
    have h1 : pop.lookup q.1 = some q.2 := lookup_of_mem_nodup hk hp.1
    have h2 : (if minMode then q.2.f.map (fun v => -v) else q.2.f).length = p := by
      cases minMode <;> simp [hp.2.2]
    simp only [List.map_cons, nsgaRows, h1, assignRow_eq hp.2.1, assignRow_eq h2, ih (fun r hr => h r (by simp [hr]))]

/-- **C60, multi-objective.** If every member stores the user's objective vector (negated in `min` mode, as the optimiser
does), the table lists for every individual its position and the user's own objective vector. -/
theorem C60_nsga_table {minMode : Bool} {pop : List (ℤ × MMember K)} (hk : (pop.map Prod.fst).Nodup) {d p : ℕ}
    (h0 : 0 ∈ pop.map Prod.fst) (hd : ∀ q ∈ pop, q.2.x.length = d ∧ q.2.f.length = p)
    (user : List K → List K) (hu : ∀ q ∈ pop, q.2.f = if minMode then (user q.2.x).map (fun v => -v) else user q.2.x) :
    getPopulationNsga minMode pop = .ok (pop.map (fun q => (q.2.x, user q.2.x))) := by
  obtain ⟨p0, hp0, hp1⟩ := List.mem_map.1 h0
  have : pop.lookup 0 = some p0.2 := lookup_of_mem_nodup hk (by rw [← hp1]; exact hp0)
  simp only [getPopulationNsga, this]
  rw [(hd p0 hp0).1, (hd p0 hp0).2, nsgaRows_eq minMode pop hk d p pop (fun q hq => ⟨hq, hd q hq⟩)]
  congr 1
  apply List.map_congr_left
  intro q hq
  rw [hu q hq]
  cases minMode <;> simp

end

/-! ### Concrete cases -/

/-- A mixed space with a float, an int and two grid variables. -/
def demoBounds : Bounds ℚ :=
  [("a", .float 0 1), ("b", .int 3 6), ("c", .grid [.float (1/10), .float (2/10)]),
   ("d", .grid [.str "blend", .str "cx2point"])]

example : (demoBounds.map Prod.fst).Nodup := by decide
example : GridsDistinct demoBounds := by
  intro k vals h
  simp [demoBounds] at h
  rcases h with ⟨_, rfl⟩ | ⟨_, rfl⟩
  · norm_num [Val.pyEq, Val.canon]
  · simp [Val.pyEq, Val.canon]
example : InSpace demoBounds [.float (1/2), .pyint 4, .float (2/10), .str "blend"] := by
  refine .cons ⟨1/2, rfl, by norm_num, by norm_num⟩ (.cons ⟨4, rfl, by norm_num, by norm_num⟩
    (.cons ⟨.float (2/10), by simp, rfl⟩ (.cons ⟨.str "blend", by simp, rfl⟩ .nil)))
example : encodeIndv (encodeBounds demoBounds).2 demoBounds [.float (1/2), .pyint 4, .float (2/10), .str "blend"]
    = .ok [.float (1/2), .pyint 4, .pyint 1, .pyint 0] := by decide +kernel
example : getPopulationDict [(0, ⟨[1, 2], [0, 0], (5 : ℚ)⟩), (1, ⟨[3, 4], [0, 0], 7⟩)]
    = .ok [([1, 2], 5), ([3, 4], 7)] := by decide +kernel

end Neorl

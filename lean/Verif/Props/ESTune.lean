import Verif.ESTune
import Verif.Props.ES
import Verif.Props.Grid

/-!
# C105: evolutionary hyperparameter search
-/

set_option linter.unusedSectionVars false
set_option linter.unusedVariables false

namespace Neorl.ESTune

section
variable {K : Type} [Field K] [LinearOrder K] [IsStrictOrderedRing K] [FloorRing K]

/-- A point of the encoded space is a member of the encoded bounds. -/
theorem inSpace_toVals {nb : Bounds K} (hng : ∀ b ∈ nb, ∀ vals, b.2 ≠ .grid vals) {x : List K}
    (hb : InBox (nb.map fun b => specBounds b.2) x)
    (hi : ∀ (d : ℕ) (y : K), (nb.map fun b => specType b.2)[d]? = some VType.int → x[d]? = some y → ∃ n : ℤ, y = n) : InSpace nb (toVals nb x) := by
  induction nb generalizing x with
  | nil => cases hb; exact List.Forall₂.nil
  | cons b nb ih =>
    cases hb with
    | cons h1 h2 =>
      rename_i y xs
      refine List.Forall₂.cons ?_ (ih (fun b' hb' => hng b' (List.mem_cons_of_mem _ hb')) h2 fun d y' hd hy' => hi (d + 1) y' (by simpa using hd) (by simpa using hy'))
      obtain ⟨k, s⟩ := b
      cases s with
      | grid vals => exact absurd rfl (hng _ List.mem_cons_self vals)
      | int l u =>
        obtain ⟨n, rfl⟩ := hi 0 y rfl rfl
        simp only [specBounds] at h1
        refine ⟨n, ?_, h1.1, h1.2⟩
        simp [Val.num?, truncZ_intCast]
      | float l u => exact ⟨y, rfl, h1.1, h1.2⟩

theorem encode_nogrid (bs : Bounds K) : ∀ b ∈ (encodeBounds bs).1, ∀ vals, b.2 ≠ .grid vals := by
  induction bs with
  | nil => intro b hb; cases hb
  | cons b bs ih =>
    obtain ⟨k, s⟩ := b
    cases s <;>
    · intro b' hb' vals
      simp only [encodeBounds, List.mem_cons] at hb'
      rcases hb' with rfl | hb'
      · simp
      · exact ih b' hb' vals

/-- Decoding never fails on points of the encoded space. -/
theorem decode_ok {expf : K → K} {bs : Bounds K} (hk : (bs.map Prod.fst).Nodup) {x : List K} (hx : (space expf bs).Feasible x) :
    ∃ v, decode bs x = .ok v ∧ InSpace bs v ∧ ∀ f, fitOf bs f x = f v := by
  obtain ⟨v, h1, h2, -⟩ := C05_decode_encode hk (inSpace_toVals (encode_nogrid bs) hx.1 hx.2)
  refine ⟨v, h1, h2, fun f => ?_⟩
  unfold fitOf
  rw [show decode bs x = .ok v from h1]

theorem firstMax_mem {l : List (ES.Ind K)} : ∀ {b}, ES.firstMax l = some b → b ∈ l := by
  induction l with
  | nil => intro b h; cases h
  | cons e es ih =>
    intro b h
    simp only [ES.firstMax] at h
    split at h
    · cases h; exact List.mem_cons_self
    · rename_i b' hb'
      split_ifs at h <;> cases h
      · exact List.mem_cons_of_mem _ (ih hb')
      · exact List.mem_cons_self

/-- What a generation adds, when there are no RL vectors. -/
theorem run_succ {c : ES.Conf K} {fit : List K → K} {dr : ℕ → ℕ → ES.Draw K} {pop0 : List (List K × List K)} {g : ℕ} {s : ES.State K}
    (h : ES.run c fit dr (fun _ => []) pop0 (g + 1) = .ok s) :
    ∃ s0 os b, ES.run c fit dr (fun _ => []) pop0 g = .ok s0 ∧ s.log = s0.log ++ os ∧ s.scores = s0.scores ++ [fit b.ind] ∧ ES.firstMax s.pop = some b ∧ b.ind ∈ os := by
  simp only [ES.run] at h
  split at h
  · cases h
  rename_i s0 hs0
  unfold ES.gen at h
  split at h
  · cases h
  rename_i os hos
  simp only at h
  split at h
  · cases h
  rename_i pop hpop
  split at h
  · cases h
  rename_i b hb
  cases h
  have hp : pop = ES.select c.mu (os.map fun o => ({ ind := o.1, strat := o.2, fit := fit o.1 } : ES.Ind K)) := by
    unfold ES.mixRL at hpop
    simp [ES.replFirst] at hpop
    exact hpop.symm
  have hm := firstMax_mem hb
  rw [hp] at hm
  obtain ⟨o, ho, e⟩ := List.mem_map.1 (ES.mem_select hm)
  refine ⟨s0, os.map (fun o => o.1), b, hs0, rfl, ?_, hb, ?_⟩
  · show s0.scores ++ [b.fit] = _
    rw [← e]
  · rw [← e]
    exact List.mem_map.2 ⟨o, ho, rfl⟩

theorem bestIndvs_ok {c : ES.Conf K} {fit : List K → K} {dr : ℕ → ℕ → ES.Draw K} {pop0 : List (List K × List K)}
    (hlen : ∀ g s, ES.run c fit dr (fun _ => []) pop0 g = .ok s → s.log.length = g * c.lam ∧ s.scores.length = g) : ∀ {n : ℕ} {l : List (List K)} {s : ES.State K},
    bestIndvs c fit dr pop0 n = .ok l → ES.run c fit dr (fun _ => []) pop0 n = .ok s →
    l.length = n ∧ ∀ (g : ℕ) x, l[g]? = some x → x ∈ (s.log.drop (g * c.lam)).take c.lam ∧ s.scores[g]? = some (fit x) := by
  intro n
  induction n with
  | zero =>
    intro l s h1 h2
    cases h1
    exact ⟨rfl, fun g x h => by simp at h⟩
  | succ n ih =>
    intro l s h1 h2
    obtain ⟨s0, os, b, e1, e2, e3, e4, e5⟩ := run_succ h2
    simp only [bestIndvs] at h1
    split at h1
    · cases h1
    rename_i l0 hl0
    rw [h2] at h1
    simp only [e4] at h1
    cases h1
    obtain ⟨i1, i2⟩ := ih hl0 e1
    obtain ⟨k1, k2⟩ := hlen n s0 e1
    obtain ⟨k3, k4⟩ := hlen (n + 1) s h2
    have hos : os.length = c.lam := by
      rw [e2, List.length_append, k1] at k3
      have : (n + 1) * c.lam = n * c.lam + c.lam := by ring
      omega
    refine ⟨by simp [i1], fun g x hx => ?_⟩
    rcases Nat.lt_or_ge g n with hg | hg
    · rw [List.getElem?_append_left (by omega)] at hx
      obtain ⟨j1, j2⟩ := i2 g x hx
      constructor
      · have hle : g * c.lam + c.lam ≤ n * c.lam := by
          have : (g + 1) * c.lam ≤ n * c.lam := Nat.mul_le_mul_right _ hg
          rw [Nat.add_mul, one_mul] at this
          exact this
        rw [e2, List.drop_append_of_le_length (by rw [k1]; omega), List.take_append_of_le_length (by rw [List.length_drop, k1]; omega)]
        exact j1
      · rw [e3, List.getElem?_append_left (by omega)]
        exact j2
    · have hgl : g < (l0 ++ [b.ind]).length := (List.getElem?_eq_some_iff.1 hx).1
      simp only [List.length_append, i1, List.length_cons, List.length_nil] at hgl
      obtain rfl : g = n := by omega
      rw [List.getElem?_append_right (by omega), i1, Nat.sub_self] at hx
      simp only [List.getElem?_cons_zero, Option.some.injEq] at hx
      subst hx
      constructor
      · rw [e2, ← k1, List.drop_left, List.take_of_length_le (by omega)]
        exact e5
      · rw [e3, List.getElem?_append_right (by omega), k2, Nat.sub_self]
        rfl

/-- The initial population: ten random points of the encoded space with strategies between 0.01 and 0.5. -/
structure Start (expf : K → K) (bs : Bounds K) (pop0 : List (List K × List K)) : Prop where
  feas : ∀ p ∈ pop0, (space expf bs).Feasible p.1
  strat : ∀ p ∈ pop0, p.2.length = bs.length ∧ ∀ v ∈ p.2, 1 / 100 ≤ v ∧ v ≤ 1 / 2

theorem length_encode (bs : Bounds K) : (encodeBounds bs).1.length = bs.length := by
  have := congrArg List.length (C05_encoded_bounds bs).1
  simpa using this

theorem Start.es {expf : K → K} {bs : Bounds K} {pop0 : List (List K × List K)} (h : Start expf bs pop0) (ngen : ℕ) :
    ∀ p ∈ pop0, p.1.length = (conf expf bs ngen).S.bounds.length ∧ p.2.length = (conf expf bs ngen).S.bounds.length ∧
      ∀ v ∈ p.2, (conf expf bs ngen).smin ≤ v ∧ v ≤ (conf expf bs ngen).smax := fun p hp => by
  refine ⟨(h.feas p hp).1.length_eq, ?_, (h.strat p hp).2⟩
  show p.2.length = ((encodeBounds bs).1.map _).length
  rw [List.length_map, length_encode, (h.strat p hp).1]

theorem table_aux {expf : K → K} {bs : Bounds K} (hk : (bs.map Prod.fst).Nodup) (hS : (space expf bs).OK) {m : Bool} {f : List (Val K) → K} {ngen : ℕ}
    {dr : ℕ → ℕ → ES.Draw K} {pop0 : List (List K × List K)} (h0 : Start expf bs pop0) {r : Result K} (h : tune expf bs m f ngen dr pop0 = .ok r) :
    ∃ calls : List (List (Val K)), r.calls = calls.map .ok ∧ (∀ v ∈ calls, InSpace bs v) ∧ calls.length = 10 * (ngen + 1) ∧ r.table.length = ngen ∧
      ∀ (g : ℕ) row, r.table[g]? = some row → (∃ x, (space expf bs).Feasible x ∧ row.params = toVals (encodeBounds bs).1 x) ∧ row.id = g + 1 ∧
        ∃ v ∈ (calls.drop (10 * (g + 1))).take 10,
        decodeIndv (encodeBounds bs).2 bs row.params = .ok v ∧ row.score = f v ∧ ∀ w ∈ (calls.drop (10 * (g + 1))).take 10, NotWorse m (f w) row.score := by
  unfold tune at h
  simp only at h
  split at h
  · cases h
  rename_i e he
  split at h
  · cases h
  rename_i l hl
  cases h
  have hs : (conf expf bs ngen).smin ≤ (conf expf bs ngen).smax := by show (1 / 100 : K) ≤ 1 / 2; norm_num
  obtain ⟨-, -, q1, q2, q3, q4, -⟩ := ES.C14_evolute (c := conf expf bs ngen) hS hs (fun g v hv => absurd hv (List.not_mem_nil)) (fun g => by show 0 < 10; omega) (h0.es ngen) he
  have q1 : e.log.length = 10 * ngen := q1
  -- the run behind the result
  have hp0 : pop0.length = 10 ∧ ∃ s, ES.run (conf expf bs ngen) (fun x => sgn (!m) (fitOf bs f x)) dr (fun _ => []) pop0 ngen = .ok s ∧ e.log = s.log ∧ e.locals = s.scores.map (sgn (!m)) := by
    unfold ES.evolute at he
    split_ifs at he with hass
    split at he
    · cases he
    rename_i s hs'
    split at he
    · cases he
    cases he
    refine ⟨?_, s, hs', rfl, rfl⟩
    by_contra hc
    exact hass (Or.inr (Or.inr hc))
  obtain ⟨hp, s, hs', hlog, hloc⟩ := hp0
  obtain ⟨b1, b2⟩ := bestIndvs_ok (fun g s hgs => by
    have hi := (ES.run_inv (c := conf expf bs ngen) hS hs (le_refl _) (fun g v hv => absurd hv (List.not_mem_nil)) (h0.es ngen) hgs).1
    exact ⟨hi.len, hi.nscores⟩) hl hs'
  -- all evaluated vectors are feasible, so they decode
  have hall : ∀ x ∈ pop0.map (fun p => p.1) ++ e.log, (space expf bs).Feasible x := by
    intro x hx
    rcases List.mem_append.1 hx with hx | hx
    · obtain ⟨p, hp, rfl⟩ := List.mem_map.1 hx
      exact h0.feas p hp
    · exact q2 x hx
  let D : List K → List (Val K) := fun x => match decode bs x with | .ok v => v | .error _ => []
  have hD : ∀ x, (space expf bs).Feasible x → decode bs x = .ok (D x) ∧ InSpace bs (D x) ∧ fitOf bs f x = f (D x) := by
    intro x hx
    obtain ⟨v, hv, hv2, hv3⟩ := decode_ok hk hx
    have : D x = v := by simp only [D, hv]
    rw [this]
    exact ⟨hv, hv2, hv3 f⟩
  have hblk : ∀ g, (((pop0.map (fun p => p.1) ++ e.log).map D).drop (10 * (g + 1))).take 10 = ((e.log.drop (g * 10)).take 10).map D := by
    intro g
    rw [← List.map_drop, ← List.map_take, show 10 * (g + 1) = (pop0.map fun p => p.1).length + g * 10 by rw [List.length_map, hp]; ring, ← List.drop_drop, List.drop_left]
  refine ⟨(pop0.map (fun p => p.1) ++ e.log).map D, ?_, ?_, ?_, ?_, ?_⟩
  · rw [List.map_map]
    exact List.map_congr_left fun x hx => (hD x (hall x hx)).1
  · intro v hv
    obtain ⟨x, hx, rfl⟩ := List.mem_map.1 hv
    exact (hD x (hall x hx)).2.1
  · rw [List.length_map, List.length_append, List.length_map, hp, q1]; ring
  · rw [List.length_zipWith, List.length_mapIdx, b1, q4]
    exact Nat.min_self _
  · intro g row hrow
    rw [hblk]
    simp only [List.getElem?_zipWith, List.getElem?_mapIdx] at hrow
    cases hx : l[g]? with
    | none => simp [hx] at hrow
    | some x =>
      cases hy : e.locals[g]? with
      | none => simp [hx, hy] at hrow
      | some y =>
        simp only [hx, hy, Option.map_some, Option.some.injEq] at hrow
        subst hrow
        obtain ⟨c1, c2⟩ := b2 g x hx
        rw [← hlog] at c1
        have hxf : (space expf bs).Feasible x := q2 x (List.mem_of_mem_drop (List.mem_of_mem_take c1))
        have hyx : y = f (D x) := by
          rw [hloc, List.getElem?_map, c2] at hy
          simp only [Option.map_some, Option.some.injEq, sgn_sgn] at hy
          rw [← hy, (hD x hxf).2.2]
        refine ⟨⟨x, hxf, rfl⟩, rfl, D x, List.mem_map.2 ⟨x, c1, rfl⟩, (hD x hxf).1, hyx, fun w hw => ?_⟩
        obtain ⟨z, hz, rfl⟩ := List.mem_map.1 hw
        have h1 := (q3 g y hy).2 z (by rw [Nat.zero_add]; exact hz)
        rw [(hD z (q2 z (List.mem_of_mem_drop (List.mem_of_mem_take hz)))).2.2] at h1
        exact h1

/-- **C105.** The table of the evolutionary search: one row per generation, numbered from 1; the decoded parameters of row `g` are among the ten cases of generation `g`, the score is the user's
function at them, and no case of that generation is better.  All cases are members of the hyperparameter space.  The function is called `10 * (ngen + 1)` times (the documentation
says `10 * ngen`): the first ten cases are in no row. -/
theorem C105_table {expf : K → K} {bs : Bounds K} (hk : (bs.map Prod.fst).Nodup) (hS : (space expf bs).OK) {m : Bool} {f : List (Val K) → K} {ngen : ℕ}
    {dr : ℕ → ℕ → ES.Draw K} {pop0 : List (List K × List K)} (h0 : Start expf bs pop0) {r : Result K} (h : tune expf bs m f ngen dr pop0 = .ok r) :
    ∃ calls : List (List (Val K)), r.calls = calls.map .ok ∧ (∀ v ∈ calls, InSpace bs v) ∧ calls.length = 10 * (ngen + 1) ∧ r.table.length = ngen ∧
      ∀ (g : ℕ) row, r.table[g]? = some row → row.id = g + 1 ∧ ∃ v ∈ (calls.drop (10 * (g + 1))).take 10,
        decodeIndv (encodeBounds bs).2 bs row.params = .ok v ∧ row.score = f v ∧ ∀ w ∈ (calls.drop (10 * (g + 1))).take 10, NotWorse m (f w) row.score := by
  obtain ⟨calls, a1, a2, a3, a4, a5⟩ := table_aux hk hS h0 h
  exact ⟨calls, a1, a2, a3, a4, fun g row hrow => (a5 g row hrow).2⟩

/-- **C105.** Without grids a row shows the very values the function was called with. -/
theorem C105_plain {bs : Bounds K} (hng : ∀ b ∈ bs, ∀ vals, b.2 ≠ .grid vals) {y v : List (Val K)} (hy : y.length = bs.length)
    (h : decodeIndv (encodeBounds bs).2 bs y = .ok v) : v = y := by
  have key : ∀ (mp : BMap K) (bs : Bounds K) (y v : List (Val K)), (∀ b ∈ bs, ∀ vals, b.2 ≠ .grid vals) → y.length = bs.length → decodeIndv mp bs y = .ok v → y = v := by
    intro mp bs
    induction bs with
    | nil => intro y v _ hy h; cases h; exact List.length_eq_zero_iff.1 hy
    | cons b bs ih =>
      intro y v hng hy h
      cases y with
      | nil => cases hy
      | cons a y =>
        obtain ⟨k, s⟩ := b
        cases s with
        | grid vals => exact absurd rfl (hng _ List.mem_cons_self vals)
        | int l u =>
          simp only [decodeIndv] at h
          split at h
          · cases h
          rename_i r hr
          cases h
          rw [ih y r (fun b hb => hng b (List.mem_cons_of_mem _ hb)) (by simpa using hy) hr]
        | float l u =>
          simp only [decodeIndv] at h
          split at h
          · cases h
          rename_i r hr
          cases h
          rw [ih y r (fun b hb => hng b (List.mem_cons_of_mem _ hb)) (by simpa using hy) hr]
  exact (key _ _ _ _ hng hy h).symm

theorem encode_grid (bs : Bounds K) : ∀ (i : ℕ) k vals, bs[i]? = some (k, Spec.grid vals) → (encodeBounds bs).1[i]? = some (k, .int 0 ((vals.length : K) - 1)) := by
  induction bs with
  | nil => intro i k vals h; simp at h
  | cons b bs ih =>
    intro i k vals h
    obtain ⟨k0, s0⟩ := b
    cases i with
    | zero =>
      simp only [List.getElem?_cons_zero, Option.some.injEq, Prod.mk.injEq] at h
      obtain ⟨rfl, rfl⟩ := h
      rfl
    | succ i =>
      have := ih i k vals (by simpa using h)
      cases s0 <;> simpa [encodeBounds] using this

theorem grid_aux (mp : BMap K) : ∀ (bs : Bounds K) (y v : List (Val K)), (∀ k vals, (k, Spec.grid vals) ∈ bs → mapGet mp k = .ok (gridDict 0 vals)) → InSpace (encodeBounds bs).1 y →
    decodeIndv mp bs y = .ok v → ∀ (i : ℕ) k vals, bs[i]? = some (k, .grid vals) → ∃ (w : Val K) (j : ℕ), y[i]? = some w ∧ w.num? = some (j : K) ∧ j < vals.length ∧ v[i]? = vals[j]? := by
  intro bs
  induction bs with
  | nil => intro y v _ _ _ i k vals hi; simp at hi
  | cons b bs ih =>
    intro y v hm hy h i k vals hi
    obtain ⟨k0, s0⟩ := b
    cases y with
    | nil => cases s0 <;> (simp only [encodeBounds] at hy; cases hy)
    | cons a y =>
      have hm' : ∀ k vals, (k, Spec.grid vals) ∈ bs → mapGet mp k = .ok (gridDict 0 vals) := fun k vals hk => hm k vals (List.mem_cons_of_mem _ hk)
      cases s0 with
      | grid vals0 =>
        simp only [decodeIndv, hm k0 vals0 List.mem_cons_self] at h
        split at h
        · cases h
        rename_i d hd
        split at h
        · cases h
        rename_i r hr
        cases h
        simp only [encodeBounds] at hy
        cases hy with
        | cons h1 h2 =>
          cases i with
          | succ i => exact ih y r hm' h2 hr i k vals (by simpa using hi)
          | zero =>
            simp only [List.getElem?_cons_zero, Option.some.injEq, Prod.mk.injEq, Spec.grid.injEq] at hi
            obtain ⟨rfl, rfl⟩ := hi
            obtain ⟨n, hn1, hn2, hn3⟩ := h1
            have h0 : 0 ≤ n := by exact_mod_cast hn2
            have hlt : n < vals0.length := by
              have h3 : (n : K) < vals0.length := by linarith
              exact_mod_cast h3
            obtain ⟨j, rfl⟩ := Int.eq_ofNat_of_zero_le h0
            have hlt' : j < vals0.length := by omega
            have hnum : a.num? = some (j : K) := by rw [hn1]; simp
            refine ⟨a, j, rfl, hnum, hlt', ?_⟩
            have hc : Val.pyEq (Val.pyint ((0 + j : ℕ) : ℤ)) a := by
              unfold Val.pyEq
              cases a <;> simp only [Val.num?, Option.some.injEq, reduceCtorEq] at hnum <;> simp only [Val.canon] <;> rw [hnum] <;> simp
            have hf := find_gridDict 0 vals0 a j hc
            rw [List.getElem?_eq_getElem hlt'] at hf ⊢
            unfold dictGet at hd
            rw [hf] at hd
            simp only [Option.map_some] at hd
            cases hd
            rfl
      | int l u =>
        simp only [decodeIndv] at h
        split at h
        · cases h
        rename_i r hr
        cases h
        simp only [encodeBounds] at hy
        cases hy with
        | cons h1 h2 =>
          cases i with
          | succ i => exact ih y r hm' h2 hr i k vals (by simpa using hi)
          | zero => simp at hi
      | float l u =>
        simp only [decodeIndv] at h
        split at h
        · cases h
        rename_i r hr
        cases h
        simp only [encodeBounds] at hy
        cases hy with
        | cons h1 h2 =>
          cases i with
          | succ i => exact ih y r hm' h2 hr i k vals (by simpa using hi)
          | zero => simp at hi

/-- **C105 (defect).** For a grid parameter the table does not show the value but its position in the grid. -/
theorem C105_grid {expf : K → K} {bs : Bounds K} (hk : (bs.map Prod.fst).Nodup) (hS : (space expf bs).OK) {m : Bool} {f : List (Val K) → K} {ngen : ℕ}
    {dr : ℕ → ℕ → ES.Draw K} {pop0 : List (List K × List K)} (h0 : Start expf bs pop0) {r : Result K} (h : tune expf bs m f ngen dr pop0 = .ok r)
    {i : ℕ} {k : String} {vals : List (Val K)} (hi : bs[i]? = some (k, .grid vals)) :
    ∀ row ∈ r.table, ∀ v, decodeIndv (encodeBounds bs).2 bs row.params = .ok v → ∃ j : ℕ, row.params[i]? = some (.pyint j) ∧ j < vals.length ∧ v[i]? = vals[j]? := by
  intro row hrow v hv
  obtain ⟨calls, -, -, -, -, a5⟩ := table_aux hk hS h0 h
  obtain ⟨g, hg⟩ := List.mem_iff_getElem?.1 hrow
  obtain ⟨⟨x, hx, hp⟩, -⟩ := a5 g row hg
  have hy := inSpace_toVals (encode_nogrid bs) hx.1 hx.2
  rw [← hp] at hy
  obtain ⟨w, j, w1, w2, w3, w4⟩ := grid_aux _ bs row.params v (fun _ _ h => mapGet_encodeBounds hk h) hy hv i k vals hi
  refine ⟨j, ?_, w3, w4⟩
  have hs1 := encode_grid bs i k vals hi
  rw [w1]
  rw [hp] at w1
  unfold toVals at w1
  rw [List.getElem?_zipWith, hs1] at w1
  cases hxi : x[i]? with
  | none => simp [hxi] at w1
  | some y =>
    simp only [hxi, Option.some.injEq] at w1
    subst w1
    simp only [Val.num?, Option.some.injEq] at w2
    have : truncZ y = (j : ℤ) := by exact_mod_cast w2
    simp only [this]

theorem genOne_cx {c : ES.Conf K} (hb : c.blend = false) (h1 : c.S.bounds.length ≤ 1) {d : ES.Draw K} {pop : List (ES.Ind K)} (hl : ES.LenOK c pop)
    (hc : d.rn < c.cxpb) : ∀ r, ES.genOne c d pop ≠ .ok r := by
  intro r h
  unfold ES.genOne at h
  simp only at h
  rw [if_pos hc] at h
  rw [hb] at h
  simp only [Bool.false_eq_true, if_false] at h
  split_ifs at h with h2
  split at h
  · rename_i p q hp hq
    have hsz : min p.ind.length q.ind.length ≤ 1 := by
      rw [(hl p (List.mem_of_getElem? hp)).1]
      exact (min_le_left _ _).trans h1
    unfold ES.cx2point ES.cxPoints at h
    rw [if_pos hsz] at h
    cases h
  · cases h

theorem genLoop_cx {c : ES.Conf K} (hS : c.S.OK) (hs : c.smin ≤ c.smax) (hb : c.blend = false) (h1 : c.S.bounds.length ≤ 1) {dr : ℕ → ES.Draw K} : ∀ (k i : ℕ)
    (pop : List (ES.Ind K)) (os : List (List K × List K)), ES.LenOK c pop → ES.genLoop c dr i k pop = .ok os → ∀ j < k, c.cxpb ≤ (dr (i + j)).rn := by
  intro k
  induction k with
  | zero => intro i pop os _ _ j hj; omega
  | succ k ih =>
    intro i pop os hl h j hj
    simp only [ES.genLoop] at h
    split at h
    · cases h
    rename_i o pop' ho
    split at h
    · cases h
    rename_i os' hos
    cases j with
    | zero =>
      by_contra hc
      exact genOne_cx hb h1 hl (not_le.1 hc) _ ho
    | succ j =>
      have := ih (i + 1) pop' os' (ES.genOne_ok hS hs hl ho).2.2.1 hos j (by omega)
      rwa [show i + 1 + j = i + (j + 1) by ring] at this

/-- **C105 (defect).** With a single hyperparameter the search survives only when not one of its draws selects crossover, which happens with probability `0.7` for each of
the ten cases of every generation: two-point crossover needs two positions. -/
theorem C105_single {expf : K → K} {bs : Bounds K} (hS : (space expf bs).OK) (h1 : bs.length = 1) {m : Bool} {f : List (Val K) → K} {ngen : ℕ}
    {dr : ℕ → ℕ → ES.Draw K} {pop0 : List (List K × List K)} (h0 : Start expf bs pop0) {r : Result K} (h : tune expf bs m f ngen dr pop0 = .ok r) :
    ∀ g < ngen, ∀ i < 10, 7 / 10 ≤ (dr g i).rn := by
  unfold tune at h
  simp only at h
  split at h
  · cases h
  rename_i e he
  have hs : (conf expf bs ngen).smin ≤ (conf expf bs ngen).smax := by show (1 / 100 : K) ≤ 1 / 2; norm_num
  have hbl : (conf expf bs ngen).S.bounds.length ≤ 1 := by
    show ((encodeBounds bs).1.map _).length ≤ 1
    rw [List.length_map, length_encode, h1]
  have key : ∀ (n : ℕ) s, ES.run (conf expf bs ngen) (fun x => sgn (!m) (fitOf bs f x)) dr (fun _ => []) pop0 n = .ok s → ∀ g < n, ∀ i < 10, 7 / 10 ≤ (dr g i).rn := by
    intro n
    induction n with
    | zero => intro s _ g hg; omega
    | succ n ih =>
      intro s hr g hg i hi
      simp only [ES.run] at hr
      split at hr
      · cases hr
      rename_i s0 hs0
      rcases Nat.lt_or_ge g n with hgn | hgn
      · exact ih s0 hs0 g hgn i hi
      obtain rfl : g = n := by omega
      have hinv := (ES.run_inv (c := conf expf bs ngen) hS hs (le_refl _) (fun g v hv => absurd hv (List.not_mem_nil)) (h0.es ngen) hs0).1
      unfold ES.gen ES.genOffspring at hr
      split at hr
      · cases hr
      rename_i os hos
      split at hos
      · cases hos
      rename_i os' hos'
      have := genLoop_cx hS hs rfl hbl _ _ _ _ hinv.lens hos' i hi
      rwa [Nat.zero_add] at this
  unfold ES.evolute at he
  split_ifs at he
  split at he
  · cases he
  rename_i s hs'
  exact key ngen s hs'

theorem run_pred {c : ES.Conf K} {fit : List K → K} {dr : ℕ → ℕ → ES.Draw K} {pop0 : List (List K × List K)} : ∀ (n : ℕ) (s : ES.State K),
    ES.run c fit dr (fun _ => []) pop0 n = .ok s → ∃ l, bestIndvs c fit dr pop0 n = .ok l := by
  intro n
  induction n with
  | zero => intro s _; exact ⟨_, rfl⟩
  | succ n ih =>
    intro s h
    obtain ⟨s0, os, b, e1, e2, e3, e4, e5⟩ := run_succ h
    obtain ⟨l, hl⟩ := ih s0 e1
    refine ⟨l ++ [b.ind], ?_⟩
    simp only [bestIndvs, hl, h, e4]

/-- **C105.** With two or more hyperparameters and at least one generation the search always returns its table. -/
theorem C105_total {expf : K → K} {bs : Bounds K} (hS : (space expf bs).OK) (h2 : 2 ≤ bs.length) {m : Bool} {f : List (Val K) → K} {ngen : ℕ} (hg : 1 ≤ ngen)
    {dr : ℕ → ℕ → ES.Draw K} (hd : ∀ g i, ES.PickOK (space expf bs) (dr g i).md) {pop0 : List (List K × List K)} (hn : pop0.length = 10) (h0 : Start expf bs pop0) :
    ∃ r, tune expf bs m f ngen dr pop0 = .ok r := by
  have hs : (conf expf bs ngen).smin ≤ (conf expf bs ngen).smax := by show (1 / 100 : K) ≤ 1 / 2; norm_num
  have hbl : 2 ≤ (conf expf bs ngen).S.bounds.length := by
    show 2 ≤ ((encodeBounds bs).1.map _).length
    rw [List.length_map, length_encode]
    exact h2
  obtain ⟨e, he⟩ := ES.C14_total (c := conf expf bs ngen) hS hs (le_refl _) (by show 2 ≤ 10; omega) (by show (7 / 10 : K) + 1 / 4 ≤ 1; norm_num) hg (Or.inr hbl) (m := m)
    (userFit := fitOf bs f) hd (rl := fun _ => []) (fun g v hv => absurd hv (List.not_mem_nil)) (fun g => by simp) hn (h0.es ngen)
  have hrun : ∃ s, ES.run (conf expf bs ngen) (fun x => sgn (!m) (fitOf bs f x)) dr (fun _ => []) pop0 ngen = .ok s := by
    unfold ES.evolute at he
    split_ifs at he
    split at he
    · cases he
    rename_i s hs'
    exact ⟨s, hs'⟩
  obtain ⟨s, hs'⟩ := hrun
  obtain ⟨l, hl⟩ := run_pred ngen s hs'
  unfold tune
  simp only [he, hl]
  exact ⟨_, rfl⟩

end

/-! ### Concrete runs -/

def exB : Bounds ℚ := [("lr", .float 0 1), ("batch", .grid [.pyint 16, .pyint 64, .pyint 256])]
def exF : List (Val ℚ) → ℚ
  | [.float a, .pyint b] => a + b
  | _ => 0
def exP : List (List ℚ × List ℚ) := (List.range 10).map fun (i : ℕ) => ([(i : ℚ) / 10, ((i % 3 : ℕ) : ℚ)], [1 / 10, 1 / 5])

example : (space (fun x => x) exB).OK := Space.ok_of_okB (by decide +kernel)
example : (exB.map Prod.fst).Nodup := by decide
example : exP.length = 10 := by decide

example : Start (fun x => x) exB exP := by
  have h : ∀ p ∈ exP, (∃ a b : ℚ, p.1 = [a, b] ∧ 0 ≤ a ∧ a ≤ 1 ∧ (b = 0 ∨ b = 1 ∨ b = 2)) ∧ p.2 = [1 / 10, 1 / 5] := by
    intro p hp
    obtain ⟨i, hi, rfl⟩ := List.mem_map.1 hp
    have hi := List.mem_range.1 hi
    refine ⟨⟨_, _, rfl, ?_, ?_, ?_⟩, rfl⟩
    · positivity
    · have : (i : ℚ) ≤ 10 := by exact_mod_cast hi.le
      linarith
    · have : i % 3 = 0 ∨ i % 3 = 1 ∨ i % 3 = 2 := by omega
      rcases this with h | h | h <;> rw [h] <;> norm_num
  constructor
  · intro p hp
    obtain ⟨⟨a, b, e, ha, ha', hb⟩, -⟩ := h p hp
    rw [e]
    refine ⟨List.Forall₂.cons ⟨ha, ha'⟩ (List.Forall₂.cons ?_ List.Forall₂.nil), ?_⟩
    · rcases hb with rfl | rfl | rfl <;> norm_num [specBounds]
    · intro d y hd hy
      match d, hd, hy with
      | 0, hd, _ => simp [space, exB, encodeBounds, specType] at hd
      | 1, _, hy =>
        simp only [List.getElem?_cons_succ, List.getElem?_cons_zero, Option.some.injEq] at hy
        subst hy
        rcases hb with rfl | rfl | rfl
        · exact ⟨0, by norm_num⟩
        · exact ⟨1, by norm_num⟩
        · exact ⟨2, by norm_num⟩
      | d + 2, hd, _ => simp [space, exB, encodeBounds, specType] at hd
  · intro p hp
    obtain ⟨-, e⟩ := h p hp
    rw [e]
    refine ⟨rfl, fun v hv => ?_⟩
    simp only [List.mem_cons, List.not_mem_nil, or_false] at hv
    rcases hv with rfl | rfl <;> norm_num

/-- The best of 40 is reached with batch size 256, which the table shows as 2; the thirty calls are ten initial ones and two generations of ten. -/
example : (match tune (fun x => x) exB false exF 2 ES.exDr exP with
    | .ok r => decide (r.calls.length = 30 ∧ r.table.length = 2 ∧ ∃ row ∈ r.table, row.params[1]? = some (.pyint 2)) | _ => false) = true := by decide +kernel

/-- A single hyperparameter with a crossover draw. -/
example : tune (fun x => x) ([("lr", .float 0 1)] : Bounds ℚ) false (fun _ => 0) 1 ES.exDr (exP.map fun p => (p.1.take 1, p.2.take 1)) = .error .valueError := by
  have : (match tune (fun x => x) ([("lr", .float 0 1)] : Bounds ℚ) false (fun _ => 0) 1 ES.exDr (exP.map fun p => (p.1.take 1, p.2.take 1)) with
    | .error .valueError => true | _ => false) = true := by decide +kernel
  split at this
  · assumption
  · cases this

end Neorl.ESTune

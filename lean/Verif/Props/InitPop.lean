import Verif.InitPop
import Verif.Props.Informed
import Verif.Props.GWO
import Verif.Props.PSO
import Verif.Props.JAYA
import Verif.GARun

/-!
# Property theorems C137: initial populations
-/

set_option linter.unusedSectionVars false
set_option linter.unusedVariables false

namespace Neorl.InitPop
open Neorl Neorl.Informed

section
variable {K : Type} [Field K] [LinearOrder K] [IsStrictOrderedRing K] [FloorRing K]

/-- Specification: a variable has at least one value, and the ends of an integer range are integers. -/
def SpecOK : Spec K → Prop
  | .grid vals => vals ≠ []
  | .int lo hi => (∃ m : ℤ, lo = m) ∧ (∃ n : ℤ, hi = n) ∧ lo ≤ hi
  | .float lo hi => lo ≤ hi

/-- Specification: all variables are usable. -/
def BoundsFine (bs : Bounds K) : Prop := ∀ b ∈ bs, SpecOK b.2

/-- Specification: `random.random()` lies in `[0, 1)`. -/
def DrawOK (d : Draw K) : Prop := 0 ≤ d.u ∧ d.u < 1

/-- Specification: the point `p` of the user's space is written `y` in the space that is searched. -/
def Stands (bs : Bounds K) (y p : Row K) : Prop := ∃ p', decodeIndv (encodeBounds bs).2 bs y = .ok p' ∧ SameIndv p' p

/-- Specification: a feasible point of the searched space, as numbers. -/
def Sound (bs : Bounds K) (y : Row K) : Prop := ∃ v, nums y = .ok v ∧ (space bs).Feasible v

theorem check_take {bs : Bounds K} {x : List (Val K)} (hn : ∀ v ∈ x, v.NotNp) :
    checkIndv bs x = .ok () ↔ bs.length ≤ x.length ∧ InSpace bs (x.take bs.length) := by
  induction bs generalizing x with
  | nil => simp [checkIndv, InSpace]
  | cons b bs ih =>
    obtain ⟨k, s⟩ := b
    cases x with
    | nil => simp [checkIndv, InSpace]
    | cons v xs =>
      have hv := checkVar_iff (s := s) (hn v (by simp))
      have hxs := ih (x := xs) (fun w hw => hn w (by simp [hw]))
      simp only [checkIndv, InSpace, List.length_cons, List.take_succ_cons, List.forall₂_cons, add_le_add_iff_right] at *
      cases hc : checkVar s v with
      | error e =>
        rw [hc] at hv
        simp only [reduceCtorEq, false_iff] at hv ⊢
        exact fun h => hv h.2.1
      | ok u =>
        rw [hc] at hv
        have : s.Member v := hv.1 rfl
        simp only [this, true_and]
        exact hxs

/-- Members of the encoded space are numbers inside the box, integers where needed. -/
theorem sound_of_inSpace {bs : Bounds K} {y : Row K} (h : InSpace (encodeBounds bs).1 y) : Sound bs y := by
  suffices H : ∃ v, nums y = .ok v ∧ InBox (space bs).bounds v ∧ ∀ (d : ℕ) z, (space bs).types[d]? = some VType.int → v[d]? = some z → ∃ n : ℤ, z = n by
    obtain ⟨v, h1, h2, h3⟩ := H
    exact ⟨v, h1, h2, h3⟩
  have hng : ∀ b ∈ (encodeBounds bs).1, ∀ vals, b.2 ≠ .grid vals := by
    clear h
    induction bs with
    | nil => simp [encodeBounds]
    | cons b bs ih =>
      obtain ⟨k, s⟩ := b
      cases s <;> (intro b hb vals; simp only [encodeBounds, List.mem_cons] at hb; rcases hb with rfl | hb; · simp
                   · exact ih b hb vals)
  simp only [space]
  unfold InSpace at h
  unfold InBox
  revert h hng
  generalize (encodeBounds bs).1 = cs
  intro h hng
  induction h with
  | nil => exact ⟨[], rfl, .nil, by simp⟩
  | cons h1 _ ih =>
    rename_i b x cs xs ht
    obtain ⟨k, s⟩ := b
    obtain ⟨v, g1, g2, g3⟩ := ih (fun b hb => hng b (by simp [hb]))
    cases s with
    | grid vals => exact absurd rfl (hng (k, .grid vals) (by simp) vals)
    | int l u =>
      obtain ⟨n, e1, e2, e3⟩ := h1
      refine ⟨(n : K) :: v, by simp only [nums, e1, g1], .cons ⟨e2, e3⟩ g2, ?_⟩
      intro d z hd hz
      cases d with
      | zero => simp at hz; exact ⟨n, hz.symm⟩
      | succ d => exact g3 d z (by simpa using hd) (by simpa using hz)
    | float l u =>
      obtain ⟨w, e1, e2, e3⟩ := h1
      refine ⟨w :: v, by simp only [nums, e1, g1], .cons ⟨e2, e3⟩ g2, ?_⟩
      intro d z hd hz
      cases d with
      | zero => simp [Env.specT] at hd
      | succ d => exact g3 d z (by simpa using hd) (by simpa using hz)

theorem nums_float (v : List K) : nums (v.map .float) = .ok v := by
  induction v with
  | nil => rfl
  | cons x xs ih => simp only [List.map_cons, nums, Val.num?, ih]

/-- Conversely: a feasible vector of numbers is a member of the encoded space. -/
theorem inSpace_of_feasible {bs : Bounds K} {v : List K} (h : (space bs).Feasible v) : InSpace (encodeBounds bs).1 (v.map .float) := by
  obtain ⟨h1, h2⟩ := h
  have h3 : ∀ (d : ℕ) z, ((encodeBounds bs).1.map (fun b => Env.specT b.2))[d]? = some VType.int → v[d]? = some z → ∃ n : ℤ, z = n := h2
  clear h2
  have hng : ∀ b ∈ (encodeBounds bs).1, ∀ vals, b.2 ≠ .grid vals := by
    clear h1 h3
    induction bs with
    | nil => simp [encodeBounds]
    | cons b bs ih =>
      obtain ⟨k, s⟩ := b
      cases s <;> (intro b hb vals; simp only [encodeBounds, List.mem_cons] at hb; rcases hb with rfl | hb; · simp
                   · exact ih b hb vals)
  simp only [space, InBox] at h1
  unfold InSpace
  revert h1 h3 hng
  generalize (encodeBounds bs).1 = cs
  intro h1 h3 hng
  induction cs generalizing v with
  | nil => cases h1; exact .nil
  | cons b cs ih =>
    obtain ⟨k, s⟩ := b
    cases h1 with
    | cons g1 g2 =>
      rename_i x xs
      refine .cons ?_ (ih g2 (fun d z hd hz => h3 (d + 1) z (by simpa using hd) (by simpa using hz)) (fun b hb => hng b (by simp [hb])))
      cases s with
      | grid vals => exact absurd rfl (hng (k, .grid vals) (by simp) vals)
      | int l u =>
        obtain ⟨n, rfl⟩ := h3 0 x (by simp [Env.specT]) (by simp)
        exact ⟨n, rfl, g1⟩
      | float l u => exact ⟨x, rfl, g1⟩

theorem randint_ok {lo hi : K} (h : SpecOK (.int lo hi)) (z : ℕ) : ∃ n : ℤ, randint lo hi z = .ok (.pyint n) ∧ lo ≤ n ∧ (n : K) ≤ hi := by
  obtain ⟨⟨m, rfl⟩, ⟨n, rfl⟩, hl⟩ := h
  have hl' : m ≤ n := by exact_mod_cast hl
  refine ⟨m + ((z % (n - m + 1).toNat : ℕ) : ℤ), ?_, ?_, ?_⟩
  · unfold randint
    simp only [Int.floor_intCast, hl, and_self, if_true]
  · have : (m : ℤ) ≤ m + ((z % (n - m + 1).toNat : ℕ) : ℤ) := by omega
    exact_mod_cast this
  · have hp : 0 < (n - m + 1).toNat := by omega
    have := Nat.mod_lt z hp
    have : m + ((z % (n - m + 1).toNat : ℕ) : ℤ) ≤ n := by omega
    exact_mod_cast this

theorem encode_fine {bs : Bounds K} (hb : BoundsFine bs) : BoundsFine (encodeBounds bs).1 ∧ ∀ b ∈ (encodeBounds bs).1, ∀ vals, b.2 ≠ .grid vals := by
  induction bs with
  | nil => simp [encodeBounds, BoundsFine]
  | cons b bs ih =>
    obtain ⟨k, s⟩ := b
    obtain ⟨i1, i2⟩ := ih (fun b h => hb b (by simp [h]))
    have h0 := hb (k, s) (by simp)
    cases s with
    | grid vals =>
      refine ⟨?_, ?_⟩
      · intro b hm
        simp only [encodeBounds, List.mem_cons] at hm
        rcases hm with rfl | hm
        · have : 1 ≤ vals.length := List.length_pos_iff.2 h0
          refine ⟨⟨0, by simp⟩, ⟨(vals.length : ℤ) - 1, by simp⟩, ?_⟩
          have : ((1 : ℕ) : K) ≤ (vals.length : K) := by exact_mod_cast this
          push_cast at this
          linarith
        · exact i1 b hm
      · intro b hm w
        simp only [encodeBounds, List.mem_cons] at hm
        rcases hm with rfl | hm
        · simp
        · exact i2 b hm w
    | int l u =>
      refine ⟨?_, ?_⟩
      · intro b hm
        simp only [encodeBounds, List.mem_cons] at hm
        rcases hm with rfl | hm
        · exact h0
        · exact i1 b hm
      · intro b hm w
        simp only [encodeBounds, List.mem_cons] at hm
        rcases hm with rfl | hm
        · simp
        · exact i2 b hm w
    | float l u =>
      refine ⟨?_, ?_⟩
      · intro b hm
        simp only [encodeBounds, List.mem_cons] at hm
        rcases hm with rfl | hm
        · exact h0
        · exact i1 b hm
      · intro b hm w
        simp only [encodeBounds, List.mem_cons] at hm
        rcases hm with rfl | hm
        · simp
        · exact i2 b hm w

/-- A generator run over usable variables (grid variables only if it knows them). -/
theorem genIndv_ok {g : Gen} {cs : Bounds K} (hc : BoundsFine cs) (hng : g ≠ .plain ∨ ∀ b ∈ cs, ∀ vals, b.2 ≠ .grid vals) {d : ℕ → Draw K}
    (hd : ∀ j, DrawOK (d j)) :
    ∃ y, genIndv g (cs.map (fun b => .known b.2)) d = .ok y ∧ InSpace cs y := by
  induction cs generalizing d with
  | nil => exact ⟨[], rfl, .nil⟩
  | cons b cs ih =>
    obtain ⟨k, s⟩ := b
    obtain ⟨r, hr, hs⟩ := ih (fun b h => hc b (by simp [h])) (hng.imp_right fun h b hb => h b (by simp [hb])) (fun j => hd (j + 1))
    have h0 := hc (k, s) (by simp)
    suffices H : ∃ v, genVar g (.known s) (d 0) = .ok [v] ∧ s.Member v by
      obtain ⟨v, h1, h2⟩ := H
      exact ⟨v :: r, by simp only [List.map_cons, genIndv, h1, hr, List.singleton_append], .cons h2 hs⟩
    cases s with
    | grid vals =>
      have hp : g ≠ .plain := hng.elim id (fun h => absurd rfl (h (k, .grid vals) (by simp) vals))
      have hl : (d 0).z % vals.length < vals.length := Nat.mod_lt _ (List.length_pos_iff.2 h0)
      refine ⟨vals[(d 0).z % vals.length], ?_, ⟨_, List.getElem_mem hl, rfl⟩⟩
      simp only [genVar, if_neg hp, pick, List.getElem?_eq_getElem hl]
    | int l u =>
      obtain ⟨n, h1, h2, h3⟩ := randint_ok h0 (d 0).z
      exact ⟨.pyint n, by simp only [genVar, h1], n, rfl, h2, h3⟩
    | float l u =>
      have h0' : l ≤ u := h0
      obtain ⟨u0, u1⟩ := hd 0
      refine ⟨_, rfl, _, rfl, ?_, ?_⟩
      · nlinarith [mul_nonneg (sub_nonneg.2 h0') u0]
      · nlinarith [mul_le_mul_of_nonneg_left u1.le (sub_nonneg.2 h0')]

/-- **C137, random start.** Without guesses every optimiser starts, whatever the draws, with the requested number of individuals; each is a feasible point of
the searched space (integers where the variable is discrete) and stands for a point of the user's space. -/
theorem C137_random {bs : Bounds K} (hk : (bs.map Prod.fst).Nodup) (hb : BoundsFine bs) (st : Store) (g : Gen) (n : ℕ) {dr : ℕ → ℕ → Draw K}
    (hd : ∀ i j, DrawOK (dr i j)) :
    ∃ pop, initial st g bs n [] dr = .ok pop ∧ pop.length = n ∧
      ∀ y ∈ pop, Sound bs y ∧ y.length = bs.length ∧ ∃ p, InSpace bs p ∧ Stands bs y p := by
  obtain ⟨e1, e2⟩ := encode_fine hb
  have hi : ∀ i, ∃ y, genIndv g (kinds bs) (dr i) = .ok y ∧ InSpace (encodeBounds bs).1 y := fun i => genIndv_ok e1 (.inr e2) (hd i)
  obtain ⟨pop, hp⟩ := mapRows_total (P := fun _ => True) (f := fun _ i => genIndv g (kinds bs) (dr i)) (i := 0) (xs := List.range n) (by simp)
    (fun k i _ => ⟨_, (hi i).choose_spec.1⟩)
  obtain ⟨h1, h2⟩ := GARun.mapRows_range hp
  refine ⟨pop, hp, h1, ?_⟩
  intro y hy
  obtain ⟨k, hk'⟩ := List.mem_iff_getElem?.1 hy
  have hy' := h2 k y hk'
  obtain ⟨y', g1, g2⟩ := hi k
  rw [hy'] at g1
  cases g1
  refine ⟨sound_of_inSpace g2, ?_, ?_⟩
  · have := g2.length_eq
    have h3 := congrArg List.length (C05_encoded_bounds bs).1
    simp only [List.length_map] at h3
    omega
  · obtain ⟨p, q1, q2, _⟩ := C05_decode_encode hk g2
    exact ⟨p, q2, p, q1, List.forall₂_same.2 (fun _ _ => rfl)⟩

/-- **C137, everything can be drawn.** Each point of the searched space whose discrete coordinates are Python integers and whose continuous
coordinates are below their upper bound (or equal to it if the range is one point) is what the generators return for some draws. -/
theorem C137_reaches {g : Gen} {cs : Bounds K} (hng : ∀ b ∈ cs, ∀ vals, b.2 ≠ .grid vals) {y : Row K}
    (hy : List.Forall₂ (fun (b : String × Spec K) v => match b.2 with
      | .int lo hi => (∃ m : ℤ, lo = m) ∧ (∃ n : ℤ, hi = n) ∧ ∃ n : ℤ, v = .pyint n ∧ lo ≤ n ∧ (n : K) ≤ hi
      | .float lo hi => ∃ x : K, v = .float x ∧ lo ≤ x ∧ (x < hi ∨ x = lo)
      | .grid _ => False) cs y) :
    ∃ d : ℕ → Draw K, (∀ j, DrawOK (d j)) ∧ genIndv g (cs.map (fun b => .known b.2)) d = .ok y := by
  induction hy with
  | nil => exact ⟨fun _ => ⟨0, 0⟩, fun _ => ⟨le_refl _, zero_lt_one⟩, rfl⟩
  | cons h _ ih =>
    rename_i b v cs ys ht
    obtain ⟨k, s⟩ := b
    obtain ⟨d, h1, h2⟩ := ih (fun b hb => hng b (by simp [hb]))
    suffices H : ∃ e : Draw K, DrawOK e ∧ genVar g (.known s) e = .ok [v] by
      obtain ⟨e, g1, g2⟩ := H
      refine ⟨fun j => match j with | 0 => e | j + 1 => d j, ?_, ?_⟩
      · intro j; cases j with
        | zero => exact g1
        | succ j => exact h1 j
      · simp only [List.map_cons, genIndv, g2, h2, List.singleton_append]
    cases s with
    | grid vals => exact h.elim
    | int lo hi =>
      obtain ⟨⟨m, rfl⟩, ⟨n, rfl⟩, i, rfl, h3, h4⟩ := h
      have h3' : m ≤ i := by exact_mod_cast h3
      have h4' : i ≤ n := by exact_mod_cast h4
      refine ⟨⟨0, (i - m).toNat⟩, ⟨le_refl _, zero_lt_one⟩, ?_⟩
      have hle : ((m : ℤ) : K) ≤ ((n : ℤ) : K) := by exact_mod_cast h3'.trans h4'
      simp only [genVar, randint, Int.floor_intCast, hle, and_self, if_true]
      rw [Nat.mod_eq_of_lt (by omega)]
      congr 3
      omega
    | float lo hi =>
      obtain ⟨x, rfl, h3, h4⟩ := h
      rcases eq_or_lt_of_le h3 with rfl | h5
      · exact ⟨⟨0, 0⟩, ⟨le_refl _, zero_lt_one⟩, by simp [genVar, uniform]⟩
      · have h6 : x < hi := h4.elim id (fun e => absurd e h5.ne')
        have hpos : 0 < hi - lo := by linarith
        refine ⟨⟨(x - lo) / (hi - lo), 0⟩, ⟨div_nonneg (by linarith) hpos.le, by rw [div_lt_one hpos]; linarith⟩, ?_⟩
        simp only [genVar, uniform]
        congr 3
        field_simp
        ring

theorem hasGrid_false {bs : Bounds K} (h : hasGrid bs = false) : (encodeBounds bs).1 = bs ∧ ∀ (m : BMap K) (x : Row K), x.length = bs.length → decodeIndv m bs x = .ok x := by
  induction bs with
  | nil => exact ⟨rfl, fun m x hx => by rw [List.length_eq_zero_iff.1 hx]; rfl⟩
  | cons b bs ih =>
    obtain ⟨k, s⟩ := b
    simp only [hasGrid, List.any_cons, Bool.or_eq_false_iff] at h
    obtain ⟨i1, i2⟩ := ih h.2
    cases s with
    | grid vals => simp at h
    | int l u =>
      refine ⟨by simp only [encodeBounds, i1], ?_⟩
      intro m x hx
      cases x with
      | nil => simp at hx
      | cons a x => simp only [decodeIndv, i2 m x (by simpa using hx)]
    | float l u =>
      refine ⟨by simp only [encodeBounds, i1], ?_⟩
      intro m x hx
      cases x with
      | nil => simp at hx
      | cons a x => simp only [decodeIndv, i2 m x (by simpa using hx)]

/-- Same numbers, other Python type. -/
theorem decode_congr {m : BMap K} {bs : Bounds K} {x y p : Row K} (h : List.Forall₂ (fun a b : Val K => a.pyEq b) x y) (hx : decodeIndv m bs x = .ok p) :
    ∃ q, decodeIndv m bs y = .ok q ∧ SameIndv q p := by
  induction bs generalizing x y p with
  | nil =>
    simp only [decodeIndv] at hx
    cases hx
    exact ⟨[], rfl, .nil⟩
  | cons b bs ih =>
    obtain ⟨k, s⟩ := b
    cases h with
    | nil => cases s <;> simp [decodeIndv] at hx
    | cons h1 h2 =>
      rename_i a b x y
      cases s with
      | grid vals =>
        simp only [decodeIndv] at hx ⊢
        split at hx
        · cases hx
        · rename_i dd hm
          split at hx
          · cases hx
          · rename_i v hv
            split at hx
            · cases hx
            · rename_i r hr
              cases hx
              obtain ⟨q, q1, q2⟩ := ih h2 hr
              have : dictGet dd b = .ok v := by
                rw [← hv]
                have hf : (fun p : ℤ × Val K => decide (Val.pyEq (Val.pyint p.1) b)) = fun p : ℤ × Val K => decide (Val.pyEq (Val.pyint p.1) a) := by
                  funext p
                  rw [decide_eq_decide]
                  exact ⟨fun h => h.trans h1.symm, fun h => h.trans h1⟩
                unfold dictGet
                rw [hf]
              exact ⟨v :: q, by simp only [this, q1], .cons rfl q2⟩
      | int l u =>
        simp only [decodeIndv] at hx ⊢
        split at hx
        · cases hx
        · rename_i r hr
          cases hx
          obtain ⟨q, q1, q2⟩ := ih h2 hr
          exact ⟨b :: q, by simp only [q1], .cons h1.symm q2⟩
      | float l u =>
        simp only [decodeIndv] at hx ⊢
        split at hx
        · cases hx
        · rename_i r hr
          cases hx
          obtain ⟨q, q1, q2⟩ := ih h2 hr
          exact ⟨b :: q, by simp only [q1], .cons h1.symm q2⟩

theorem nums_pyEq {x : Row K} {v : List K} (h : nums x = .ok v) : List.Forall₂ (fun a b : Val K => a.pyEq b) x (v.map .float) := by
  induction x generalizing v with
  | nil => cases h; exact .nil
  | cons a x ih =>
    simp only [nums] at h
    split at h
    · cases h
    · rename_i z hz
      split at h
      · cases h
      · rename_i r hr
        cases h
        refine .cons ?_ (ih hr)
        cases a <;> simp_all [Val.pyEq, Val.canon, Val.num?]

theorem same_trans {x y z : Row K} (h1 : SameIndv x y) (h2 : SameIndv y z) : SameIndv x z := by
  induction h1 generalizing z with
  | nil => exact h2
  | cons a _ ih => cases h2 with | cons b c => exact .cons (a.trans b) (ih c)

/-- One member of the user's space is taken over, in the encoding of the search. -/
theorem givenRow_ok (st : Store) {bs : Bounds K} (hk : (bs.map Prod.fst).Nodup) (hd : GridsDistinct bs) {r : Row K} (hr : InSpace bs r)
    (hn : ∀ v ∈ r, v.NotNp) : ∃ y, givenRow st bs r = .ok y ∧ Sound bs y ∧ y.length = bs.length ∧ Stands bs y r := by
  have hl : r.length = bs.length := hr.length_eq.symm
  have hc := (C06_check_iff hl hn).2 hr
  have H : ∃ e, (if hasGrid bs = true then encodeIndv (encodeBounds bs).2 bs r else .ok r) = .ok e ∧ InSpace (encodeBounds bs).1 e ∧ Stands bs e r := by
    cases hg : hasGrid bs with
    | true =>
      obtain ⟨y, h1, h2, x', h3, h4⟩ := C05_encode_decode hk hd hr
      exact ⟨y, by rw [if_pos rfl, h1], h2, x', h3, h4⟩
    | false =>
      obtain ⟨g1, g2⟩ := hasGrid_false hg
      exact ⟨r, by rw [if_neg (by simp)], by rw [g1]; exact hr, r, g2 _ _ hl, List.forall₂_same.2 (fun _ _ => rfl)⟩
  obtain ⟨e, h1, h2, h3⟩ := H
  have hel : e.length = bs.length := by
    have := h2.length_eq
    have h4 := congrArg List.length (C05_encoded_bounds bs).1
    simp only [List.length_map] at h4
    omega
  obtain ⟨v, s1, s2⟩ := sound_of_inSpace h2
  cases st with
  | list => exact ⟨e, by simp only [givenRow, hc, h1, storeRow], ⟨v, s1, s2⟩, hel, h3⟩
  | matrix =>
    have hvl : v.length = bs.length := by
      have := (nums_pyEq s1).length_eq
      simp only [List.length_map] at this
      omega
    refine ⟨v.map .float, by simp only [givenRow, hc, h1, storeRow, s1, if_pos hvl], ⟨v, nums_float v, s2⟩, by simpa using hvl, ?_⟩
    obtain ⟨p', q1, q2⟩ := h3
    obtain ⟨q, w1, w2⟩ := decode_congr (nums_pyEq s1) q1
    exact ⟨q, w1, same_trans w2 q2⟩

/-- **C137, given start.** As many guesses as individuals, all in the user's space, are taken over one by one and in order: individual `i` stands for
guess `i`, and is feasible. -/
theorem C137_given (st : Store) (g : Gen) {bs : Bounds K} (hk : (bs.map Prod.fst).Nodup) (hd : GridsDistinct bs) {x0 : List (Row K)} (hne : x0 ≠ [])
    (hx : ∀ r ∈ x0, InSpace bs r ∧ ∀ v ∈ r, v.NotNp) (dr : ℕ → ℕ → Draw K) :
    ∃ pop, initial st g bs x0.length x0 dr = .ok pop ∧ pop.length = x0.length ∧
      ∀ (i : ℕ) y, pop[i]? = some y → Sound bs y ∧ y.length = bs.length ∧ ∃ r, x0[i]? = some r ∧ Stands bs y r := by
  cases x0 with
  | nil => exact absurd rfl hne
  | cons r0 rs =>
    have hi : ∀ r ∈ r0 :: rs, ∃ y, givenRow st bs r = .ok y ∧ Sound bs y ∧ y.length = bs.length ∧ Stands bs y r :=
      fun r hr => givenRow_ok st hk hd (hx r hr).1 (hx r hr).2
    obtain ⟨pop, hp⟩ := mapRows_total (P := fun r => r ∈ r0 :: rs) (f := fun _ r => givenRow st bs r) (i := 0) (xs := r0 :: rs) (fun _ h => h)
      (fun k r hr => ⟨_, (hi r hr).choose_spec.1⟩)
    obtain ⟨h1, h2⟩ := mapRows_ok hp
    refine ⟨pop, by simp only [initial, if_true]; exact hp, h1, ?_⟩
    intro i y hy
    obtain ⟨r, g1, g2⟩ := h2 i y hy
    obtain ⟨y', q1, q2, q3, q4⟩ := hi r (List.mem_of_getElem? g1)
    have : y = y' := by simpa [q1] using g2.symm
    subst this
    exact ⟨q2, q3, r, g1, q4⟩

/-- **C137, bad guesses are refused.** A run that starts from guesses had as many guesses as individuals, and each guess begins with a point of the user's
space (made of Python numbers); in the optimisers with a matrix of positions and no grid variable each guess has exactly the right length. -/
theorem C137_refuses {st : Store} {g : Gen} {bs : Bounds K} {n : ℕ} {x0 : List (Row K)} (hne : x0 ≠ []) (hn : ∀ r ∈ x0, ∀ v ∈ r, v.NotNp)
    {dr : ℕ → ℕ → Draw K} {pop : List (Row K)} (h : initial st g bs n x0 dr = .ok pop) :
    x0.length = n ∧ pop.length = n ∧ ∀ r ∈ x0, bs.length ≤ r.length ∧ InSpace bs (r.take bs.length) ∧
      (st = .matrix → hasGrid bs = false → 2 ≤ r.length → r.length = bs.length) := by
  cases x0 with
  | nil => exact absurd rfl hne
  | cons r0 rs =>
    simp only [initial] at h
    split_ifs at h with hl
    obtain ⟨h1, h2⟩ := mapRows_ok h
    refine ⟨hl, h1.trans hl, ?_⟩
    intro r hr
    obtain ⟨i, hi⟩ := List.mem_iff_getElem?.1 hr
    have hip : i < pop.length := by rw [h1]; exact (List.getElem?_eq_some_iff.1 hi).1
    obtain ⟨r', g1, g2⟩ := h2 i _ (List.getElem?_eq_getElem hip)
    have : r = r' := by simpa [hi] using g1
    subst this
    unfold givenRow at g2
    split at g2
    · cases g2
    · rename_i hc
      obtain ⟨c1, c2⟩ := (check_take (hn r hr)).1 hc
      refine ⟨c1, c2, ?_⟩
      rintro rfl hg h2'
      rw [hg] at g2
      simp only [Bool.false_eq_true, if_false, storeRow] at g2
      split at g2
      · cases g2
      · rename_i v hv
        have hvl := (nums_pyEq hv).length_eq
        simp only [List.length_map] at hvl
        split_ifs at g2 with q1 q2
        · omega
        · omega

/-- **C137, number of guesses.** A wrong number of guesses is an error before anything is evaluated. -/
theorem C137_wrong_number (st : Store) (g : Gen) (bs : Bounds K) {n : ℕ} {x0 : List (Row K)} (hne : x0 ≠ []) (hl : x0.length ≠ n) (dr : ℕ → ℕ → Draw K) :
    initial st g bs n x0 dr = .error .assertion := by
  cases x0 with
  | nil => exact absurd rfl hne
  | cons r rs => simp only [initial, if_neg hl]

theorem genIndv_error {g : Gen} {ks : List (Kind K)} {d : ℕ → Draw K} {k : Kind K} (hk : k ∈ ks) (he : ∀ e : Draw K, ∃ x, genVar g k e = .error x) :
    ∃ x, genIndv g ks d = .error x := by
  induction ks generalizing d with
  | nil => simp at hk
  | cons k0 ks ih =>
    simp only [genIndv]
    rcases List.mem_cons.1 hk with rfl | hk
    · obtain ⟨x, hx⟩ := he (d 0)
      exact ⟨x, by rw [hx]⟩
    · obtain ⟨x, hx⟩ := ih hk (d := fun j => d (j + 1))
      split
      · exact ⟨_, rfl⟩
      · rw [hx]; exact ⟨_, rfl⟩

/-- **C137, unusable variables.** If an integer variable has an empty range or ends that are not integers, no random individual can be made; a type other
than the three known ones is an error too, except in JAYA and ACO. -/
theorem C137_unusable {g : Gen} {ks : List (Kind K)} {k : Kind K} (hk : k ∈ ks)
    (hbad : (∃ lo hi : K, k = .known (.int lo hi) ∧ ¬ SpecOK (.int lo hi)) ∨ (k = .other ∧ g ≠ .lax) ∨ k = .known (.grid []) ) (d : ℕ → Draw K) :
    ∃ x, genIndv g ks d = .error x := by
  apply genIndv_error hk
  intro e
  rcases hbad with ⟨lo, hi, rfl, hb⟩ | ⟨rfl, hg⟩ | rfl
  · have : ¬ (((⌊lo⌋ : ℤ) : K) = lo ∧ ((⌊hi⌋ : ℤ) : K) = hi ∧ lo ≤ hi) := fun ⟨h1, h2, h3⟩ => hb ⟨⟨⌊lo⌋, h1.symm⟩, ⟨⌊hi⌋, h2.symm⟩, h3⟩
    exact ⟨.valueError, by simp only [genVar, randint, if_neg this]⟩
  · exact ⟨.valueError, by simp only [genVar, if_neg hg]⟩
  · refine ⟨.valueError, ?_⟩
    by_cases hp : g = .plain
    · simp only [genVar, if_pos hp]
    · simp [genVar, pick]

/-- **C137, defect: JAYA and ACO skip a variable of unknown type.** The individual is then shorter than the number of variables, and all later coordinates
stand in the wrong place. -/
theorem C137_skipped_variable {ks : List (Kind K)} {d : ℕ → Draw K} {y : Row K} (h : genIndv .lax ks d = .ok y) :
    y.length = (ks.filter (fun k => match k with | .known _ => true | .other => false)).length := by
  induction ks generalizing d y with
  | nil => cases h; rfl
  | cons k ks ih =>
    simp only [genIndv] at h
    split at h
    · cases h
    · rename_i vs hv
      split at h
      · cases h
      · rename_i r hr
        cases h
        have := ih hr
        cases k with
        | other =>
          simp only [genVar, if_true] at hv
          cases hv
          simpa using this
        | known s =>
          have hvl : vs.length = 1 := by
            cases s with
            | grid vals =>
              simp only [genVar] at hv
              rw [if_neg (by decide)] at hv
              split at hv
              · cases hv
              · cases hv; rfl
            | int l u =>
              simp only [genVar] at hv
              split at hv
              · cases hv
              · cases hv; rfl
            | float l u =>
              simp only [genVar] at hv
              cases hv; rfl
          simp [hvl, this]
          omega

/-- **C137, ES.** Every individual of the first population of ES comes with one strategy value per variable, inside `[smin, smax]`. -/
theorem C137_strategies {bs : Bounds K} {lam : ℕ} {smin smax : K} (hs : smin ≤ smax) {x0 : List (Row K)} {dr : ℕ → ℕ → Draw K} {us : ℕ → ℕ → K}
    (hu : ∀ i j, 0 ≤ us i j ∧ us i j < 1) {pop : List (Row K × List K)} (h : initES bs lam smin smax x0 dr us = .ok pop) :
    initial .list .grids bs lam x0 dr = .ok (pop.map Prod.fst) ∧ ∀ q ∈ pop, q.2.length = bs.length ∧ ∀ s ∈ q.2, smin ≤ s ∧ s ≤ smax := by
  unfold initES at h
  split at h
  · cases h
  · rename_i p hp
    cases h
    refine ⟨?_, ?_⟩
    · rw [hp]
      congr 1
      apply List.ext_getElem?
      intro i
      simp only [List.getElem?_map, List.getElem?_mapIdx, Option.map_map, Function.comp_def, Option.map_id']
    · intro q hq
      obtain ⟨i, hi, rfl⟩ := List.mem_mapIdx.1 hq
      refine ⟨by simp [strategy], ?_⟩
      intro s hs'
      obtain ⟨j, _, rfl⟩ := List.mem_map.1 hs'
      obtain ⟨u0, u1⟩ := hu i j
      constructor
      · nlinarith [mul_nonneg (sub_nonneg.2 hs) u0]
      · nlinarith [mul_le_mul_of_nonneg_left u1.le (sub_nonneg.2 hs)]

/-- **C137, PSO.** The first speed of a particle is `v0` times its position, coordinate by coordinate. -/
theorem C137_speeds {bs : Bounds K} {npar : ℕ} {v0 : K} {x0 : List (Row K)} {dr : ℕ → ℕ → Draw K} {sw : List (Row K × List K)}
    (h : initSwarm bs npar v0 x0 dr = .ok sw) :
    initial .list .grids bs npar x0 dr = .ok (sw.map Prod.fst) ∧ ∀ q ∈ sw, ∃ v, nums q.1 = .ok v ∧ q.2.length = v.length ∧
      ∀ (j : ℕ) x, v[j]? = some x → q.2[j]? = some (v0 * x) := by
  unfold initSwarm at h
  split at h
  · cases h
  · rename_i p hp
    obtain ⟨h1, h2⟩ := mapRows_ok h
    have hw : ∀ (i : ℕ) q, sw[i]? = some q → ∃ r v, p[i]? = some r ∧ nums r = .ok v ∧ q = (r, v.map (fun x => v0 * x)) := by
      intro i q hq
      obtain ⟨r, g1, g2⟩ := h2 i q hq
      unfold withSpeed at g2
      split at g2
      · cases g2
      · rename_i v hv
        cases g2
        exact ⟨r, v, g1, hv, rfl⟩
    refine ⟨?_, ?_⟩
    · rw [hp]
      congr 1
      apply List.ext_getElem?
      intro i
      rw [List.getElem?_map]
      cases hq : sw[i]? with
      | none =>
        rw [List.getElem?_eq_none_iff] at hq
        simp only [Option.map_none]
        rw [List.getElem?_eq_none_iff]
        omega
      | some q =>
        obtain ⟨r, v, g1, g2, rfl⟩ := hw i q hq
        simpa using g1
    · intro q hq
      obtain ⟨i, hi⟩ := List.mem_iff_getElem?.1 hq
      obtain ⟨r, v, g1, g2, rfl⟩ := hw i q hi
      refine ⟨v, g2, by simp, ?_⟩
      intro j x hx
      simp [hx]

/-- The numbers of a population, as the optimisers read them. -/
theorem numRows_initial {bs : Bounds K} {pop : List (Row K)} (h : ∀ y ∈ pop, Sound bs y) : ∃ pos0, numRows pop = .ok pos0 ∧ pos0.length = pop.length ∧
    ∀ v ∈ pos0, (space bs).Feasible v := by
  induction pop with
  | nil => exact ⟨[], rfl, rfl, by simp⟩
  | cons y ys ih =>
    obtain ⟨v, h1, h2⟩ := h y (by simp)
    obtain ⟨vs, g1, g2, g3⟩ := ih (fun z hz => h z (by simp [hz]))
    exact ⟨v :: vs, by simp only [numRows, h1, g1], by simp [g2], by simp only [List.mem_cons, forall_eq_or_imp]; exact ⟨h2, g3⟩⟩

/-- **C137, from the user's arguments to the evaluated points.** Take the user's bounds and either no guesses or as many guesses as individuals, all in
the space.  Then the population starts, and every point that grey wolf, particle swarm or JAYA search evaluates, in all generations, decodes to a point of
the user's own space. -/
theorem C137_end_to_end {bs : Bounds K} (hk : (bs.map Prod.fst).Nodup) (hd : GridsDistinct bs) (hb : BoundsFine bs) (st : Store) (g : Gen) {n : ℕ} {x0 : List (Row K)}
    (hx : x0 = [] ∨ x0.length = n) (hxs : ∀ r ∈ x0, InSpace bs r ∧ ∀ v ∈ r, v.NotNp) {dr : ℕ → ℕ → Draw K} (hdr : ∀ i j, DrawOK (dr i j)) :
    ∃ pop pos0, initial st g bs n x0 dr = .ok pop ∧ numRows pop = .ok pos0 ∧ pos0.length = n ∧
      ∀ (S : Space K), S.OK → S.bounds = (space bs).bounds → S.types = (space bs).types →
        (∀ (c : GWO.Conf K) m userFit d r, c.S = S → GWO.evolute c m userFit d pos0 = .ok r → ∀ x ∈ r.log, ∃ p, InSpace bs p ∧ Stands bs (x.map .float) p) ∧
        (∀ (c : PSO.Conf K) m userFit d r, c.S = S → PSO.evolute c m userFit d pos0 = .ok r → ∀ x ∈ r.log, ∃ p, InSpace bs p ∧ Stands bs (x.map .float) p) ∧
        (∀ (c : JAYA.Conf K) m userFit d r, c.S = S → JAYA.evolute c m userFit d pos0 = .ok r → ∀ x ∈ r.log, ∃ p, InSpace bs p ∧ Stands bs (x.map .float) p) := by
  have H : ∃ pop, initial st g bs n x0 dr = .ok pop ∧ pop.length = n ∧ ∀ y ∈ pop, Sound bs y := by
    by_cases hne : x0 = []
    · subst hne
      obtain ⟨pop, h1, h2, h3⟩ := C137_random hk hb st g n hdr
      exact ⟨pop, h1, h2, fun y hy => (h3 y hy).1⟩
    · have hl := hx.resolve_left hne
      subst hl
      obtain ⟨pop, h1, h2, h3⟩ := C137_given st g hk hd hne hxs dr
      refine ⟨pop, h1, h2, fun y hy => ?_⟩
      obtain ⟨i, hi⟩ := List.mem_iff_getElem?.1 hy
      exact (h3 i y hi).1
  obtain ⟨pop, h1, h2, h3⟩ := H
  obtain ⟨pos0, p1, p2, p3⟩ := numRows_initial h3
  refine ⟨pop, pos0, h1, p1, by omega, ?_⟩
  intro S hS e1 e2
  have hto : ∀ v, S.Feasible v ↔ (space bs).Feasible v := by
    intro v
    unfold Space.Feasible Space.Integral
    rw [e1, e2]
  have hfin : ∀ x, S.Feasible x → ∃ p, InSpace bs p ∧ Stands bs (x.map .float) p := by
    intro x hx
    obtain ⟨p, q1, q2, _⟩ := C05_decode_encode hk (inSpace_of_feasible ((hto x).1 hx))
    exact ⟨p, q2, p, q1, List.forall₂_same.2 (fun _ _ => rfl)⟩
  refine ⟨?_, ?_, ?_⟩
  · rintro c m userFit d r rfl h x hx
    have hh := GWO.C16_evolute hS (fun p hp => (hto p).2 (p3 p hp)) h
    exact hfin x (hh.2.2.2.2.1 x hx)
  · rintro c m userFit d r rfl h x hx
    have hh := PSO.C15_evolute hS (fun p hp => (hto p).2 (p3 p hp)) h
    exact hfin x (hh.2.2.2.2.1 x hx)
  · rintro c m userFit d r rfl h x hx
    have hh := JAYA.C21_evolute hS (fun p hp => (hto p).2 (p3 p hp)) h
    exact hfin x (hh.2.2.2.2.2.2.2.2.1 x hx)

/-- **C137, simulated annealing.** As many guesses as chains, all in the space: chain `i` starts at guess `i`. -/
theorem C137_chains {bs : Bounds K} (hk : (bs.map Prod.fst).Nodup) (hd : GridsDistinct bs) {rs : List (Row K)} (hne : rs ≠ [])
    (hx : ∀ r ∈ rs, InSpace bs r ∧ ∀ v ∈ r, v.NotNp) (dr : ℕ → ℕ → Draw K) :
    ∃ pop, (initSA bs rs.length (.nested rs) dr).2 = .ok pop ∧ pop.length = rs.length ∧
      ∀ (i : ℕ) y, pop[i]? = some y → Sound bs y ∧ ∃ r, rs[i]? = some r ∧ Stands bs y r := by
  have hlen : ∀ r ∈ rs, r.length = bs.length := fun r hr => (hx r hr).1.length_eq.symm
  have hloop : ∀ l : List (Row K), (∀ r ∈ l, InSpace bs r ∧ ∀ v ∈ r, v.NotNp) → (chainLoop bs l).2 = .ok () ∧ (chainLoop bs l).1.length = l.length ∧
      ∀ (i : ℕ) y, (chainLoop bs l).1[i]? = some y → Sound bs y ∧ ∃ r, l[i]? = some r ∧ Stands bs y r := by
    intro l
    induction l with
    | nil => intro _; exact ⟨rfl, rfl, by simp [chainLoop]⟩
    | cons r l ih =>
      intro hl
      obtain ⟨i1, i2, i3⟩ := ih (fun q hq => hl q (by simp [hq]))
      obtain ⟨y, g1, g2, _, g3⟩ := givenRow_ok .list hk hd (hl r (by simp)).1 (hl r (by simp)).2
      unfold givenRow at g1
      split at g1
      · cases g1
      · rename_i hc
        split at g1
        · cases g1
        · rename_i e he
          simp only [storeRow] at g1
          cases g1
          simp only [chainLoop, hc, he]
          refine ⟨i1, by simp [i2], ?_⟩
          intro i z hz
          cases i with
          | zero => simp at hz; subst hz; exact ⟨g2, r, rfl, g3⟩
          | succ i => simpa using i3 i z (by simpa using hz)
  obtain ⟨h1, h2, h3⟩ := hloop rs hx
  cases rs with
  | nil => exact absurd rfl hne
  | cons r0 rs =>
    refine ⟨(chainLoop bs (r0 :: rs)).1, ?_, h2, h3⟩
    simp only [initSA, nestedSA]
    rw [if_neg, if_neg (by simp), if_neg, h1]
    · simp only [List.headD_cons, ne_eq, not_not]; exact hlen r0 (by simp)
    · rw [List.any_eq_true]
      rintro ⟨r, hr, hq⟩
      simp only [List.headD_cons] at hq
      exact (of_decide_eq_true hq) ((hlen r hr).trans (hlen r0 (by simp)).symm)

/-- **C137, defect: SA overwrites the user's guesses.** With a grid variable the list `x0` that the user passed holds the *encoded* individuals afterwards. -/
theorem C137_guesses_overwritten {bs : Bounds K} {ncores : ℕ} {rs pop : List (Row K)} {dr : ℕ → ℕ → Draw K} (hne : rs ≠ [])
    (h : (initSA bs ncores (.nested rs) dr).2 = .ok pop) : (initSA bs ncores (.nested rs) dr).1 = .nested pop := by
  cases rs with
  | nil => exact absurd rfl hne
  | cons r0 rs =>
    simp only [initSA, nestedSA] at h ⊢
    split_ifs at h ⊢
    split at h
    · cases h
    · cases h; rfl

/-- **C137, tabu search.** Of several guesses only the last one is used; it becomes the first position. -/
theorem C137_tabu_last {bs : Bounds K} (hk : (bs.map Prod.fst).Nodup) (hd : GridsDistinct bs) {rs : List (Row K)} {last : Row K} (hne : rs.getLast? = some last)
    (hx : ∀ r ∈ rs, InSpace bs r ∧ ∀ v ∈ r, v.NotNp) (swap : Bool) (perm : List ℕ) (d : ℕ → Draw K) :
    ∃ y, initTS bs swap rs.length (.nested rs) perm d = .ok y ∧ Sound bs y ∧ Stands bs y last := by
  have hloop : ∀ (l : List (Row K)) (cur : Row K), (∀ r ∈ l, InSpace bs r ∧ ∀ v ∈ r, v.NotNp) → ∀ z, l.getLast? = some z →
      ∃ y, tabuLoop bs cur l = .ok y ∧ Sound bs y ∧ Stands bs y z := by
    intro l
    induction l with
    | nil => intro _ _ z hz; simp at hz
    | cons r l ih =>
      intro cur hl z hz
      obtain ⟨y, g1, g2, _, g3⟩ := givenRow_ok .list hk hd (hl r (by simp)).1 (hl r (by simp)).2
      simp only [tabuLoop, g1]
      cases l with
      | nil => simp at hz; subst hz; exact ⟨y, rfl, g2, g3⟩
      | cons r' l => exact ih y (fun q hq => hl q (by simp [hq])) z (by simpa using hz)
  cases rs with
  | nil => simp at hne
  | cons r0 rs =>
    obtain ⟨y, h1, h2, h3⟩ := hloop (r0 :: rs) [] hx last hne
    refine ⟨y, ?_, h2, h3⟩
    simp only [initTS, nestedTS]
    rw [if_neg, if_neg (by simp), h1]
    simp only [List.headD_cons, ne_eq, not_not]
    exact (hx r0 (by simp)).1.length_eq.symm

/-- **C137, tabu search.** A single guess may be given without its outer list when one core is used; with several cores it is an error. -/
theorem C137_tabu_single {bs : Bounds K} (hk : (bs.map Prod.fst).Nodup) (hd : GridsDistinct bs) (hne : bs ≠ []) {r : Row K}
    (hr : InSpace bs r) (hn : ∀ v ∈ r, v.NotNp) (swap : Bool) (perm : List ℕ) (d : ℕ → Draw K) :
    (∃ y, initTS bs swap 1 (.flat r) perm d = .ok y ∧ Sound bs y ∧ Stands bs y r) ∧
    ∀ ncores, ncores ≠ 1 → initTS bs swap ncores (.flat r) perm d = .error .typeError := by
  have hl := hr.length_eq
  cases r with
  | nil => cases bs with
    | nil => exact absurd rfl hne
    | cons b bs => simp at hl
  | cons v r =>
    obtain ⟨y, g1, g2, _, g3⟩ := givenRow_ok .list hk hd hr hn
    refine ⟨⟨y, ?_, g2, g3⟩, fun n hn1 => by simp only [initTS, if_neg hn1]⟩
    have h1 : (v :: r).length = bs.length := hl.symm
    simp [initTS, nestedTS, tabuLoop, g1]
    simpa using h1

/-- **C137, tabu search in swap mode.** The random start is a permutation of `1 .. n`, whatever the bounds say. -/
theorem C137_tabu_tour (bs : Bounds K) (ncores : ℕ) {perm : List ℕ} (hp : perm.Perm ((List.range bs.length).map (· + 1))) (d : ℕ → Draw K) :
    ∃ y, initTS bs true ncores .none perm d = .ok y ∧ nums y = .ok (perm.map (fun i : ℕ => (i : K))) ∧ y.length = bs.length := by
  refine ⟨_, rfl, ?_, by simpa using hp.length_eq⟩
  clear hp
  induction perm with
  | nil => rfl
  | cons i l ih => simp only [List.map_cons, nums, Val.num?, ih]; simp

/-- **C137, defect: ACO and XNES do not look at their guesses.** Guesses in the right number (ACO) or of the right length (XNES) are used as they are, whatever
their values. -/
theorem C137_unchecked (bs : Bounds K) (dr : ℕ → ℕ → Draw K) :
    (∀ x0 : List (Row K), x0 ≠ [] → initACO bs x0.length x0 dr = .ok x0) ∧
    (∀ x0 : Row K, x0 ≠ [] → x0.length = bs.length → initXNES bs x0 (dr 0) = .ok x0) := by
  constructor
  · intro x0 h
    cases x0 with
    | nil => exact absurd rfl h
    | cons r rs => simp only [initACO, if_true]
  · intro x0 h hl
    cases x0 with
    | nil => exact absurd rfl h
    | cons r rs => simp only [initXNES, if_pos hl]

end

/-! ### Examples -/

/-- An integer, a continuous and a grid variable. -/
def exB : Bounds ℚ := [("a", .int 1 3), ("b", .float (-1) 1), ("c", .grid [.str "lo", .str "hi"])]

example : (exB.map Prod.fst).Nodup ∧ BoundsFine exB ∧ GridsDistinct exB := by
  refine ⟨by decide, ?_, ?_⟩
  · intro b hb
    simp only [exB, List.mem_cons, List.not_mem_nil, or_false] at hb
    rcases hb with rfl | rfl | rfl
    · exact ⟨⟨1, by simp⟩, ⟨3, by simp⟩, by norm_num⟩
    · show (-1 : ℚ) ≤ 1
      norm_num
    · simp [SpecOK]
  · intro k vals h
    simp only [exB, List.mem_cons, List.not_mem_nil, or_false, Prod.mk.injEq, reduceCtorEq, and_false, false_or, Spec.grid.injEq] at h
    rw [h.2]
    simp [Val.pyEq, Val.canon]

def exD : ℕ → ℕ → Draw ℚ := fun i j => ⟨1 / (i + 2), i + j + 1⟩

example : ∀ i j, DrawOK (exD i j) := by
  intro i j
  have : (0 : ℚ) < i + 2 := by positivity
  exact ⟨by simp only [exD]; positivity, by simp only [exD]; rw [div_lt_one this]; have : (0 : ℚ) ≤ i := Nat.cast_nonneg i; linarith⟩

example : initial .list .plain exB 2 [] exD = .ok [[.pyint 2, .float 0, .pyint 1], [.pyint 3, .float (-1 / 3), .pyint 0]] := by decide +kernel
example : initial .matrix .plain exB 1 [[.pyint 2, .float (1 / 2), .str "hi"]] exD = .ok [[.float 2, .float (1 / 2), .float 1]] := by decide +kernel
example : initial .list .plain exB 1 [[.pyint 2, .float (1 / 2), .str "mid"]] exD = .error .assertion := by decide +kernel
example : initSwarm exB 1 (1 / 2) [[.pyint 2, .float (1 / 2), .str "hi"]] exD = .ok [([.pyint 2, .float (1 / 2), .pyint 1], [1, 1 / 4, 1 / 2])] := by decide +kernel
example : initES exB 1 0 1 [[.pyint 2, .float (1 / 2), .str "hi"]] exD (fun _ _ => 1 / 3) = .ok [([.pyint 2, .float (1 / 2), .pyint 1], [1 / 3, 1 / 3, 1 / 3])] := by
  decide +kernel

/-- **C137, defect, witness: SA started twice with the same list.** The grid values are the numbers 1 and 0.  The first run starts at the value 1 as asked;
the user's list then holds the index of that value, and the second run starts at the value 0.  With values that are not indices the second run fails. -/
theorem C137_second_run : (∃ (bs : Bounds ℚ) (x0 : List (Row ℚ)) (x1 y1 y2 : List (Row ℚ)), ∀ dr : ℕ → ℕ → Draw ℚ,
      initSA bs 1 (.nested x0) dr = (.nested x1, .ok y1) ∧ (initSA bs 1 (.nested x1) dr).2 = .ok y2 ∧ y1 ≠ y2) ∧
    ∃ (bs : Bounds ℚ) (x0 : List (Row ℚ)) (x1 y1 : List (Row ℚ)), ∀ dr : ℕ → ℕ → Draw ℚ,
      initSA bs 1 (.nested x0) dr = (.nested x1, .ok y1) ∧ (initSA bs 1 (.nested x1) dr).2 = .error .assertion := by
  refine ⟨⟨[("c", .grid [.pyint 1, .pyint 0])], [[.pyint 1]], [[.pyint 0]], [[.pyint 0]], [[.pyint 1]], fun dr => ⟨?_, ?_, by decide⟩⟩,
    [("c", .grid [.str "lo", .str "hi"])], [[.str "hi"]], [[.pyint 1]], [[.pyint 1]], fun dr => ⟨?_, ?_⟩⟩
  · rfl
  · rfl
  · rfl
  · rfl

/-- **C137, defect, witness: a list that is too long.** Where individuals are kept in lists (DE, ES, PSO) a guess with a surplus entry is accepted and evaluated as it is. -/
theorem C137_surplus_entry : ∃ (bs : Bounds ℚ) (r : Row ℚ), bs.length = 1 ∧ r.length = 2 ∧ ∀ dr : ℕ → ℕ → Draw ℚ,
    initial .list .plain bs 1 [r] dr = .ok [r] ∧ initial .matrix .plain bs 1 [r] dr = .error .valueError := by
  refine ⟨[("a", .float 0 1)], [.float 0, .float 7], rfl, rfl, fun dr => ⟨?_, ?_⟩⟩
  · rfl
  · rfl

/-- **C137, defect, witness: a tour outside the bounds.** Three variables in `[1, 2]`, swap mode: every random start contains a 3. -/
theorem C137_tour_infeasible : ∃ bs : Bounds ℚ, BoundsFine bs ∧ ∀ (perm : List ℕ), perm.Perm [1, 2, 3] → ∀ (d : ℕ → Draw ℚ) y,
    initTS bs true 1 .none perm d = .ok y → ¬ Sound bs y := by
  refine ⟨[("a", .int 1 2), ("b", .int 1 2), ("c", .int 1 2)], ?_, ?_⟩
  · intro b hb
    simp only [List.mem_cons, List.not_mem_nil, or_false] at hb
    have : SpecOK (.int (1 : ℚ) 2) := ⟨⟨1, by simp⟩, ⟨2, by simp⟩, by norm_num⟩
    rcases hb with rfl | rfl | rfl <;> exact this
  · intro perm hp d y h hs
    obtain ⟨y', h1, h2, _⟩ := C137_tabu_tour [("a", Spec.int (1 : ℚ) 2), ("b", .int 1 2), ("c", .int 1 2)] 1 (perm := perm) hp d
    rw [h] at h1
    cases h1
    obtain ⟨v, g1, g2, _⟩ := hs
    rw [h2] at g1
    cases g1
    have h3 : (3 : ℕ) ∈ perm := hp.mem_iff.2 (by simp)
    obtain ⟨i, hi⟩ := List.mem_iff_getElem?.1 h3
    have hlen : perm.length = 3 := hp.length_eq
    have hi3 : i < 3 := by rw [← hlen]; exact (List.getElem?_eq_some_iff.1 hi).1
    have hle := (List.forall₂_iff_get.1 g2).2 i (by simpa [space, encodeBounds] using hi3) (by simpa [hlen] using hi3)
    have hv : perm[i]'(by omega) = 3 := (List.getElem?_eq_some_iff.1 hi).2
    have h4 := hle.2
    simp only [List.get_eq_getElem, List.getElem_map, hv] at h4
    have : i = 0 ∨ i = 1 ∨ i = 2 := by omega
    rcases this with rfl | rfl | rfl <;> (simp [space, encodeBounds, Env.specB] at h4; norm_num at h4)

end Neorl.InitPop

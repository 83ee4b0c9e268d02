import Verif.Grid
import Verif.Feasible
import Verif.Best
import Mathlib.Data.List.Dedup

/-!
# The RL environment around a fitness function

Model of `neorl/rl/make_env.py` (`action_map`, `ensure_discrete`, the multidiscrete codecs and `BaseEnvironment`).
Simplifications: every number of the encoded vector is kept in `K` (numpy dtypes are not modelled); `list(set(...))` is an arbitrary order of the
different values; the samples of the gym spaces are arbitrary points (of the space, where a theorem needs it); without grid variables the code skips
the decoding, which is then the identity anyway.  `SubprocVecEnv` and seeding are not modelled.
-/

set_option linter.unusedSectionVars false
set_option linter.unusedVariables false

namespace Neorl.Env

section
variable {K : Type} [Field K] [LinearOrder K] [IsStrictOrderedRing K] [FloorRing K]

/-- The method names: `'ppo','a2c','acktr','rneat','fneat'` / `'acer','dqn'` / `'neat'`, line 135. -/
inductive Method
  | policy | value | neat
  deriving DecidableEq

/-- Bounds of an encoded variable, lines 154-155. -/
def specB : Spec K → K × K
  | .int l u => (l, u)
  | .float l u => (l, u)
  | .grid _ => (0, 0)

/-- Type of an encoded variable, line 149. -/
def specT : Spec K → VType
  | .float _ _ => .float
  | _ => .int

/-- Constructor arguments. `order` is the iteration order of the set in `convert_multidiscrete_discrete`. -/
structure Conf (K : Type) where
  method : Method
  orig : Bounds K
  minMode : Bool
  epLen : ℕ
  order : List ℤ → List ℤ

/-- The encoded space, lines 143-155. -/
def Conf.S (c : Conf K) : Space K :=
  { bounds := (encodeBounds c.orig).1.map (fun b => specB b.2), types := (encodeBounds c.orig).1.map (fun b => specT b.2), method := .nearestInt, expf := fun x => x }

/-- `all([item == 'int' for item in self.var_type])`, line 161. -/
def Conf.allInt (c : Conf K) : Bool := c.S.types.all (fun t => decide (t = .int))

/-- `action_map`, lines 43-56. -/
def actionMap (lbn ubn : K) (bounds : List (K × K)) (a : List K) : List K :=
  List.zipWith (fun b x => (x - lbn) * (b.2 - b.1) / (ubn - lbn) + b.1) bounds a

/-- `ensure_discrete`, lines 58-69. -/
def ensureInt (types : List VType) (v : List K) : List K :=
  v.mapIdx fun i x => if types[i]? = some VType.int then ((truncZ x : ℤ) : K) else x

/-- `range(bounds[item][1], bounds[item][2]+1)` (integer bounds). -/
def rangeOf (b : K × K) : List ℤ := pyRange ⌊b.1⌋ (⌊b.2⌋ + 1)

/-- `convert_actions_multidiscrete`, lines 89-108: the sizes of the multidiscrete space. -/
def multiSizes (bounds : List (K × K)) : List ℕ := bounds.map fun b => (rangeOf b).length

/-- `convert_multidiscrete_actions`, lines 110-122; a missing index is a `KeyError`. -/
def decodeMulti : List (K × K) → List ℕ → Py (List K)
  | b :: bs, a :: as =>
    match (rangeOf b)[a]? with
    | none => .error .keyError
    | some z =>
      match decodeMulti bs as with
      | .error e => .error e
      | .ok r => .ok ((z : K) :: r)
  | _, _ => .ok []

/-- `convert_multidiscrete_discrete`, lines 72-87: the values of the single discrete variable. -/
def Conf.discreteMap (c : Conf K) : List ℤ := c.order (c.S.bounds.flatMap rangeOf).dedup

/-- What the agent sends: a vector of the Box space, of the MultiDiscrete space, or an index of the Discrete space. -/
inductive Action (K : Type)
  | vec (a : List K) | multi (a : List ℕ) | disc (a : ℕ)

/-- Mutable attributes of the environment. -/
structure State (K : Type) where
  counter : ℕ
  done : Bool
  index : ℕ
  full : List K

/-- What `step` returns: state, reward, done, `info['x']`. -/
structure Out (K : Type) where
  obs : List K
  reward : K
  done : Bool
  x : List (Val K)

/-- The encoded point of the cont./discrete methods, lines 231-247. -/
def policyPoint (c : Conf K) : Action K → Py (List K)
  | .vec a => if c.allInt then .error .keyError else .ok (c.S.clip (ensureInt c.S.types (actionMap (-1) 1 c.S.bounds a)))
  | .multi a =>
    if c.allInt then
      match decodeMulti c.S.bounds a with
      | .error e => .error e
      | .ok v => .ok (c.S.clip (ensureInt c.S.types v))
    else .error .typeError
  | .disc _ => .error .typeError

/-- The update of `full_action` of the discrete methods, lines 262-275; `rnd` is the draw of `random.randint`, `smp` the sample of the
observation space. -/
def valueStep (c : Conf K) (a rnd : ℕ) (smp : List K) (s : State K) : Py (State K) :=
  if s.index < c.S.bounds.length then
    match c.discreteMap[a]?, c.S.bounds[s.index]? with
    | some v, some b =>
      let z : ℤ := if b.1 ≤ (v : K) ∧ (v : K) ≤ b.2 then v else ⌊b.1⌋ + ((rnd : ℤ) % (⌊b.2⌋ - ⌊b.1⌋ + 1))
      .ok { s with full := s.full.set s.index (z : K), index := s.index + 1 }
    | _, _ => .error .keyError
  else .ok { s with index := 0, full := smp }

/-- `action_mapper`, lines 229-292: the new attributes and the encoded point. -/
def mapper (c : Conf K) (act : Action K) (rnd : ℕ) (smp : List K) (s : State K) : Py (State K × List K) :=
  match c.method with
  | .policy =>
    match policyPoint c act with
    | .error e => .error e
    | .ok v => .ok (s, v)
  | .value =>
    match act with
    | .disc a =>
      match valueStep c a rnd smp s with
      | .error e => .error e
      | .ok s' => .ok (s', s'.full)
    | _ => .error .typeError
  | .neat => .error .unboundLocal

/-- `decode_discrete_to_grid` on the encoded point. -/
def decode (c : Conf K) (v : List K) : Py (List (Val K)) := decodeIndv (encodeBounds c.orig).2 c.orig (v.map Val.float)

/-- `step`, lines 205-213. -/
def step (c : Conf K) (fit : List (Val K) → K) (act : Action K) (rnd : ℕ) (smp : List K) (s : State K) : Py (State K × Out K) :=
  match mapper c act rnd smp s with
  | .error e => .error e
  | .ok (s1, v) =>
    match decode c v with
    | .error e => .error e
    | .ok x =>
      let s2 := if s1.counter + 1 = c.epLen then { s1 with done := true, counter := 0 } else { s1 with counter := s1.counter + 1 }
      .ok (s2, { obs := v, reward := sgn (!c.minMode) (fit x), done := s2.done, x := x })

/-- `reset`, lines 215-224, with the sample `smp` of the action or observation space; returns the initial state. -/
def reset (c : Conf K) (smp : List K) (s : State K) : Py (State K × List K) :=
  match c.method with
  | .policy => .ok ({ s with done := false }, smp)
  | .value => .ok ({ s with done := false, full := smp }, smp)
  | .neat => .error .unboundLocal

/-- `__init__`, lines 133-198. -/
def init (c : Conf K) (smp : List K) : Py (State K) :=
  if c.method = .value ∧ c.allInt = false then .error .valueError else
  match reset c smp { counter := 0, done := false, index := 0, full := [] } with
  | .error e => .error e
  | .ok (s, _) => .ok { s with done := false, counter := 0, index := 0 }

/-- A call made by the user of the environment. -/
inductive Op (K : Type)
  | step (a : Action K) (rnd : ℕ) (smp : List K) | reset (smp : List K)

/-- A sequence of calls: the final attributes and what the `step` calls returned. -/
def exec (c : Conf K) (fit : List (Val K) → K) : State K → List (Op K) → Py (State K × List (Out K))
  | s, [] => .ok (s, [])
  | s, .step a r smp :: ops =>
    match step c fit a r smp s with
    | .error e => .error e
    | .ok (s', o) =>
      match exec c fit s' ops with
      | .error e => .error e
      | .ok (s'', os) => .ok (s'', o :: os)
  | s, .reset smp :: ops =>
    match reset c smp s with
    | .error e => .error e
    | .ok (s', _) => exec c fit s' ops

/-! ### Lemmas -/

theorem encode_noGrid (bs : Bounds K) : ∀ b ∈ (encodeBounds bs).1, ∀ vals, b.2 ≠ Spec.grid vals := by
  induction bs with
  | nil => simp [encodeBounds]
  | cons b bs ih =>
    obtain ⟨k, s⟩ := b
    cases s <;> (simp only [encodeBounds]; intro q hq vals; rcases List.mem_cons.1 hq with rfl | hq)
    all_goals first | (simp; done) | exact ih q hq vals

theorem length_encode (bs : Bounds K) : (encodeBounds bs).1.length = bs.length := by
  induction bs with
  | nil => rfl
  | cons b bs ih =>
    obtain ⟨k, s⟩ := b
    cases s <;> simp [encodeBounds, ih]

theorem nbounds (c : Conf K) : c.S.bounds.length = c.orig.length := by simp [Conf.S, length_encode]

/-- A feasible encoded point is a member of the encoded space. -/
theorem inSpace_of_feasible {bs : Bounds K} (hg : ∀ b ∈ bs, ∀ vals, b.2 ≠ Spec.grid vals) {m : IntMethod} {e : K → K} {v : List K}
    (h : ({ bounds := bs.map (fun b => specB b.2), types := bs.map (fun b => specT b.2), method := m, expf := e } : Space K).Feasible v) :
    List.Forall₂ (fun b x => b.2.Member x) bs (v.map Val.float) := by
  obtain ⟨h1, h2⟩ := h
  unfold InBox at h1
  dsimp only at h1
  induction bs generalizing v with
  | nil =>
    cases v with
    | nil => exact .nil
    | cons a l => cases h1
  | cons b bs ih =>
    cases v with
    | nil => cases h1
    | cons x xs =>
      rw [List.map_cons] at h1
      cases h1 with
      | cons hx hxs =>
        refine .cons ?_ (ih (fun b hb => hg b (List.mem_cons_of_mem _ hb)) hxs ?_)
        · obtain ⟨k, s⟩ := b
          cases s with
          | grid vals => exact absurd rfl (hg _ List.mem_cons_self vals)
          | int l u =>
            obtain ⟨n, hn⟩ := h2 0 x rfl rfl
            refine ⟨n, by rw [Val.num?, hn], ?_⟩
            rw [← hn]
            exact hx
          | float l u => exact ⟨x, rfl, hx⟩
        · intro d y hd hy
          exact h2 (d + 1) y (by simpa using hd) (by simpa using hy)

theorem ensureInt_integral (S : Space K) (v : List K) : S.Integral (ensureInt S.types v) := by
  intro d x ht hx
  unfold ensureInt at hx
  rw [List.getElem?_mapIdx] at hx
  cases e : v[d]? with
  | none => rw [e] at hx; cases hx
  | some y =>
    rw [e] at hx
    cases hx
    simp only [ht, if_true]
    exact ⟨_, rfl⟩

theorem length_ensureInt (types : List VType) (v : List K) : (ensureInt types v).length = v.length := by simp [ensureInt]

theorem ensureInt_id {S : Space K} {v : List K} (h : S.Integral v) : ensureInt S.types v = v := by
  unfold ensureInt
  apply List.ext_getElem? 
  intro d
  rw [List.getElem?_mapIdx]
  cases e : v[d]? with
  | none => rfl
  | some x =>
    simp only [Option.map_some]
    by_cases ht : S.types[d]? = some VType.int
    · obtain ⟨n, hn⟩ := h d x ht e
      rw [if_pos ht, hn, truncZ_intCast]
    · rw [if_neg ht]

theorem rangeOf_get {b : K × K} {l u : ℤ} (h1 : b.1 = l) (h2 : b.2 = u) {a : ℕ} {z : ℤ} : (rangeOf b)[a]? = some z ↔ z = l + a ∧ l + a ≤ u := by
  unfold rangeOf pyRange
  rw [h1, h2, Int.floor_intCast, Int.floor_intCast, List.getElem?_map]
  constructor
  · intro h
    obtain ⟨i, hi, rfl⟩ := Option.map_eq_some_iff.1 h
    obtain ⟨h3, h4⟩ := List.getElem?_eq_some_iff.1 hi
    rw [List.getElem_range] at h4
    rw [List.length_range] at h3
    subst h4
    omega
  · rintro ⟨rfl, h⟩
    rw [List.getElem?_range (by omega)]
    rfl

/-- Decoding a multidiscrete action. -/
theorem decodeMulti_spec {bs : List (K × K)} (hi : ∀ b ∈ bs, ∃ l u : ℤ, b.1 = l ∧ b.2 = u) {a : List ℕ} (hl : a.length = bs.length) {v : List K} :
    decodeMulti bs a = .ok v ↔ List.Forall₂ (fun (p : (K × K) × ℕ) x => x = p.1.1 + p.2 ∧ x ≤ p.1.2) (bs.zip a) v := by
  induction bs generalizing a v with
  | nil =>
    cases a with
    | nil =>
      rw [decodeMulti.eq_def]
      constructor
      · intro h; cases h; exact .nil
      · intro h; cases h; rfl
    | cons a l => simp at hl
  | cons b bs ih =>
    cases a with
    | nil => simp at hl
    | cons a as =>
      obtain ⟨l, u, e1, e2⟩ := hi b List.mem_cons_self
      have ih' := @ih (fun b hb => hi b (List.mem_cons_of_mem _ hb)) as (by simpa using hl)
      rw [decodeMulti, List.zip_cons_cons]
      constructor
      · intro h
        split at h
        · cases h
        · rename_i z hz
          obtain ⟨rfl, hu⟩ := (rangeOf_get e1 e2).1 hz
          split at h
          · cases h
          · rename_i r hr
            cases h
            refine .cons ⟨?_, ?_⟩ (ih'.1 hr)
            · rw [e1]; push_cast; rfl
            · rw [e2]; exact_mod_cast hu
      · intro h
        cases h with
        | cons h1 h2 =>
          rename_i x xs
          obtain ⟨h3, h4⟩ := h1
          dsimp only at h3 h4
          have : (rangeOf b)[a]? = some (l + a) := (rangeOf_get e1 e2).2 ⟨rfl, by
            rw [e1] at h3
            rw [h3, e2] at h4
            exact_mod_cast h4⟩
          rw [this]
          simp only [ih'.2 h2]
          rw [h3, e1]
          push_cast
          rfl

theorem allInt_iff {c : Conf K} : c.allInt = true ↔ ∀ (d : ℕ) t, c.S.types[d]? = some t → t = VType.int := by
  unfold Conf.allInt
  rw [List.all_eq_true]
  constructor
  · intro h d t ht
    simpa using h t (List.mem_of_getElem? ht)
  · intro h t ht
    obtain ⟨d, hd⟩ := List.mem_iff_getElem?.1 ht
    simpa using h d t hd

theorem int_bounds {c : Conf K} (hS : c.S.OK) (ha : c.allInt = true) : ∀ b ∈ c.S.bounds, ∃ l u : ℤ, b.1 = l ∧ b.2 = u := by
  intro b hb
  obtain ⟨d, hd⟩ := List.mem_iff_getElem?.1 hb
  have hlt := (List.getElem?_eq_some_iff.1 hd).1
  have : c.S.types[d]? = some VType.int := by
    have h1 : d < c.S.types.length := by rw [hS.ntypes]; exact hlt
    rw [List.getElem?_eq_getElem h1]
    exact congrArg some (allInt_iff.1 ha d _ (List.getElem?_eq_getElem h1))
  exact hS.intBounds d b this hd

end

end Neorl.Env

import Verif.Py
import Mathlib.Data.List.Rotate
import Mathlib.Data.List.Forall2
import Mathlib.Data.Int.ModEq

/-!
# Replay buffers

Models of `neorl/rl/baselines/shared/buffers.py` (class `ReplayBuffer`) and `neorl/rl/baselines/acer/buffer.py`.
-/

set_option linter.unusedSectionVars false
set_option linter.unusedVariables false

namespace Neorl.Replay

variable {α : Type}

/-- Ring buffer state, `buffers.py` lines 18-20.  A stored transition (the 5-tuple of line 63) is an element of `α`. -/
structure Buf (α : Type) where
  storage : List α
  maxsize : ℕ
  next : ℕ

/-- `__init__`, lines 11-20. -/
def new (size : ℕ) : Buf α := ⟨[], size, 0⟩

/-- `add`, lines 53-69.  `% 0` raises `ZeroDivisionError`. -/
def add (b : Buf α) (x : α) : Py (Buf α) :=
  let st := if b.next ≥ b.storage.length then b.storage ++ [x] else b.storage.set b.next x
  if b.maxsize = 0 then .error .zeroDivision else .ok ⟨st, b.maxsize, (b.next + 1) % b.maxsize⟩

/-- `extend`, lines 71-89 (the zipped batch as a list). -/
def extend (b : Buf α) : List α → Py (Buf α)
  | [] => .ok b
  | x :: xs =>
    match add b x with
    | .error e => .error e
    | .ok b' => extend b' xs

/-- A public mutation of the buffer. -/
inductive Op (α : Type)
  | add (x : α)
  | extend (xs : List α)

/-- One public mutation. -/
def step (b : Buf α) : Op α → Py (Buf α)
  | .add x => add b x
  | .extend xs => extend b xs

/-- A history of public mutations. -/
def run (b : Buf α) : List (Op α) → Py (Buf α)
  | [] => .ok b
  | o :: os =>
    match step b o with
    | .error e => .error e
    | .ok b' => run b' os

/-- `_encode_sample`, lines 111-125 (without observation normalisation): the stored transitions at the given indices. -/
def encodeSample (b : Buf α) : List ℕ → Py (List α)
  | [] => .ok []
  | i :: is =>
    match b.storage[i]?, encodeSample b is with
    | some x, .ok xs => .ok (x :: xs)
    | none, _ => .error .indexError
    | _, .error e => .error e

/-- `sample`, lines 127-143: `draws` are the results of `random.randint(0, len - 1)`, which raises `ValueError` on an empty
buffer. -/
def sample (b : Buf α) (draws : List ℕ) : Py (List α) :=
  if b.storage = [] ∧ draws ≠ [] then .error .valueError else encodeSample b draws

/-! ### Specification -/

/-- Transitions submitted by an operation. -/
def Op.items : Op α → List α
  | .add x => [x]
  | .extend xs => xs

/-- The last `n` elements of a list. -/
def lastN (n : ℕ) (l : List α) : List α := l.drop (l.length - n)

/-! ### Ring invariant -/

/-- State of the ring after the submissions `xs`. -/
structure Inv (cap : ℕ) (b : Buf α) (xs : List α) : Prop where
  size : b.maxsize = cap
  lt : b.next < cap
  len : b.storage.length = min xs.length cap
  part : b.storage.length < cap → b.next = b.storage.length
  order : b.storage.rotate b.next = lastN cap xs

theorem inv_new {cap : ℕ} (hc : 0 < cap) : Inv cap (new cap : Buf α) [] :=
  ⟨rfl, hc, by simp [new], by simp [new], by simp [new, lastN]⟩

theorem lastN_append_lt {cap : ℕ} {xs : List α} {x : α} (h : xs.length < cap) :
    lastN cap (xs ++ [x]) = lastN cap xs ++ [x] := by
  unfold lastN
  have h1 : (xs ++ [x]).length - cap = 0 := by simp; omega
  have h2 : xs.length - cap = 0 := by omega
  rw [h1, h2]; simp

theorem lastN_append_ge {cap : ℕ} (hc : 0 < cap) {xs : List α} {x : α} (h : cap ≤ xs.length) :
    lastN cap (xs ++ [x]) = (lastN cap xs).tail ++ [x] := by
  unfold lastN
  rw [List.tail_drop, List.drop_append]
  have h1 : (xs ++ [x]).length - cap = xs.length - cap + 1 := by simp; omega
  have h2 : xs.length - cap + 1 - xs.length = 0 := by omega
  rw [h1, h2]; simp

theorem length_lastN (n : ℕ) (l : List α) : (lastN n l).length = min l.length n := by
  unfold lastN; rw [List.length_drop]; omega

theorem add_inv {cap : ℕ} (hc : 0 < cap) {b : Buf α} {xs : List α} (h : Inv cap b xs) (x : α) :
    ∃ b', add b x = .ok b' ∧ Inv cap b' (xs ++ [x]) := by
  obtain ⟨hs, hlt, hlen, hpart, hord⟩ := h
  unfold add
  rw [if_neg (by omega)]
  refine ⟨_, rfl, ?_⟩
  rw [hs]
  by_cases hf : b.storage.length < cap
  · have hn := hpart hf
    have hx : xs.length < cap := by omega
    have hst : (if b.next ≥ b.storage.length then b.storage ++ [x] else b.storage.set b.next x) = b.storage ++ [x] := by
      rw [if_pos (by omega)]
    rw [hst]
    have hmod : (b.next + 1) % cap = if b.storage.length + 1 = cap then 0 else b.storage.length + 1 := by
      split_ifs with he
      · rw [hn, he, Nat.mod_self]
      · rw [hn, Nat.mod_eq_of_lt (by omega)]
    refine ⟨rfl, Nat.mod_lt _ hc, ?_, ?_, ?_⟩
    · simp only [List.length_append, List.length_singleton]; omega
    · simp only [List.length_append, List.length_singleton]
      intro h'
      rw [hmod, if_neg (by omega)]
    · rw [lastN_append_lt hx, ← hord, hn, List.rotate_length]
      rw [hn] at hmod
      simp only [hmod]
      split_ifs with he
      · simp
      · have : b.storage.length + 1 = (b.storage ++ [x]).length := by simp
        rw [this, List.rotate_length]
  · have hfull : b.storage.length = cap := by omega
    have hx : cap ≤ xs.length := by omega
    have hst : (if b.next ≥ b.storage.length then b.storage ++ [x] else b.storage.set b.next x) = b.storage.set b.next x := by
      rw [if_neg (by omega)]
    rw [hst]
    refine ⟨rfl, Nat.mod_lt _ hc, ?_, ?_, ?_⟩
    · simp only [List.length_set, List.length_append, List.length_singleton]; omega
    · simp only [List.length_set]; omega
    · rw [lastN_append_ge hc hx, ← hord]
      have hrot := List.rotate_eq_drop_append_take (l := b.storage) (n := b.next) (by omega)
      rw [hrot]
      have hset : b.storage.set b.next x = b.storage.take b.next ++ x :: b.storage.drop (b.next + 1) := by
        rw [List.set_eq_take_append_cons_drop, if_pos (by omega)]
      have htl : (b.storage.drop b.next ++ b.storage.take b.next).tail =
          b.storage.drop (b.next + 1) ++ b.storage.take b.next := by
        rw [List.tail_append_of_ne_nil (by simp; omega), List.tail_drop]
      rw [htl]
      simp only
      by_cases he : b.next + 1 = cap
      · rw [he, Nat.mod_self, List.rotate_zero, hset]
        have : b.storage.drop (b.next + 1) = [] := by rw [List.drop_eq_nil_iff]; omega
        have h2 : b.storage.drop cap = [] := by rw [List.drop_eq_nil_iff]; omega
        rw [this, h2]
        simp
      · rw [Nat.mod_eq_of_lt (by omega), List.rotate_eq_drop_append_take (by simp; omega), hset]
        have hl : (b.storage.take b.next).length = b.next := by rw [List.length_take]; omega
        have h3 : (b.storage.take b.next ++ x :: b.storage.drop (b.next + 1)) =
            (b.storage.take b.next ++ [x]) ++ b.storage.drop (b.next + 1) := by simp
        have h4 : (b.storage.take b.next ++ [x]).length = b.next + 1 := by simp; omega
        rw [h3, List.drop_left' h4, List.take_left' h4]
        simp

theorem extend_inv {cap : ℕ} (hc : 0 < cap) {ys : List α} {b : Buf α} {xs : List α} (h : Inv cap b xs) :
    ∃ b', extend b ys = .ok b' ∧ Inv cap b' (xs ++ ys) := by
  induction ys generalizing b xs with
  | nil => exact ⟨b, rfl, by simpa using h⟩
  | cons y ys ih =>
    obtain ⟨b1, h1, h2⟩ := add_inv hc h y
    obtain ⟨b2, h3, h4⟩ := ih h2
    exact ⟨b2, by simp only [extend, h1, h3], by simpa using h4⟩

theorem run_inv {cap : ℕ} (hc : 0 < cap) {ops : List (Op α)} {b : Buf α} {xs : List α} (h : Inv cap b xs) :
    ∃ b', run b ops = .ok b' ∧ Inv cap b' (xs ++ ops.flatMap Op.items) := by
  induction ops generalizing b xs with
  | nil => exact ⟨b, rfl, by simpa using h⟩
  | cons o ops ih =>
    have hstep : ∃ b', step b o = .ok b' ∧ Inv cap b' (xs ++ o.items) := by
      cases o with
      | add x => exact add_inv hc h x
      | extend ys => exact extend_inv hc h
    obtain ⟨b1, h1, h2⟩ := hstep
    obtain ⟨b2, h3, h4⟩ := ih h2
    refine ⟨b2, by simp only [run, h1, h3], ?_⟩
    simpa [List.flatMap_cons] using h4

theorem encodeSample_ok {b : Buf α} {is : List ℕ} (h : ∀ i ∈ is, i < b.storage.length) :
    ∃ xs, encodeSample b is = .ok xs ∧ List.Forall₂ (fun i x => b.storage[i]? = some x) is xs := by
  induction is with
  | nil => exact ⟨[], rfl, .nil⟩
  | cons i is ih =>
    obtain ⟨xs, h1, h2⟩ := ih (fun j hj => h j (by simp [hj]))
    have hi := h i (by simp)
    refine ⟨b.storage[i] :: xs, ?_, .cons (List.getElem?_eq_getElem hi) h2⟩
    simp only [encodeSample, List.getElem?_eq_getElem hi, h1]

/-! ### ACER episode buffer -/

/-- ACER buffer, `acer/buffer.py` lines 13-41.  One rollout is `ρ`: the tuple of the six arrays of `put` restricted to one
environment; a location of the ring holds one rollout per environment.  The arrays are allocated uninitialised
(lines 104-110): `none` is an uninitialised location. -/
structure ABuf (ρ : Type) where
  nEnv : ℕ
  nSteps : ℕ
  size : ℕ
  slots : ℕ → Option (ℕ → ρ)
  next : ℕ
  num : ℕ

/-- `__init__`, lines 5-41 (`size // n_steps` raises for `n_steps = 0`). -/
def ABuf.new {ρ : Type} (nEnv nSteps size : ℕ) : Py (ABuf ρ) :=
  if nSteps = 0 then .error .zeroDivision else .ok ⟨nEnv, nSteps, size / nSteps, fun _ => none, 0, 0⟩

/-- `has_atleast`, lines 43-52. -/
def ABuf.hasAtLeast {ρ : Type} (b : ABuf ρ) (frames : ℕ) : Bool := decide (b.num ≥ frames / b.nSteps)

/-- `put`, lines 89-120: writing to location 0 of an array of size 0 raises `IndexError`. -/
def ABuf.put {ρ : Type} (b : ABuf ρ) (x : ℕ → ρ) : Py (ABuf ρ) :=
  if b.next < b.size then
    .ok { b with slots := Function.update b.slots b.next (some x), next := (b.next + 1) % b.size,
                 num := min b.size (b.num + 1) }
  else .error .indexError

/-- `get`, lines 137-162 (with `take`, 122-135): `idx e` is the draw `np.random.randint(0, num_in_buffer)` for environment `e`.
The result lists, per environment, what is read (`none` is uninitialised memory).  `decode` (62-87) only reshapes. -/
def ABuf.get {ρ : Type} (b : ABuf ρ) (idx : ℕ → ℕ) : Py (List (Option ρ)) :=
  if b.num > 0 then .ok ((List.range b.nEnv).map (fun e => (b.slots (idx e)).map (fun r => r e)))
  else .error .assertion

/-- A sequence of `put`s. -/
def ABuf.putAll {ρ : Type} (b : ABuf ρ) : List (ℕ → ρ) → Py (ABuf ρ)
  | [] => .ok b
  | x :: xs =>
    match b.put x with
    | .error e => .error e
    | .ok b' => b'.putAll xs

/-- Ring invariant: location `k % size` holds rollout `k` for the last `size` rollouts. -/
structure AInv {ρ : Type} (size : ℕ) (b : ABuf ρ) (xs : List (ℕ → ρ)) : Prop where
  sz : b.size = size
  next : b.next = xs.length % size
  num : b.num = min xs.length size
  content : ∀ k, xs.length ≤ k + size → k < xs.length → b.slots (k % size) = xs[k]?

theorem put_inv {ρ : Type} {size : ℕ} (hs : 0 < size) {b : ABuf ρ} {xs : List (ℕ → ρ)} (h : AInv size b xs) (x : ℕ → ρ) :
    ∃ b', b.put x = .ok b' ∧ b'.nEnv = b.nEnv ∧ b'.nSteps = b.nSteps ∧ AInv size b' (xs ++ [x]) := by
  obtain ⟨h1, h2, h3, h4⟩ := h
  unfold ABuf.put
  rw [if_pos (by rw [h1, h2]; exact Nat.mod_lt _ hs)]
  refine ⟨_, rfl, rfl, rfl, ⟨h1, ?_, ?_, ?_⟩⟩
  · simp only [List.length_append, List.length_singleton]
    rw [h1, h2, Nat.mod_add_mod]
  · simp only [List.length_append, List.length_singleton]; omega
  · intro k hk1 hk2
    simp only [List.length_append, List.length_singleton] at hk1 hk2
    simp only
    by_cases hk : k = xs.length
    · rw [hk, ← h2, Function.update_self]; simp
    · have hne : k % size ≠ b.next := by
        rw [h2]
        intro hcon
        have hdvd : size ∣ xs.length - k := (Nat.modEq_iff_dvd' (by omega)).1 hcon
        have := Nat.le_of_dvd (by omega) hdvd
        omega
      rw [Function.update_of_ne hne, h4 k (by omega) (by omega), List.getElem?_append_left (by omega)]

theorem putAll_inv {ρ : Type} {size : ℕ} (hs : 0 < size) {ys : List (ℕ → ρ)} {b : ABuf ρ} {xs : List (ℕ → ρ)}
    (h : AInv size b xs) :
    ∃ b', b.putAll ys = .ok b' ∧ b'.nEnv = b.nEnv ∧ b'.nSteps = b.nSteps ∧ AInv size b' (xs ++ ys) := by
  induction ys generalizing b xs with
  | nil => exact ⟨b, rfl, rfl, rfl, by simpa using h⟩
  | cons y ys ih =>
    obtain ⟨b1, h1, h2, h3, h4⟩ := put_inv hs h y
    obtain ⟨b2, g1, g2, g3, g4⟩ := ih h4
    exact ⟨b2, by simp only [ABuf.putAll, h1, g1], g2.trans h2, g3.trans h3, by simpa using g4⟩

end Neorl.Replay

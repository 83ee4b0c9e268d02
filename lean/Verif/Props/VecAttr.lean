import Verif.VecAttr
import Verif.Props.RunFiles
import Mathlib.Tactic.Ring
import Mathlib.Tactic.Linarith

/-!
# C130: attributes, structured observations, images and construction of vectors of environments
-/

set_option linter.unusedSectionVars false
set_option linter.unusedVariables false

namespace Neorl.VecAttr

open Neorl.InputFile (Str)

/-! ### Which environments -/

theorem resolve_ok {n : ℕ} {i : ℤ} {k : Fin n} : resolve n i = .ok k ↔ (k : ℤ) = i ∨ (k : ℤ) = i + n ∧ i < 0 := by
  unfold resolve
  have hk := k.2
  split_ifs with h1 h2
  · rw [Except.ok.injEq, Fin.ext_iff]
    simp only
    omega
  · rw [Except.ok.injEq, Fin.ext_iff]
    simp only
    omega
  · simp
    omega

theorem resolve_nat {n : ℕ} (k : Fin n) : resolve n (k : ℤ) = .ok k := resolve_ok.2 (.inl rfl)

theorem resolveAll_ok {n : ℕ} : ∀ (l : List ℤ) (ts : List (Fin n)), resolveAll n l = .ok ts ↔ List.Forall₂ (fun (i : ℤ) (k : Fin n) => (k : ℤ) = i ∨ (k : ℤ) = i + n ∧ i < 0) l ts
  | [], ts => by cases ts <;> simp [resolveAll]
  | i :: t, ts => by
    rw [resolveAll]
    cases hr : resolve n i with
    | error e =>
      simp only
      constructor
      · intro h; cases h
      · intro h
        cases h with
        | cons h1 h2 => rw [resolve_ok.2 h1] at hr; cases hr
    | ok k =>
      cases hs : resolveAll n t with
      | error e =>
        simp only
        constructor
        · intro h; cases h
        · intro h
          cases h with
          | cons h1 h2 => rw [(resolveAll_ok t _).2 h2] at hs; cases hs
      | ok ks =>
        simp only [Except.ok.injEq]
        constructor
        · intro h; subst h
          exact .cons (resolve_ok.1 hr) ((resolveAll_ok t _).1 hs)
        · intro h
          cases h with
          | cons h1 h2 =>
            rw [resolve_ok.2 h1] at hr
            rw [(resolveAll_ok t _).2 h2] at hs
            cases hr; cases hs; rfl

theorem resolveAll_range (n : ℕ) : resolveAll n ((List.range n).map fun (i : ℕ) => (i : ℤ)) = .ok (List.finRange n) := by
  rw [resolveAll_ok, List.forall₂_iff_get]
  refine ⟨by simp, fun i h1 h2 => .inl ?_⟩
  simp

/-- **C130.** The environments meant by `indices`: all, one, or those of a list in its order, negative numbers counting from the end; a number out of range is an `IndexError`, an integer of NumPy a `TypeError`. -/
theorem C130_targets (n : ℕ) :
    targets n .all = .ok (List.finRange n) ∧ (∀ k : Fin n, targets n (.int k) = .ok [k] ∧ targets n (.int ((k : ℤ) - n)) = .ok [k]) ∧
    (∀ l ts, targets n (.list l) = .ok ts ↔ List.Forall₂ (fun (i : ℤ) (k : Fin n) => (k : ℤ) = i ∨ (k : ℤ) = i + n ∧ i < 0) l ts) ∧
    (∀ l : List ℤ, (∃ i ∈ l, i < -n ∨ n ≤ i) → targets n (.list l) = .error .indexError) ∧ targets n .other = .error .typeError := by
  refine ⟨resolveAll_range n, fun k => ⟨?_, ?_⟩, fun l ts => resolveAll_ok l ts, fun l h => ?_, rfl⟩
  · exact (resolveAll_ok _ _).2 (.cons (.inl rfl) .nil)
  · exact (resolveAll_ok _ _).2 (.cons (.inr ⟨by omega, by have := k.2; omega⟩) .nil)
  · show resolveAll n l = _
    have hres : ∀ i e, resolve n i = .error e → e = .indexError := by
      intro i e h
      unfold resolve at h
      split_ifs at h
      cases h; rfl
    induction l with
    | nil => simp at h
    | cons i t ih =>
      rw [resolveAll]
      by_cases hi : i < -n ∨ n ≤ i
      · have : resolve n i = .error .indexError := by
          unfold resolve
          rw [dif_neg (by omega), dif_neg (by omega)]
        rw [this]
      · obtain ⟨j, hj, hj'⟩ := h
        have ht : ∃ i ∈ t, i < -n ∨ n ≤ i := by
          rcases List.mem_cons.1 hj with h | h
          · subst h; exact absurd hj' hi
          · exact ⟨j, h, hj'⟩
        rw [ih ht]
        cases hr : resolve n i with
        | error e => rw [hres i e hr]
        | ok k => rfl

/-! ### Processes -/

section Calls
variable {S R : Type} {n : ℕ}

/-- All messages of an inbox, one after the other. -/
def flush : S → List (S → S × R) → S × List R
  | s, [] => (s, [])
  | s, f :: t => let r := flush (f s).1 t; (r.1, (f s).2 :: r.2)

theorem flush_append (s : S) (l : List (S → S × R)) (f : S → S × R) : flush s (l ++ [f]) = ((f (flush s l).1).1, (flush s l).2 ++ [(f (flush s l).1).2]) := by
  induction l generalizing s with
  | nil => rfl
  | cons g t ih => simp only [List.cons_append, flush, ih]

/-- The state of a process after all its messages, and what it will have put out. -/
def settled (w : Worker S R) : S × List R := ((flush w.s w.inbox).1, w.outbox ++ (flush w.s w.inbox).2)

/-- The same operations if every process answers at once; `none` if the main program would wait for ever. -/
def eager : List (Op n S R) → (Fin n → S × List R) → Option ((Fin n → S × List R) × List R)
  | [], ws => some (ws, [])
  | .send i f :: t, ws => eager t (Function.update ws i ((f (ws i).1).1, (ws i).2 ++ [(f (ws i).1).2]))
  | .recv i :: t, ws =>
    match (ws i).2 with
    | [] => none
    | r :: out => (eager t (Function.update ws i ((ws i).1, out))).map fun p => (p.1, r :: p.2)

/-- What a system will end with. -/
def outcome (y : Sys n S R) : Option ((Fin n → S × List R) × List R) := (eager y.ops fun i => settled (y.ws i)).map fun p => (p.1, y.log ++ p.2)

theorem settled_update (ws : Fin n → Worker S R) (i : Fin n) (w : Worker S R) : (fun j => settled (Function.update ws i w j)) = Function.update (fun j => settled (ws j)) i (settled w) := by
  funext j
  by_cases h : j = i
  · subst h; simp
  · simp [h]

/-- No step changes it. -/
theorem outcome_step {y z : Sys n S R} (h : Step y z) (hy : outcome y ≠ none) : outcome z = outcome y := by
  cases h with
  | send ws log i f ops =>
    unfold outcome
    simp only [eager, settled_update]
    congr 2
    simp only [settled, flush_append, List.append_assoc]
  | recv ws log i r out ops hr =>
    unfold outcome
    have e : (settled (ws i)).2 = r :: (out ++ (flush (ws i).s (ws i).inbox).2) := by simp [settled, hr]
    simp only [eager, settled_update, e, Option.map_map]
    congr 1
    funext p
    simp
  | work ws ops log i f rest h =>
    unfold outcome
    simp only [settled_update]
    congr 2
    funext j
    by_cases hj : j = i
    · subst hj
      simp [settled, h, flush]
    · simp [hj]

theorem outcome_steps {y z : Sys n S R} (h : Steps y z) (hy : outcome y ≠ none) : outcome z = outcome y := by
  induction h with
  | refl => rfl
  | tail h s ih => rw [outcome_step s (by rw [ih]; exact hy), ih]

/-- What is still to be done. -/
def todo (y : Sys n S R) : ℕ := 2 * y.ops.length + ∑ i, (y.ws i).inbox.length

theorem todo_update (ws : Fin n → Worker S R) (i : Fin n) (w : Worker S R) : (∑ j, (Function.update ws i w j).inbox.length) + (ws i).inbox.length = (∑ j, (ws j).inbox.length) + w.inbox.length := by
  rw [← Finset.add_sum_erase _ _ (Finset.mem_univ i), ← Finset.add_sum_erase Finset.univ (fun j => (ws j).inbox.length) (Finset.mem_univ i)]
  have : ∑ j ∈ Finset.univ.erase i, (Function.update ws i w j).inbox.length = ∑ j ∈ Finset.univ.erase i, (ws j).inbox.length :=
    Finset.sum_congr rfl fun j hj => by simp [Finset.ne_of_mem_erase hj]
  rw [this]
  simp
  omega

theorem todo_step {y z : Sys n S R} (h : Step y z) : todo z < todo y := by
  cases h with
  | send ws log i f ops =>
    have := todo_update ws i { ws i with inbox := (ws i).inbox ++ [f] }
    simp [todo] at this ⊢
    omega
  | recv ws log i r out ops hr =>
    have := todo_update ws i { ws i with outbox := out }
    simp [todo] at this ⊢
    omega
  | work ws ops log i f rest h =>
    have := todo_update ws i { s := (f (ws i).s).1, inbox := rest, outbox := (ws i).outbox ++ [(f (ws i).s).2] }
    simp [todo, h] at this ⊢
    omega

/-- A system that is not finished can go on. -/
theorem progress (y : Sys n S R) (hy : outcome y ≠ none) (h : todo y ≠ 0) : ∃ z, Step y z := by
  obtain ⟨ws, ops, log⟩ := y
  by_cases hw : ∃ i, (ws i).inbox ≠ []
  · obtain ⟨i, hi⟩ := hw
    obtain ⟨f, rest, hf⟩ := List.exists_cons_of_ne_nil hi
    exact ⟨_, .work ws ops log i f rest hf⟩
  · push Not at hw
    cases ops with
    | nil => simp [todo, hw] at h
    | cons o t =>
      cases o with
      | send i f => exact ⟨_, .send ws log i f t⟩
      | recv i =>
        have e : settled (ws i) = ((ws i).s, (ws i).outbox) := by simp [settled, hw i, flush]
        cases ho : (ws i).outbox with
        | nil =>
          exfalso
          apply hy
          simp [outcome, eager, e, ho]
        | cons r out => exact ⟨_, .recv ws log i r out t ho⟩

/-- A run that ends, ends with the outcome; every run can be continued to an end, and no run is longer than what there is to do. -/
theorem runs (y : Sys n S R) {res : (Fin n → S × List R) × List R} (hy : outcome y = some res) :
    (∀ z, Steps y z → ∃ w, Steps z w ∧ todo w = 0) ∧ ∀ z, Steps y z → (¬∃ w, Step z w) → z.ops = [] ∧ z.log = res.2 ∧ ∀ i, (z.ws i).s = (res.1 i).1 ∧ (z.ws i).inbox = [] ∧ (z.ws i).outbox = (res.1 i).2 := by
  refine ⟨fun z hz => ?_, fun z hz hs => ?_⟩
  · obtain ⟨k, hk⟩ : ∃ k, todo z = k := ⟨_, rfl⟩
    induction k using Nat.strong_induction_on generalizing z with
    | _ k ih =>
      by_cases h0 : todo z = 0
      · exact ⟨z, .refl z, h0⟩
      · obtain ⟨w, hw⟩ := progress z (by rw [outcome_steps hz (by simp [hy]), hy]; simp) h0
        obtain ⟨v, hv, h0'⟩ := ih (todo w) (hk ▸ todo_step hw) w (.tail hz hw) rfl
        refine ⟨v, ?_, h0'⟩
        clear ih h0 hk hz h0'
        induction hv with
        | refl => exact .tail (.refl z) hw
        | tail _ s ih' => exact .tail ih' s
  · have ho := outcome_steps hz (by simp [hy])
    have h0 : todo z = 0 := by
      by_contra h
      exact hs (progress z (by rw [ho, hy]; simp) h)
    obtain ⟨ws, ops, log⟩ := z
    simp only [todo, Nat.add_eq_zero_iff, Nat.mul_eq_zero, List.length_eq_zero_iff] at h0
    have hops : ops = [] := by simpa using h0.1
    have hin : ∀ i, (ws i).inbox = [] := by
      intro i
      have := (Finset.sum_eq_zero_iff.1 h0.2) i (Finset.mem_univ i)
      simpa using this
    subst hops
    rw [hy] at ho
    simp only [outcome, eager, Option.map_some, List.append_nil, Option.some.injEq] at ho
    subst ho
    exact ⟨rfl, rfl, fun i => by simp [settled, hin i, flush]⟩

/-- Receiving first what is already there does not matter. -/
theorem eager_swap (f : S → S × R) (i : Fin n) (ts : List (Fin n)) (rest : List (Op n S R)) (ws : Fin n → S × List R) (h : (ws i).2 ≠ []) :
    eager (ts.map (fun j => .send j f) ++ .recv i :: rest) ws = eager (.recv i :: (ts.map (fun j => .send j f) ++ rest)) ws := by
  induction ts generalizing ws with
  | nil => rfl
  | cons j t ih =>
    obtain ⟨r, out, ho⟩ := List.exists_cons_of_ne_nil h
    simp only [List.map_cons, List.cons_append, eager, ho]
    rw [ih]
    · by_cases hj : i = j
      · subst hj
        simp only [eager, Function.update_self, ho, List.cons_append, Function.update_idem]
      · simp only [eager, Function.update_of_ne hj, Function.update_of_ne (Ne.symm hj), ho]
        rw [Function.update_comm hj]
    · by_cases hj : i = j
      · subst hj; simp [ho]
      · simp [Function.update_of_ne hj, ho]

/-- The calls of a process vector, if every process answers at once. -/
theorem eager_call (f : S → S × R) (ts : List (Fin n)) (rest : List (Op n S R)) (σ : Fin n → S) :
    eager (callOps f ts ++ rest) (fun i => (σ i, [])) = (eager rest fun i => ((dummyLoop f ts σ).1 i, [])).map fun p => (p.1, (dummyLoop f ts σ).2 ++ p.2) := by
  induction ts generalizing σ with
  | nil => simp [callOps, dummyLoop]
  | cons i t ih =>
    have e : callOps f (i :: t) ++ rest = .send i f :: (t.map (fun j => .send j f) ++ .recv i :: (t.map .recv ++ rest)) := by simp [callOps]
    rw [e, eager, eager_swap _ _ _ _ _ (by simp)]
    simp only [eager, Function.update_self, List.nil_append, Function.update_idem]
    have hs : (Function.update (fun i => (σ i, ([] : List R))) i ((f (σ i)).1, [])) = fun j => (Function.update σ i (f (σ i)).1 j, []) := by
      funext j
      by_cases h : j = i
      · subst h; simp
      · simp [h]
    rw [hs, ← List.append_assoc]
    have := ih (Function.update σ i (f (σ i)).1)
    unfold callOps at this
    rw [this, Option.map_map]
    rfl

/-- **C130.** `get_attr`, `set_attr` and `env_method`: both vectors do the same, also if an environment is named several times.  In every order in which the processes run, the call on processes comes to an end, with the answers of the
sequential vector and the environments in the same states, and with nothing left in the pipes. -/
theorem C130_same (f : S → S × R) (idx : Idx) (σ σ' : Fin n → S) (rs : List R) (h : dummyCall f idx σ = .ok (σ', rs)) :
    ∃ ts, targets n idx = .ok ts ∧
      (∀ z, Steps (idle σ (callOps f ts)) z → ∃ w, Steps z w ∧ ¬∃ v, Step w v) ∧
      ∀ z, Steps (idle σ (callOps f ts)) z → (¬∃ w, Step z w) → z.ops = [] ∧ z.log = rs ∧ ∀ i, z.ws i = ⟨σ' i, [], []⟩ := by
  unfold dummyCall at h
  cases ht : targets n idx with
  | error e => rw [ht] at h; cases h
  | ok ts =>
    rw [ht] at h
    simp only [Except.ok.injEq] at h
    refine ⟨ts, rfl, ?_⟩
    have ho : outcome (idle σ (callOps f ts)) = some (fun i => (σ' i, []), rs) := by
      have e := eager_call f ts [] σ
      simp only [List.append_nil, eager, Option.map_some, h] at e
      simp only [outcome, idle, settled, flush, List.append_nil, e, Option.map_some, List.nil_append]
    obtain ⟨h1, h2⟩ := runs _ ho
    refine ⟨fun z hz => ?_, fun z hz hs => ?_⟩
    · obtain ⟨w, hw, h0⟩ := h1 z hz
      exact ⟨w, hw, fun ⟨v, hv⟩ => by have := todo_step hv; omega⟩
    · obtain ⟨a, b, c⟩ := h2 z hz hs
      refine ⟨a, b, fun i => ?_⟩
      obtain ⟨c1, c2, c3⟩ := c i
      cases hw : z.ws i with
      | mk s ib ob => rw [hw] at c1 c2 c3; simp at c1 c2 c3; subst c1 c2 c3; rfl

/-- **C130.** What a call does: it acts on the named environments only; with no environment named twice every answer is that of its environment as it was before the call, in the order of `indices`. -/
theorem C130_call (f : S → S × R) (idx : Idx) (σ : Fin n → S) (ts : List (Fin n)) (ht : targets n idx = .ok ts) :
    ∃ σ' rs, dummyCall f idx σ = .ok (σ', rs) ∧ rs.length = ts.length ∧ (∀ i, i ∉ ts → σ' i = σ i) ∧ (ts.Nodup → rs = ts.map (fun i => (f (σ i)).2) ∧ ∀ i ∈ ts, σ' i = (f (σ i)).1) := by
  refine ⟨(dummyLoop f ts σ).1, (dummyLoop f ts σ).2, by simp [dummyCall, ht], ?_⟩
  clear ht
  induction ts generalizing σ with
  | nil => simp [dummyLoop]
  | cons i t ih =>
    obtain ⟨h1, h2, h3⟩ := ih (Function.update σ i (f (σ i)).1)
    refine ⟨by simp [dummyLoop, h1], fun j hj => ?_, fun hn => ?_⟩
    · simp only [List.mem_cons, not_or] at hj
      simp only [dummyLoop]
      rw [h2 j hj.2, Function.update_of_ne hj.1]
    · obtain ⟨hi, hn'⟩ := List.nodup_cons.1 hn
      obtain ⟨h4, h5⟩ := h3 hn'
      refine ⟨?_, fun j hj => ?_⟩
      · simp only [dummyLoop, List.map_cons, h4]
        congr 1
        apply List.map_congr_left
        intro j hj
        rw [Function.update_of_ne (fun h : j = i => hi (by rw [← h]; exact hj))]
      · simp only [dummyLoop]
        rcases List.mem_cons.1 hj with h | h
        · subst h
          rw [h2 j hi, Function.update_self]
        · rw [h5 j h, Function.update_of_ne (fun e : j = i => hi (by rw [← e]; exact h))]

/-- **C130.** `get_attr` without `indices`: the attribute of every environment in order; reading changes nothing, also when environments are named twice. -/
theorem C130_get (g : S → R) (σ : Fin n → S) :
    dummyCall (fun s => (s, g s)) .all σ = .ok (σ, List.ofFn fun i => g (σ i)) ∧
    ∀ idx ts, targets n idx = .ok ts → dummyCall (fun s => (s, g s)) idx σ = .ok (σ, ts.map fun i => g (σ i)) := by
  have h : ∀ ts : List (Fin n), dummyLoop (fun s => (s, g s)) ts σ = (σ, ts.map fun i => g (σ i)) := by
    intro ts
    induction ts with
    | nil => rfl
    | cons i t ih => simp [dummyLoop, ih]
  refine ⟨?_, fun idx ts ht => by simp [dummyCall, ht, h]⟩
  simp only [dummyCall, (C130_targets n).1, h, List.ofFn_eq_map]

theorem eager_sendAll (fs : Fin n → S → S × R) (l : List (Fin n)) (hl : l.Nodup) (rest : List (Op n S R)) (ws : Fin n → S × List R) :
    eager (l.map (fun i => .send i (fs i)) ++ rest) ws = eager rest fun i => if i ∈ l then ((fs i (ws i).1).1, (ws i).2 ++ [(fs i (ws i).1).2]) else ws i := by
  induction l generalizing ws with
  | nil => simp
  | cons i t ih =>
    obtain ⟨hi, ht⟩ := List.nodup_cons.1 hl
    simp only [List.map_cons, List.cons_append, eager]
    rw [ih ht]
    congr 1
    funext j
    by_cases hj : j = i
    · subst hj; simp [hi]
    · simp [hj]

theorem eager_recvAll (hd : Fin n → R) (tl : Fin n → List R) (l : List (Fin n)) (hl : l.Nodup) (rest : List (Op n S R)) (ws : Fin n → S × List R) (h : ∀ i ∈ l, (ws i).2 = hd i :: tl i) :
    eager (l.map .recv ++ rest) ws = (eager rest fun i => if i ∈ l then ((ws i).1, tl i) else ws i).map fun p => (p.1, l.map hd ++ p.2) := by
  induction l generalizing ws with
  | nil => simp
  | cons i t ih =>
    obtain ⟨hi, ht⟩ := List.nodup_cons.1 hl
    simp only [List.map_cons, List.cons_append, eager, h i (by simp)]
    rw [ih ht _ (fun j hj => ?_), Option.map_map]
    · congr 2
      funext j
      by_cases hj : j = i
      · subst hj; simp [hi]
      · simp [hj]
    · rw [Function.update_of_ne (fun e : j = i => hi (by rw [← e]; exact hj))]
      exact h j (by simp [hj])

/-- **C130 (defect).** A vector of processes that is asked for an attribute between `step_async` and `step_wait` exchanges the answers: `get_attr` returns what the steps returned, and `step_wait` takes the attributes (read after the
step) for the results of the step.  The first `n` answers received are those of `get_attr`, the next `n` those of `step_wait`. -/
theorem C130_pending (fs : Fin n → S → S × R) (g : S → R) (σ : Fin n → S) (z : Sys n S R)
    (hz : Steps (idle σ (stepAsync fs ++ (callOps (fun s => (s, g s)) (List.finRange n) ++ recvAll))) z) (hs : ¬∃ w, Step z w) :
    z.log = (List.ofFn fun i => (fs i (σ i)).2) ++ List.ofFn fun i => g (fs i (σ i)).1 := by
  have hn := List.nodup_finRange n
  have ho : outcome (idle σ (stepAsync fs ++ (callOps (fun s => (s, g s)) (List.finRange n) ++ recvAll))) =
      some (fun i => ((fs i (σ i)).1, []), (List.ofFn fun i => (fs i (σ i)).2) ++ List.ofFn fun i => g (fs i (σ i)).1) := by
    unfold outcome stepAsync callOps recvAll
    simp only [idle, settled, flush, List.append_nil]
    rw [eager_sendAll _ _ hn, List.append_assoc, eager_sendAll (fun _ s => (s, g s)) _ hn]
    rw [eager_recvAll (fun i => (fs i (σ i)).2) (fun i => [g (fs i (σ i)).1]) _ hn _ _ (by intro i hi; simp)]
    rw [← List.append_nil (List.map Op.recv (List.finRange n)), eager_recvAll (fun i => g (fs i (σ i)).1) (fun _ => []) _ hn _ _ (by intro i hi; simp)]
    simp [eager, List.ofFn_eq_map]
  exact ((runs _ ho).2 z hz hs).2.1

end Calls

/-! ### Structured observations -/

section Structured
variable {Key V : Type} [DecidableEq Key]

/-- The observation belongs to the space: all keys, or all entries, and more are allowed. -/
def InSpace : Space Key → Obs Key V → Prop
  | .dict keys, .dict l => ∀ k ∈ keys, ∃ v, l.lookup k = some v
  | .tuple k, .tuple l => k ≤ l.length
  | .plain, .plain _ => True
  | _, _ => False

/-- The entry of an observation under a key, written without exceptions. -/
def part (v0 : V) (o : Obs Key V) : BufKey Key → V
  | .none => match o with | .plain v => v | _ => v0
  | .name k => match o with | .dict l => (l.lookup k).getD v0 | _ => v0
  | .pos i => match o with | .tuple l => l.getD i v0 | _ => v0

theorem entry_ok (v0 : V) {sp : Space Key} {o : Obs Key V} (h : InSpace sp o) {k : BufKey Key} (hk : k ∈ spaceKeys sp) : entry o k = .ok (part v0 o k) := by
  cases sp with
  | dict keys =>
    cases o <;> simp [InSpace] at h
    rename_i l
    obtain ⟨k', hk', rfl⟩ := List.mem_map.1 hk
    obtain ⟨v, hv⟩ := h k' hk'
    simp [entry, part, hv]
  | tuple m =>
    cases o <;> simp [InSpace] at h
    rename_i l
    obtain ⟨i, hi, rfl⟩ := List.mem_map.1 hk
    have : i < l.length := by have := List.mem_range.1 hi; omega
    simp [entry, part, this]
  | plain =>
    cases o <;> simp [InSpace] at h
    simp [spaceKeys] at hk
    subst hk
    rfl

theorem saveObs_ok (cast : BufKey Key → V → V) (v0 : V) {sp : Space Key} {o : Obs Key V} (h : InSpace sp o) (idx : ℕ) (keys : List (BufKey Key)) (hk : ∀ k ∈ keys, k ∈ spaceKeys sp) (row : BufKey Key → List V) :
    saveObs cast idx o (keys.map fun k => (k, row k)) = .ok (keys.map fun k => (k, (row k).set idx (cast k (part v0 o k)))) := by
  induction keys with
  | nil => rfl
  | cons k t ih =>
    have := ih fun k' hk' => hk k' (by simp [hk'])
    simp only [List.map_cons, saveObs, entry_ok v0 h (hk k (by simp)), this]

theorem saveAll_ok (cast : BufKey Key → V → V) (v0 : V) {sp : Space Key} (obs pre : List (Obs Key V)) (h : ∀ o ∈ obs, InSpace sp o) :
    saveAll cast pre.length obs ((spaceKeys sp).map fun k => (k, (pre.map fun o => cast k (part v0 o k)) ++ List.replicate obs.length v0)) =
      .ok ((spaceKeys sp).map fun k => (k, (pre ++ obs).map fun o => cast k (part v0 o k))) := by
  induction obs generalizing pre with
  | nil => simp [saveAll]
  | cons o t ih =>
    rw [saveAll, saveObs_ok cast v0 (h o (by simp)) _ _ (fun k hk => hk)]
    have e : ∀ k, ((pre.map fun o => cast k (part v0 o k)) ++ List.replicate (o :: t).length v0).set pre.length (cast k (part v0 o k)) =
        ((pre ++ [o]).map fun o => cast k (part v0 o k)) ++ List.replicate t.length v0 := by
      intro k
      rw [List.set_append_right _ _ (by simp)]
      simp [List.replicate_succ]
    simp only [e]
    have := ih (pre ++ [o]) fun o' ho' => h o' (by simp [ho'])
    simpa using this

theorem column_ok (v0 : V) {sp : Space Key} {k : BufKey Key} (hk : k ∈ spaceKeys sp) (obs : List (Obs Key V)) (h : ∀ o ∈ obs, InSpace sp o) : column k obs = .ok (obs.map fun o => part v0 o k) := by
  induction obs with
  | nil => rfl
  | cons o t ih =>
    have := ih fun o' ho' => h o' (by simp [ho'])
    simp only [column, entry_ok v0 (h o (by simp)) hk, this, List.map_cons]

theorem columns_ok (v0 : V) {sp : Space Key} (obs : List (Obs Key V)) (h : ∀ o ∈ obs, InSpace sp o) (keys : List (BufKey Key)) (hk : ∀ k ∈ keys, k ∈ spaceKeys sp) :
    columns keys obs = .ok (keys.map fun k => obs.map fun o => part v0 o k) := by
  induction keys with
  | nil => rfl
  | cons k t ih =>
    have := ih fun k' hk' => hk k' (by simp [hk'])
    simp only [columns, column_ok v0 (hk k (by simp)) obs h, this, List.map_cons]

/-- The batch that has to come out: under every key of the space, in its order, the entries of the environments in their order. -/
def expected (v0 : V) (cast : BufKey Key → V → V) (sp : Space Key) (obs : List (Obs Key V)) : Batch Key V :=
  match sp with
  | .dict keys => .dict (keys.map fun k => (k, obs.map fun o => cast (.name k) (part v0 o (.name k))))
  | .tuple m => .tuple ((List.range m).map fun i => obs.map fun o => cast (.pos i) (part v0 o (.pos i)))
  | .plain => .plain (obs.map fun o => cast .none (part v0 o .none))

theorem lookup_pos (m : ℕ) (row : BufKey Key → List V) {i : ℕ} (hi : i < m) : (((List.range m).map BufKey.pos).map fun k : BufKey Key => (k, row k)).lookup (.pos i) = some (row (.pos i)) := by
  rw [List.map_map]
  have : ∀ l : List ℕ, i ∈ l → (l.map ((fun k : BufKey Key => (k, row k)) ∘ BufKey.pos)).lookup (.pos i) = some (row (.pos i)) := by
    intro l
    induction l with
    | nil => simp
    | cons a t ih =>
      intro h
      by_cases ha : i = a
      · subst ha; simp
      · have hb : ((BufKey.pos i : BufKey Key) == BufKey.pos a) = false := by simp [ha]
        simp only [List.map_cons, Function.comp, List.lookup, hb]
        exact ih (by simpa [ha] using h)
  exact this _ (List.mem_range.2 hi)

theorem mapM_some {α β : Type} (f : α → Option β) (g : α → β) (l : List α) (h : ∀ a ∈ l, f a = some (g a)) : l.mapM f = some (l.map g) := by
  induction l with
  | nil => rfl
  | cons a t ih =>
    rw [List.mapM_cons, h a (by simp), ih fun b hb => h b (by simp [hb])]
    rfl

theorem filterMap_name (keys : List Key) (row : BufKey Key → List V) :
    (keys.map ((fun k => (k, row k)) ∘ BufKey.name)).filterMap (fun p : BufKey Key × List V => match p.1 with | .name k => some (k, p.2) | _ => none) = keys.map fun k => (k, row (.name k)) := by
  induction keys with
  | nil => rfl
  | cons k t ih => simp

theorem zip_map_self {α β : Type} (l : List α) (g : α → β) : l.zip (l.map g) = l.map fun a => (a, g a) := by
  induction l with
  | nil => rfl
  | cons a t ih => simp [ih]

/-- **C130.** Structured observations: both vectors give, under every key of the space, the entries of all environments in order; entries that are not in the space are dropped.  The sequential vector converts to the types of its
buffers. -/
theorem C130_structured (cast : BufKey Key → V → V) (v0 : V) (sp : Space Key) (obs : List (Obs Key V)) (h : ∀ o ∈ obs, InSpace sp o) (hne : obs ≠ []) :
    dummyObs cast v0 sp obs = .ok (expected v0 cast sp obs) ∧ flattenObs sp obs = .ok (expected v0 (fun _ v => v) sp obs) := by
  constructor
  · have hs := saveAll_ok cast v0 obs [] h
    simp only [List.map_nil, List.nil_append, List.length_nil] at hs
    unfold dummyObs
    rw [hs]
    cases sp with
    | dict keys =>
      simp only [dictToObs, expected, spaceKeys, List.map_map]
      congr 2
      exact filterMap_name keys _
    | tuple m =>
      simp only [dictToObs, expected, spaceKeys, List.length_map, List.length_range, if_true]
      rw [mapM_some _ (fun i => obs.map fun o => cast (.pos i) (part v0 o (.pos i))) _ (fun i hi => lookup_pos m _ (List.mem_range.1 hi))]
    | plain => rfl
  · cases obs with
    | nil => exact absurd rfl hne
    | cons o t =>
      have ho := h o (by simp)
      cases sp with
      | dict keys =>
        cases o <;> simp [InSpace] at ho
        have hc := columns_ok v0 _ h (keys.map .name) (fun k hk => hk)
        simp only [flattenObs, hc, expected, List.map_map]
        congr 2
        exact zip_map_self keys _
      | tuple m =>
        cases o <;> simp [InSpace] at ho
        have hc := columns_ok v0 _ h ((List.range m).map .pos) (fun k hk => hk)
        simp only [flattenObs, hc, expected, List.map_map]
        rfl
      | plain =>
        simp only [flattenObs]
        rw [column_ok v0 (by simp [spaceKeys]) _ h]
        simp [expected]

/-- **C130.** An observation without a key of the space is refused by both vectors, and so is an empty vector of processes. -/
theorem C130_missing (cast : BufKey Key → V → V) (v0 : V) (keys : List Key) (l : List (Key × V)) (t : List (Obs Key V)) (k : Key) (hk : k ∈ keys) (hl : l.lookup k = none) (sp : Space Key) :
    dummyObs cast v0 (.dict keys) (.dict l :: t) = .error .keyError ∧ (flattenObs (.dict keys) [.dict l] : Py (Batch Key V)) = .error .keyError ∧ (flattenObs sp [] : Py (Batch Key V)) = .error .assertion := by
  have hent : ∀ k', entry (.dict l : Obs Key V) (.name k') = match l.lookup k' with | some v => .ok v | none => .error .keyError := fun _ => rfl
  refine ⟨?_, ?_, rfl⟩
  · have : ∀ (keys : List Key) (row : BufKey Key → List V), k ∈ keys → saveObs cast 0 (.dict l) ((keys.map .name).map fun b => (b, row b)) = .error .keyError := by
      intro keys row
      induction keys with
      | nil => simp
      | cons a s ih =>
        intro h
        simp only [List.map_cons, saveObs, hent]
        cases ha : l.lookup a with
        | none => rfl
        | some v =>
          have hne : k ≠ a := fun e => by rw [e, ha] at hl; cases hl
          rw [ih (by simpa [hne] using h)]
    simp only [dummyObs, spaceKeys, saveAll, this keys _ hk]
  · have : ∀ keys : List Key, k ∈ keys → columns (keys.map .name) [(.dict l : Obs Key V)] = .error .keyError := by
      intro keys
      induction keys with
      | nil => simp
      | cons a s ih =>
        intro h
        simp only [List.map_cons, columns, column, hent]
        cases ha : l.lookup a with
        | none => rfl
        | some v =>
          have hne : k ≠ a := fun e => by rw [e, ha] at hl; cases hl
          simp only [ih (by simpa [hne] using h)]
    simp only [flattenObs, this keys hk]

end Structured

/-! ### Attributes of wrappers -/

section Wrappers
variable {Name V : Type}

theorem depthCheck_isSome (base : Name → Option V) (name : Name) (ws : List (Name → Option V)) (i : ℕ) (found : Bool) :
    (depthCheck base name ws i found).isSome = decide ((if found then 1 else 2) ≤ ((ws ++ [base]).filterMap fun l => l name).length) := by
  induction ws generalizing i found with
  | nil =>
    cases hb : base name <;> cases found <;> simp [depthCheck, hb]
  | cons w t ih =>
    cases hw : w name with
    | none => cases found <;> simp [depthCheck, hw, ih]
    | some v => cases found <;> simp [depthCheck, hw, ih]

theorem getRecursive_eq (base : Name → Option V) (name : Name) (ws : List (Name → Option V)) :
    getRecursive base name ws = match (ws ++ [base]).filterMap (fun l => l name) with | v :: _ => .ok v | [] => .error .attributeError := by
  induction ws with
  | nil => cases hb : base name <;> simp [getRecursive, hb]
  | cons w t ih =>
    cases hw : w name with
    | none => simp [getRecursive, hw, ih]
    | some v => simp [getRecursive, hw]

/-- **C130.** Reading an attribute of a wrapped vector: the wrapper's own if it has it; otherwise the one of the only layer further in that has it; an `AttributeError` if no layer or more than one has it. -/
theorem C130_attribute (base w : Name → Option V) (ws : List (Name → Option V)) (name : Name) :
    (∀ v, w name = some v → getAttr base (w :: ws) name = .ok v) ∧
    (w name = none → getAttr base (w :: ws) name = match (ws ++ [base]).filterMap (fun l => l name) with | [v] => .ok v | _ => .error .attributeError) := by
  refine ⟨fun v h => by simp [getAttr, h], fun h => ?_⟩
  have h1 := depthCheck_isSome base name (w :: ws) 0 false
  have h2 := getRecursive_eq base name (w :: ws)
  simp only [List.cons_append, List.filterMap_cons, h] at h1 h2
  simp only [getAttr, h, h1, h2]
  generalize (ws ++ [base]).filterMap (fun l => l name) = vs
  match vs with
  | [] => rfl
  | [v] => rfl
  | a :: b :: t => simp

/-- **C130 (defect).** An assignment to an attribute of `_UnvecWrapper` never reaches the environment: it hides the attribute of the environment, which keeps its value. -/
theorem C130_unvec_set [DecidableEq Name] (own venv : Name → Option V) (name : Name) (v : V) :
    (unvecSet own venv name v).2 = venv ∧ unvecGet (unvecSet own venv name v).1 (unvecSet own venv name v).2 name = .ok v ∧
    (∀ u, own name = none → venv name = some u → unvecGet own venv name = .ok u) ∧ ∀ m, m ≠ name → unvecGet (unvecSet own venv name v).1 venv m = unvecGet own venv m := by
  refine ⟨rfl, by simp [unvecSet, unvecGet], fun u h1 h2 => by simp [unvecGet, h1, h2], fun m hm => by simp [unvecSet, unvecGet, hm]⟩

end Wrappers

/-! ### `tile_images` -/

theorem tileHeight_spec (n : ℕ) (hn : 0 < n) : n ≤ tileHeight n * tileHeight n ∧ (tileHeight n - 1) * (tileHeight n - 1) < n ∧ 0 < tileHeight n := by
  unfold tileHeight
  have h1 := Nat.sqrt_le n
  have h3 := Nat.lt_succ_sqrt n
  have h0 : 0 < Nat.sqrt n := Nat.sqrt_pos.2 hn
  split_ifs with h
  · refine ⟨h.ge, ?_, h0⟩
    calc (Nat.sqrt n - 1) * (Nat.sqrt n - 1) < Nat.sqrt n * Nat.sqrt n := Nat.mul_lt_mul_of_lt_of_le (by omega) (by omega) h0
      _ = n := h
  · refine ⟨h3.le, ?_, by omega⟩
    simp only [Nat.add_sub_cancel]
    omega

/-- **C130.** The grid of `tile_images`: room for all images, as square as possible. -/
theorem C130_grid (n : ℕ) (hn : 0 < n) :
    n ≤ tileHeight n * tileWidth n ∧ tileWidth n ≤ tileHeight n ∧ tileHeight n ≤ tileWidth n + 1 ∧ tileHeight n * (tileWidth n - 1) < n ∧ (tileHeight n - 1) * (tileHeight n - 1) < n ∧ 0 < tileWidth n ∧
    ∀ k, n = k * k → tileHeight n = k ∧ tileWidth n = k := by
  obtain ⟨h1, h2, h3⟩ := tileHeight_spec n hn
  have hW : n ≤ tileHeight n * tileWidth n ∧ tileHeight n * (tileWidth n - 1) < n ∧ 0 < tileWidth n := by
    unfold tileWidth
    have hd := Nat.div_add_mod (n + tileHeight n - 1) (tileHeight n)
    have hm := Nat.mod_lt (n + tileHeight n - 1) h3
    obtain ⟨q, hq⟩ : ∃ q, (n + tileHeight n - 1) / tileHeight n = q := ⟨_, rfl⟩
    rw [hq] at hd ⊢
    have hq0 : 0 < q := by
      rw [← hq]
      exact Nat.div_pos (by omega) h3
    obtain ⟨q', rfl⟩ : ∃ q', q = q' + 1 := ⟨q - 1, by omega⟩
    rw [Nat.mul_add] at hd ⊢
    simp only [Nat.add_sub_cancel]
    omega
  obtain ⟨hW1, hW2, hW3⟩ := hW
  have hle : tileWidth n ≤ tileHeight n := by
    by_contra h
    push Not at h
    have : tileHeight n * tileHeight n ≤ tileHeight n * (tileWidth n - 1) := Nat.mul_le_mul_left _ (by omega)
    omega
  have hge : tileHeight n ≤ tileWidth n + 1 := by
    by_contra h
    push Not at h
    obtain ⟨a, ha⟩ : ∃ a, tileHeight n = a + 2 := ⟨tileHeight n - 2, by omega⟩
    have : tileHeight n * tileWidth n ≤ tileHeight n * a := Nat.mul_le_mul_left _ (by omega)
    rw [ha] at this h2 hW1
    have e1 : a + 2 - 1 = a + 1 := by omega
    rw [e1] at h2
    nlinarith
  refine ⟨hW1, hle, hge, hW2, h2, hW3, fun k hk => ?_⟩
  have hH : tileHeight n = k := by
    unfold tileHeight
    rw [hk, Nat.sqrt_eq, if_pos rfl]
  refine ⟨hH, ?_⟩
  rw [hH] at hW1 hle
  have hk0 : 0 < k := by rw [← hH]; exact h3
  have := Nat.le_of_mul_le_mul_left (le_trans (le_of_eq hk.symm) hW1) hk0
  omega

/-- **C130.** `tile_images`: the pixel in row `r` and column `s` of the big image is that of the image in the field of the grid where it lies, row by row; the fields after the last image are black.  Without images it fails. -/
theorem C130_tiles {V : Type} (zero : V) (n h w c : ℕ) (img : ℕ → ℕ → ℕ → ℕ → V) :
    (tileImages zero 0 h w c img : Py ((ℕ × ℕ × ℕ) × (ℕ → ℕ → ℕ → V))) = .error .valueError ∧
    (0 < n → ∃ big, tileImages zero n h w c img = .ok ((tileHeight n * h, tileWidth n * w, c), big) ∧
      ∀ r s e, r < tileHeight n * h → s < tileWidth n * w → e < c →
        big r s e = if r / h * tileWidth n + s / w < n then img (r / h * tileWidth n + s / w) (r % h) (s % w) e else zero) := by
  refine ⟨rfl, fun hn => ?_⟩
  unfold tileImages
  rw [if_neg (by omega)]
  refine ⟨_, rfl, fun r s e hr hs he => ?_⟩
  have hc : 0 < c := by omega
  have hw : 0 < w := Nat.pos_of_ne_zero fun h0 => by simp [h0] at hs
  have hh : 0 < h := Nat.pos_of_ne_zero fun h0 => by simp [h0] at hr
  have hW : 0 < tileWidth n := Nat.pos_of_ne_zero fun h0 => by simp [h0] at hs
  generalize hWd : tileWidth n = W at *
  have hsw : s / w < W := Nat.div_lt_of_lt_mul (by rw [Nat.mul_comm]; exact hs)
  have div_add : ∀ a b d : ℕ, b < d → (a * d + b) / d = a ∧ (a * d + b) % d = b := by
    intro a b d hb
    constructor
    · rw [Nat.mul_comm, Nat.mul_add_div (by omega), Nat.div_eq_of_lt hb, Nat.add_zero]
    · rw [Nat.mul_comm, Nat.mul_add_mod, Nat.mod_eq_of_lt hb]
  simp only [tileFlat, hWd]
  rw [(div_add _ e c he).1, (div_add _ e c he).2]
  have e1 : r * (W * w) + s = (r * W + s / w) * w + s % w := by
    have := Nat.div_add_mod s w
    calc r * (W * w) + s = r * (W * w) + (w * (s / w) + s % w) := by rw [this]
      _ = _ := by ring
  rw [e1, (div_add _ _ w (Nat.mod_lt _ hw)).1, (div_add _ _ w (Nat.mod_lt _ hw)).2, (div_add _ _ W hsw).1, (div_add _ _ W hsw).2]
  generalize hi : r / h * W + s / w = i
  have hrm := Nat.mod_lt r hh
  have hsm := Nat.mod_lt s hw
  rw [(div_add _ e c he).1, (div_add _ e c he).2, (div_add _ _ w hsm).1, (div_add _ _ w hsm).2, (div_add _ _ h hrm).1, (div_add _ _ h hrm).2]
  have hlt : (((i * h + r % h) * w + s % w) * c + e < n * (h * w * c)) ↔ i < n := by
    have h1 : n * (h * w * c) = ((n * h) * w) * c := by ring
    rw [h1]
    constructor
    · intro hl
      by_contra hge
      push Not at hge
      have a1 : n * h ≤ i * h + r % h := le_trans (Nat.mul_le_mul_right h hge) (by omega)
      have a2 : n * h * w ≤ (i * h + r % h) * w + s % w := le_trans (Nat.mul_le_mul_right w a1) (by omega)
      have a3 : n * h * w * c ≤ ((i * h + r % h) * w + s % w) * c + e := le_trans (Nat.mul_le_mul_right c a2) (by omega)
      omega
    · intro hl
      have a1 : i * h + r % h + 1 ≤ n * h := by
        have := Nat.mul_le_mul_right h hl
        rw [Nat.succ_mul] at this
        omega
      have a2 : (i * h + r % h) * w + s % w + 1 ≤ n * h * w := by
        have := Nat.mul_le_mul_right w a1
        rw [Nat.succ_mul] at this
        omega
      have := Nat.mul_le_mul_right c a2
      rw [Nat.succ_mul] at this
      omega
  simp only [hlt]

/-! ### `make_vec_env` -/

/-- **C130.** `make_vec_env`: every environment gets the seed plus its rank and a file of its own in the directory of the monitors; with another `start_index` seeds and files do not overlap. -/
theorem C130_make {Kw : Type} (byId : Bool) (kwargs : Kw) (n : ℕ) (hn : 0 < n) (seed : Option ℤ) (start : ℕ) (dir : Option Str) :
    ∃ l : List (Made Kw), makeVecEnv byId kwargs n seed start dir = .ok l ∧ l.length = n ∧
      (∀ (i : ℕ) m, l[i]? = some m → (∀ s, seed = some s → m.seed = some (s + start + i)) ∧ (seed = none → m.seed = none) ∧ (m.file.isSome = dir.isSome) ∧ (byId = false → m.kwargs = some kwargs)) ∧
      (seed ≠ none → (l.map (·.seed)).Nodup) ∧ (dir ≠ none → (l.map (·.file)).Nodup) ∧
      ∀ n' l' s', makeVecEnv byId kwargs n' seed s' dir = .ok l' → start + n ≤ s' → (∀ a ∈ l, ∀ b ∈ l', (seed ≠ none → a.seed ≠ b.seed) ∧ (dir ≠ none → a.file ≠ b.file)) := by
  have hseed : ∀ i j : ℕ, seed ≠ none → (makeEnv byId kwargs seed dir i).seed = (makeEnv byId kwargs seed dir j).seed → i = j := by
    intro i j h
    obtain ⟨s, rfl⟩ := Option.ne_none_iff_exists'.1 h
    simp [makeEnv]
  have hfile : ∀ i j : ℕ, dir ≠ none → (makeEnv byId kwargs seed dir i).file = (makeEnv byId kwargs seed dir j).file → i = j := by
    intro i j h
    obtain ⟨d, rfl⟩ := Option.ne_none_iff_exists'.1 h
    intro e
    simp only [makeEnv, Option.map_some, Option.some.injEq, Prod.mk.injEq, true_and] at e
    exact RunFiles.toDigits_inj e
  refine ⟨(List.range n).map fun i => makeEnv byId kwargs seed dir (i + start), by simp [makeVecEnv, hn.ne'], by simp, fun i m hm => ?_, fun h => ?_, fun h => ?_, fun n' l' s' h hs a ha b hb => ?_⟩
  · simp only [List.getElem?_map, Option.map_eq_some_iff] at hm
    obtain ⟨k, hk, rfl⟩ := hm
    have : k = i := by
      rw [List.getElem?_eq_some_iff] at hk
      obtain ⟨_, hk⟩ := hk
      simpa using hk.symm
    subst this
    refine ⟨fun s hs => ?_, fun hs => by simp [makeEnv, hs], by cases dir <;> simp [makeEnv], fun hb => by simp [makeEnv, hb]⟩
    simp only [makeEnv, hs, Option.map_some]
    congr 1
    push_cast
    ring
  · rw [List.map_map]
    refine List.Nodup.map_on (fun i _ j _ e => ?_) List.nodup_range
    have := hseed _ _ h e
    omega
  · rw [List.map_map]
    refine List.Nodup.map_on (fun i _ j _ e => ?_) List.nodup_range
    have := hfile _ _ h e
    omega
  · unfold makeVecEnv at h
    split_ifs at h
    cases h
    obtain ⟨i, hi, rfl⟩ := List.mem_map.1 ha
    obtain ⟨j, hj, rfl⟩ := List.mem_map.1 hb
    have hi' := List.mem_range.1 hi
    exact ⟨fun h0 e => by have := hseed _ _ h0 e; omega, fun h0 e => by have := hfile _ _ h0 e; omega⟩

/-- **C130.** The keywords for the environment are ignored if it is named by an id; a vector without environments fails. -/
theorem C130_make_id {Kw : Type} (k k' : Kw) (n : ℕ) (seed : Option ℤ) (start : ℕ) (dir : Option Str) (b : Bool) :
    makeVecEnv true k n seed start dir = makeVecEnv true k' n seed start dir ∧ makeVecEnv b k 0 seed start dir = .error .indexError := ⟨rfl, rfl⟩

/-! ### Concrete cases -/

/-- A method that counts its calls, on environments 2, 0 and 2 again. -/
example : (dummyCall (fun s : ℕ => (s + 1, s * 10)) (.list [-1, 0, 2]) (fun i : Fin 3 => (i : ℕ) + 4)).map (fun r => (List.ofFn r.1, r.2)) = .ok ([5, 5, 8], [60, 40, 70]) := by decide

/-- A dictionary of two entries from two environments, one of which has a third entry. -/
example : dummyObs (fun _ v => v) 0 (.dict ["a", "b"]) [.dict [("b", 1), ("a", 2)], .dict [("a", 3), ("c", 5), ("b", 4)]] = .ok (.dict [("a", [2, 3]), ("b", [1, 4])]) := by decide

/-- The attribute of an inner wrapper, and one that two layers have. -/
example : getAttr (fun m : ℕ => if m = 1 then some 10 else none) [fun _ => none, fun m => if m = 1 ∨ m = 2 then some 20 else none] 2 = .ok 20 ∧
    getAttr (fun m : ℕ => if m = 1 then some 10 else none) [fun _ => none, fun m => if m = 1 ∨ m = 2 then some 20 else none] 1 = .error .attributeError := by decide

/-- The grids for 5, 6 and 9 images. -/
example : (tileHeight 5, tileWidth 5) = (3, 2) ∧ (tileHeight 6, tileWidth 6) = (3, 2) ∧ (tileHeight 9, tileWidth 9) = (3, 3) := by decide +kernel

/-- Two environments, with seeds and files. -/
example : makeVecEnv false () 2 (some 7) 3 (some ['d']) = .ok [⟨some (), some 10, some (['d'], ['3'])⟩, ⟨some (), some 11, some (['d'], ['4'])⟩] := by decide

end Neorl.VecAttr

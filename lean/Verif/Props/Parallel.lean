import Verif.Parallel
import Verif.Props.PSO

/-!
# C144: the number of processes does not change a run
-/

set_option linter.unusedSectionVars false
set_option linter.unusedVariables false

namespace Neorl.Parallel

section
variable {X Y : Type}

/-- **C144.** Whatever the number of workers and the order in which the calls end, the results are those of the loop, and the loop's results can be obtained. -/
theorem C144_same {n : ℕ} (hn : 0 < n) (f : X → Py Y) (items : List X) (ys : List Y) : Returns n f items (.ok ys) ↔ serial f items = .ok ys := by
  constructor
  · intro h
    cases h with
    | ok hr h1 h2 hg => rwa [gather_eq (inv_reach hr) h1 h2] at hg
  · intro h
    obtain ⟨d, hd⟩ := finish_all hn f ((List.range items.length).zip items) []
    refine .ok hd rfl rfl ?_
    rw [gather_eq (inv_reach hd) rfl rfl, h]

/-- **C144.** The parallel evaluation can raise exactly the exceptions raised on some item. -/
theorem C144_error {n : ℕ} (hn : 0 < n) (f : X → Py Y) (items : List X) (e : PyErr) : Returns n f items (.error e) ↔ ∃ x ∈ items, f x = .error e := by
  constructor
  · intro h
    cases h with
    | error hr hm =>
      obtain ⟨x, h1, h2⟩ := (inv_reach hr).vals _ hm
      exact ⟨x, List.mem_of_getElem? h1, h2.symm⟩
  · rintro ⟨x, hx, he⟩
    obtain ⟨d, hd⟩ := finish_all hn f ((List.range items.length).zip items) []
    have hi := inv_reach hd
    obtain ⟨i, hl, rfl⟩ := List.getElem_of_mem hx
    have hp := hi.once
    obtain ⟨v, e1, _⟩ := lookup_some (hp.mem_iff.2 (List.mem_range.2 hl) : i ∈ d.map Prod.fst)
    obtain ⟨y, e2, e3⟩ := hi.vals _ e1
    simp only at e2 e3
    rw [List.getElem?_eq_getElem hl] at e2
    cases e2
    refine .error (i := i) hd ?_
    rw [← he, ← e3]
    exact e1

/-- **C144.** The parallel evaluation can fail exactly when the loop fails. -/
theorem C144_fails {n : ℕ} (hn : 0 < n) (f : X → Py Y) (items : List X) : (∃ e, Returns n f items (.error e)) ↔ ∃ e, serial f items = .error e := by
  have hs := serial_ok (f := f) (items := items)
  constructor
  · rintro ⟨e, h⟩
    obtain ⟨x, hx, he⟩ := (C144_error hn f items e).1 h
    cases hr : serial f items with
    | error e' => exact ⟨e', rfl⟩
    | ok ys =>
      obtain ⟨y, hy⟩ := hs.1 ⟨ys, hr⟩ x hx
      rw [he] at hy
      cases hy
  · rintro ⟨e, h⟩
    by_contra hne
    have : ∀ x ∈ items, ∃ y, f x = .ok y := by
      intro x hx
      cases hf : f x with
      | ok y => exact ⟨y, rfl⟩
      | error e' => exact absurd ⟨e', (C144_error hn f items e').2 ⟨x, hx, hf⟩⟩ hne
    obtain ⟨ys, hys⟩ := hs.2 this
    rw [h] at hys
    cases hys

/-- **C144.** At every moment at most `n` calls run, and every item is waiting, running or evaluated exactly once, on its own argument. -/
theorem C144_once {n : ℕ} {f : X → Py Y} {items : List X} {s : Pool X Y} (h : Reach n f items s) :
    s.busy.length ≤ n ∧ ((s.todo ++ s.busy).map Prod.fst ++ s.done.map Prod.fst).Perm (List.range items.length) ∧ ∀ d ∈ s.done, ∃ x, items[d.1]? = some x ∧ d.2 = f x := by
  refine ⟨?_, (inv_reach h).once, (inv_reach h).vals⟩
  induction h with
  | refl => simp [start]
  | tail _ hs ih =>
    cases hs with
    | take hb => exact hb
    | finish =>
      simp only [List.length_append, List.length_cons] at ih ⊢
      omega

/-- **C144.** With a worker there is no deadlock: a state without next event has evaluated everything. -/
theorem C144_no_deadlock {n : ℕ} (hn : 0 < n) (f : X → Py Y) (s : Pool X Y) (h : ∀ s', ¬ Step n f s s') : s.todo = [] ∧ s.busy = [] := by
  obtain ⟨todo, busy, done⟩ := s
  cases busy with
  | cons t r => exact absurd (Step.finish (l := []) (r := r) (t := t)) (h _)
  | nil =>
    cases todo with
    | nil => exact ⟨rfl, rfl⟩
    | cons t r => exact absurd (Step.take (by simpa using hn)) (h _)

/-- **C144.** Every schedule ends: after `k` events `k ≤ 2 * items.length`, with equality exactly when everything is evaluated. -/
theorem C144_ends {n : ℕ} {f : X → Py Y} {items : List X} (sched : ℕ → Pool X Y) (h0 : sched 0 = start items) (k : ℕ) (hs : ∀ i < k, Step n f (sched i) (sched (i + 1))) :
    k ≤ 2 * items.length ∧ (k = 2 * items.length ↔ (sched k).todo = [] ∧ (sched k).busy = []) := by
  have key : left (sched k) + k = 2 * items.length := by
    induction k with
    | zero => simp [h0, left, start]
    | succ k ih =>
      have := step_left (hs k (by omega))
      have := ih fun i hi => hs i (by omega)
      omega
  refine ⟨by omega, ?_⟩
  simp only [left] at key
  constructor
  · intro e
    exact ⟨List.eq_nil_of_length_eq_zero (by omega), List.eq_nil_of_length_eq_zero (by omega)⟩
  · rintro ⟨e1, e2⟩
    rw [e1, e2] at key
    simpa using key

/-- **C144.** For a fitness that does not raise, the branch taken does not matter: the outcome is unique and is the list of the values. -/
theorem C144_eval (ncores : ℕ) (f : X → Y) (items : List X) (r : Py (List Y)) : Eval ncores (fun x => .ok (f x)) items r ↔ r = .ok (items.map f) := by
  unfold Eval
  split_ifs with h
  · cases r with
    | ok ys =>
      rw [C144_same (by omega), serial_total]
      constructor
      · rintro e
        exact e.symm
      · intro e
        exact e.symm
    | error e =>
      rw [C144_error (by omega)]
      simp
  · rw [serial_total]
    exact eq_comm

end

section
variable {K : Type} [Field K] [LinearOrder K] [IsStrictOrderedRing K] [FloorRing K]

theorem gen_de (ncores : ℕ) (c : DE.Conf K) (fit : List K → K) (dr : ℕ → DE.Draw K) (rl : List (ℕ × List K)) (s : DE.State K) (r : Py (DE.State K)) :
    DEGen ncores c fit dr rl s r ↔ DE.gen c fit dr rl s = r := by
  unfold DEGen DE.gen
  cases DE.sweep c dr c.npop s.pop with
  | error e => exact eq_comm
  | ok p =>
    obtain ⟨targets, trials⟩ := p
    simp only [C144_eval, Except.ok.injEq]
    constructor
    · rintro ⟨st, sg, rfl, rfl, rfl⟩
      rw [selectBy_eq]
      cases DE.bestOf (DE.select (fun x => fit (c.S.clip x)) targets trials) <;> rfl
    · rintro rfl
      refine ⟨_, _, rfl, rfl, ?_⟩
      rw [selectBy_eq]
      cases DE.bestOf (DE.select (fun x => fit (c.S.clip x)) targets trials) <;> rfl

/-- **C144.** A run of DE is the same for every number of processes and every schedule of their evaluations. -/
theorem C144_de (ncores : ℕ) (c : DE.Conf K) (fit : List K → K) (dr : ℕ → ℕ → DE.Draw K) (rl : ℕ → List (ℕ × List K)) (pop0 : List (List K)) (g : ℕ) (r : Py (DE.State K)) :
    DERun ncores c fit dr rl pop0 g r ↔ DE.run c fit dr rl pop0 g = r := by
  induction g generalizing r with
  | zero =>
    constructor
    · intro h; cases h; rfl
    · rintro rfl; exact .zero
  | succ g ih =>
    simp only [DE.run]
    constructor
    · intro h
      cases h with
      | fail h => rw [(ih _).1 h]
      | succ h h2 => rw [(ih _).1 h]; exact (gen_de ..).1 h2
    · intro h
      cases hr : DE.run c fit dr rl pop0 g with
      | error e => rw [hr] at h; subst h; exact .fail ((ih _).2 hr)
      | ok s => rw [hr] at h; exact .succ ((ih _).2 hr) ((gen_de ..).2 h)

theorem eval_pso (ncores : ℕ) (f : List K → K) (xs : List (List K)) (mem : List (List K × K)) (swm : List K × K) (r : List K × List (List K × K) × (List K × K)) :
    PSOEval ncores f xs mem swm r ↔ r = (xs.map f, PSO.evalLoop f xs mem swm) := by
  unfold PSOEval
  split_ifs with h
  · have key := fun vs => C144_eval ncores f xs (.ok vs)
    simp only [Eval, if_pos h, Except.ok.injEq] at key
    simp only [key]
    constructor
    · rintro ⟨vs, rfl, rfl⟩
      rw [evalAfter_eq]
    · rintro rfl
      exact ⟨_, rfl, by rw [evalAfter_eq]⟩
  · exact Iff.rfl

theorem gen_pso (ncores : ℕ) (c : PSO.Conf K) (fit : List K → K) (g : ℕ) (dr : ℕ → PSO.Draw K) (s : PSO.State K) (r : Py (PSO.State K)) :
    PSOGen ncores c fit g dr s r ↔ PSO.gen c fit g dr s = r := by
  unfold PSOGen PSO.gen
  cases PSO.genSwarm c s.w s.swm dr (s.swarm.zip s.mem) with
  | error e => exact eq_comm
  | ok off =>
    simp only [eval_pso, Prod.mk.injEq]
    constructor
    · rintro ⟨vs, mem, swm, ⟨rfl, h⟩, rfl⟩
      rw [← h]
      cases PSO.nextW c g s.w with
      | error e => rfl
      | ok w => cases PSO.listMax ((off.map fun p => p.pos).map fun p => fit (c.S.clip p)) <;> rfl
    · rintro rfl
      refine ⟨_, _, _, ⟨rfl, rfl⟩, ?_⟩
      cases PSO.nextW c g s.w with
      | error e => rfl
      | ok w => cases PSO.listMax ((off.map fun p => p.pos).map fun p => fit (c.S.clip p)) <;> rfl

/-- **C144.** PSO has different code for one and for several processes (memories updated during, respectively after, the evaluations): the runs are the same. -/
theorem C144_pso (ncores : ℕ) (c : PSO.Conf K) (fit : List K → K) (dr : ℕ → ℕ → PSO.Draw K) (pos0 : List (List K)) (g : ℕ) (r : Py (PSO.State K)) :
    PSORun ncores c fit dr pos0 g r ↔ PSO.run c fit dr pos0 g = r := by
  induction g generalizing r with
  | zero =>
    constructor
    · intro h; cases h; rfl
    · rintro rfl; exact .zero
  | succ g ih =>
    simp only [PSO.run]
    constructor
    · intro h
      cases h with
      | fail h => rw [(ih _).1 h]
      | succ h h2 => rw [(ih _).1 h]; exact (gen_pso ..).1 h2
    · intro h
      cases hr : PSO.run c fit dr pos0 g with
      | error e => rw [hr] at h; subst h; exact .fail ((ih _).2 hr)
      | ok s => rw [hr] at h; exact .succ ((ih _).2 hr) ((gen_pso ..).2 h)

/-- **C144.** The chains of SA, run by the processes in any order, give the list of chains of the model in the order of their numbers. -/
theorem C144_sa (n : ℕ) (hn : 1 < n) (c : SA.Conf K) (fit : List K → K) (g : SA.GDraw K) (step0 : ℕ) (starts : List (List K × K)) (r : Py (List (SA.Chain K))) :
    Returns n (fun a => .ok (chainCall c fit g a)) (chainArgs c step0 starts) r ↔ r = .ok (SA.chains c fit g step0 starts) := by
  have key := C144_eval n (chainCall c fit g) (chainArgs c step0 starts) r
  simp only [Eval, if_pos hn] at key
  rw [key]
  have : (chainArgs c step0 starts).map (chainCall c fit g) = SA.chains c fit g step0 starts := by
    unfold chainArgs SA.chains
    refine List.ext_getElem (by simp) fun i h1 h2 => ?_
    simp only [List.getElem_map, List.getElem_mapIdx]
    rfl
  rw [this]

end

/-! ### Non-vacuity -/

/-- Three items, two workers: the second item ends first, the third before the first. -/
def exF (x : ℕ) : Py ℕ := if x = 9 then .error .valueError else .ok (x * x)

example : ∃ s, Reach 2 exF [3, 4, 5] s ∧ s.todo = [] ∧ s.busy = [] ∧ s.done = [(0, .ok 9), (2, .ok 25), (1, .ok 16)] := by
  refine ⟨⟨[], [], [(0, .ok 9), (2, .ok 25), (1, .ok 16)]⟩, ?_, rfl, rfl, rfl⟩
  refine .head (.take (by simp)) (.head (.take (by simp)) ?_)
  refine .head (Step.finish (l := []) (r := [(0, 3)])) (.head (.take (by simp)) ?_)
  refine .head (Step.finish (l := []) (r := [(0, 3)])) (.head (Step.finish (l := []) (r := [])) ?_)
  exact .refl

/-- Its results are nevertheless in the order of the items. -/
example : gather [3, 4, 5] [(0, (.ok 9 : Py ℕ)), (2, .ok 25), (1, .ok 16)] = .ok [9, 16, 25] := rfl

/-- The loop on the same items, and on items with one that raises. -/
example : serial exF [3, 4, 5] = .ok [9, 16, 25] := rfl
example : serial exF [3, 9, 5] = .error .valueError := rfl
example : ¬ ∃ ys, Returns 2 exF [3, 9, 5] (.ok ys) := by
  rintro ⟨ys, h⟩
  have := (C144_same (by omega) _ _ _).1 h
  cases this

/-- A PSO run on several processes. -/
example : ∃ s, PSORun 4 PSO.exC PSO.exFit PSO.exDr PSO.exPos 2 (.ok s) ∧ s.scores.length = 2 := by
  have key : (match PSO.run PSO.exC PSO.exFit PSO.exDr PSO.exPos 2 with | .ok s => decide (s.scores.length = 2) | _ => false) = true := by decide +kernel
  cases hr : PSO.run PSO.exC PSO.exFit PSO.exDr PSO.exPos 2 with
  | error e => rw [hr] at key; cases key
  | ok s =>
    rw [hr] at key
    exact ⟨s, (C144_pso ..).2 hr, of_decide_eq_true key⟩

end Neorl.Parallel

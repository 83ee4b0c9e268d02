import Verif.DE
import Verif.PSO
import Verif.SA
import Mathlib.Logic.Relation

/-!
# Evaluation of a population by several processes

All evolutionary optimizers evaluate a list of points with `joblib.Parallel(n_jobs=ncores)(joblib.delayed(self.fit_worker)(item) for item in core_lst)` when `ncores > 1` and with a
loop otherwise, e.g. `neorl/evolu/woa.py` lines 118-128.  `joblib` is an external library; its documented behaviour is modelled as a transition system: at most `n_jobs` calls run
at any time, calls are started in the order of the list, they may finish in any order, and the results are given back in the order of the list.  A call that raises makes the whole
call raise; which of several exceptions is raised is left open.  The worker processes work on copies, so the fitness is a function of its argument.
-/

set_option linter.unusedSectionVars false
set_option linter.unusedVariables false

namespace Neorl.Parallel

section
variable {X Y : Type}

/-- The state of `joblib.Parallel`: calls not started, calls running, results in reverse order of completion.  Every call carries its place in the list. -/
structure Pool (X Y : Type) where
  todo : List (ℕ × X)
  busy : List (ℕ × X)
  done : List (ℕ × Py Y)

/-- One event with `n` workers: a free worker takes the next call, or one of the running calls ends. -/
inductive Step (n : ℕ) (f : X → Py Y) : Pool X Y → Pool X Y → Prop
  | take {t : ℕ × X} {todo busy : List (ℕ × X)} {done : List (ℕ × Py Y)} : busy.length < n → Step n f ⟨t :: todo, busy, done⟩ ⟨todo, t :: busy, done⟩
  | finish {t : ℕ × X} {todo l r : List (ℕ × X)} {done : List (ℕ × Py Y)} : Step n f ⟨todo, l ++ t :: r, done⟩ ⟨todo, l ++ r, (t.1, f t.2) :: done⟩

/-- All calls waiting. -/
def start (items : List X) : Pool X Y := ⟨(List.range items.length).zip items, [], []⟩

/-- The states a schedule can lead to. -/
def Reach (n : ℕ) (f : X → Py Y) (items : List X) (s : Pool X Y) : Prop := Relation.ReflTransGen (Step n f) (start items) s

/-- The results in the order of the list. -/
def gather (items : List X) (done : List (ℕ × Py Y)) : Py (List Y) :=
  mapRows (fun i _ => (done.lookup i).getD (.error .runtimeError)) 0 items

/-- What `joblib.Parallel(n_jobs=n)(...)` can return: the results when all calls have ended, or an exception of a call that raised. -/
inductive Returns (n : ℕ) (f : X → Py Y) (items : List X) : Py (List Y) → Prop
  | ok {s : Pool X Y} {ys : List Y} : Reach n f items s → s.todo = [] → s.busy = [] → gather items s.done = .ok ys → Returns n f items (.ok ys)
  | error {s : Pool X Y} {i : ℕ} {e : PyErr} : Reach n f items s → (i, .error e) ∈ s.done → Returns n f items (.error e)

/-- The serial branch, e.g. `neorl/evolu/woa.py` lines 124-126. -/
def serial (f : X → Py Y) (items : List X) : Py (List Y) := mapRows (fun _ x => f x) 0 items

/-- `if self.ncores > 1: ... else: ...`, e.g. `neorl/evolu/woa.py` lines 118-128. -/
def Eval (ncores : ℕ) (f : X → Py Y) (items : List X) (r : Py (List Y)) : Prop :=
  if ncores > 1 then Returns ncores f items r else serial f items = r

/-- What holds in every state. -/
structure Inv (f : X → Py Y) (items : List X) (s : Pool X Y) : Prop where
  once : ((s.todo ++ s.busy).map Prod.fst ++ s.done.map Prod.fst).Perm (List.range items.length)
  args : ∀ t ∈ s.todo ++ s.busy, items[t.1]? = some t.2
  vals : ∀ d ∈ s.done, ∃ x, items[d.1]? = some x ∧ d.2 = f x

theorem inv_start (f : X → Py Y) (items : List X) : Inv f items (start items) := by
  refine ⟨?_, ?_, by simp [start]⟩
  · simp only [start, List.append_nil, List.map_nil]
    rw [List.map_fst_zip (by simp)]
  · intro t ht
    simp only [start, List.append_nil] at ht
    obtain ⟨i, hi, e⟩ := List.getElem_of_mem ht
    rw [List.getElem_zip] at e
    subst e
    simp only [List.getElem_range]
    rw [List.getElem?_eq_getElem]

theorem inv_step {n : ℕ} {f : X → Py Y} {items : List X} {s s' : Pool X Y} (h : Inv f items s) (hs : Step n f s s') : Inv f items s' := by
  obtain ⟨h1, h2, h3⟩ := h
  cases hs with
  | take hb =>
    refine ⟨?_, ?_, h3⟩
    · refine List.Perm.trans ?_ h1
      refine List.Perm.append_right _ (List.Perm.map _ ?_)
      simp only [List.cons_append]
      exact List.perm_middle
    · intro t ht
      refine h2 t ?_
      simp only [List.mem_append, List.mem_cons, List.cons_append] at ht ⊢
      tauto
  | @finish t todo l r done =>
    refine ⟨?_, ?_, ?_⟩
    · refine List.Perm.trans ?_ h1
      simp only [List.map_append, List.map_cons, List.append_assoc]
      refine List.Perm.append_left _ (List.Perm.append_left _ ?_)
      exact List.perm_middle
    · intro u hu
      refine h2 u ?_
      simp only [List.mem_append, List.mem_cons] at hu ⊢
      tauto
    · intro d hd
      rcases List.mem_cons.1 hd with rfl | hd
      · exact ⟨t.2, h2 t (by simp), rfl⟩
      · exact h3 d hd

theorem inv_reach {n : ℕ} {f : X → Py Y} {items : List X} {s : Pool X Y} (h : Reach n f items s) : Inv f items s := by
  induction h with
  | refl => exact inv_start f items
  | tail _ hs ih => exact inv_step ih hs

/-- The calls not yet finished, a call not started counting twice. -/
def left (s : Pool X Y) : ℕ := 2 * s.todo.length + s.busy.length

theorem step_left {n : ℕ} {f : X → Py Y} {s s' : Pool X Y} (h : Step n f s s') : left s' + 1 = left s := by
  cases h with
  | take _ => simp only [left, List.length_cons]; omega
  | finish => simp only [left, List.length_append, List.length_cons]; omega

theorem mapRows_congr' {Z : Type} {g h : ℕ → X → Py Z} : ∀ {k : ℕ} {xs : List X}, (∀ (i : ℕ) (x : X), xs[i]? = some x → g (k + i) x = h (k + i) x) → mapRows g k xs = mapRows h k xs
  | k, [], _ => rfl
  | k, x :: xs, H => by
    simp only [mapRows]
    have h0 : g k x = h k x := H 0 x rfl
    have ht : mapRows g (k + 1) xs = mapRows h (k + 1) xs := mapRows_congr' fun i y hy => by
      have := H (i + 1) y (by simpa using hy)
      rwa [show k + (i + 1) = k + 1 + i by omega] at this
    rw [h0, ht]

theorem lookup_some {β : Type} : ∀ {l : List (ℕ × β)} {i : ℕ}, i ∈ l.map Prod.fst → ∃ v, (i, v) ∈ l ∧ l.lookup i = some v
  | [], i, h => by simp at h
  | (k, v) :: l, i, h => by
    simp only [List.lookup_cons]
    by_cases hk : i = k
    · subst hk
      exact ⟨v, by simp, by simp⟩
    · rw [show (i == k) = false by simpa using hk]
      simp only [List.map_cons, List.mem_cons, hk, false_or] at h
      obtain ⟨w, h1, h2⟩ := lookup_some h
      exact ⟨w, by simp [h1], h2⟩

/-- When all calls have ended the gathered results are those of the loop. -/
theorem gather_eq {f : X → Py Y} {items : List X} {s : Pool X Y} (h : Inv f items s) (h1 : s.todo = []) (h2 : s.busy = []) : gather items s.done = serial f items := by
  unfold gather serial
  refine mapRows_congr' fun i x hx => ?_
  have hi : i < items.length := (List.getElem?_eq_some_iff.1 hx).1
  have hp := h.once
  rw [h1, h2] at hp
  obtain ⟨v, e1, e2⟩ := lookup_some (hp.mem_iff.2 (List.mem_range.2 hi) : i ∈ s.done.map Prod.fst)
  rw [Nat.zero_add, e2]
  obtain ⟨y, e3, e4⟩ := h.vals _ e1
  simp only at e3 e4
  rw [hx] at e3
  cases e3
  exact e4

/-- One after the other is a possible schedule. -/
theorem finish_all {n : ℕ} (hn : 0 < n) (f : X → Py Y) : ∀ (todo : List (ℕ × X)) (done : List (ℕ × Py Y)),
    ∃ done', Relation.ReflTransGen (Step n f) ⟨todo, [], done⟩ ⟨[], [], done'⟩
  | [], done => ⟨done, .refl⟩
  | t :: todo, done => by
    obtain ⟨done', h⟩ := finish_all hn f todo ((t.1, f t.2) :: done)
    refine ⟨done', .head (.take (by simpa using hn)) (.head ?_ h)⟩
    exact Step.finish (l := []) (r := [])

/-- The loop raises exactly when a call raises. -/
theorem serial_ok {f : X → Py Y} {items : List X} : (∃ ys, serial f items = .ok ys) ↔ ∀ x ∈ items, ∃ y, f x = .ok y := by
  unfold serial
  constructor
  · rintro ⟨ys, h⟩ x hx
    obtain ⟨i, hi, rfl⟩ := List.getElem_of_mem hx
    obtain ⟨hl, hv⟩ := mapRows_ok h
    obtain ⟨x', e1, e2⟩ := hv i _ (List.getElem?_eq_getElem (by rw [hl]; exact hi))
    rw [List.getElem?_eq_getElem hi] at e1
    cases e1
    exact ⟨_, e2⟩
  · intro h
    exact mapRows_total (P := fun x => x ∈ items) (fun x hx => hx) fun k x hx => h x hx

theorem serial_total (f : X → Y) (items : List X) : serial (fun x => .ok (f x)) items = .ok (items.map f) := by
  unfold serial
  generalize 0 = k
  induction items generalizing k with
  | nil => rfl
  | cons x xs ih => simp only [mapRows, ih, List.map_cons]

end

section
variable {K : Type} [Field K] [LinearOrder K] [IsStrictOrderedRing K] [FloorRing K]

/-- The selection of DE from the two lists of scores, `neorl/evolu/de.py` lines 308-317: `zip(score_trial_lst, score_target_lst, v_trial_lst)`. -/
def selectBy : List K → List K → List (List K) → List (List K) → List (List K × K)
  | a :: as, b :: bs, x :: xs, t :: ts => (if a > b then (t, a) else (x, b)) :: selectBy as bs xs ts
  | _, _, _, _ => []

/-- One generation of DE with `ncores` processes, `neorl/evolu/de.py` lines 252-330: as `DE.gen`, with the scores of the trials and of the targets obtained as in lines 291-303. -/
def DEGen (ncores : ℕ) (c : DE.Conf K) (fit : List K → K) (dr : ℕ → DE.Draw K) (rl : List (ℕ × List K)) (s : DE.State K) (r : Py (DE.State K)) : Prop :=
  match DE.sweep c dr c.npop s.pop with
  | .error e => r = .error e
  | .ok (targets, trials) =>
    ∃ st sg : List K, Eval ncores (fun x => .ok (fit (c.S.clip x))) trials (.ok st) ∧ Eval ncores (fun x => .ok (fit (c.S.clip x))) targets (.ok sg) ∧
      r = match DE.bestOf (selectBy st sg targets trials) with
        | none => .error .valueError
        | some b => .ok { pop := DE.mix rl ((selectBy st sg targets trials).map Prod.fst), sel := selectBy st sg targets trials, best := s.best ++ [b.2], last := some b,
                          log := s.log ++ trials.map c.S.clip ++ targets.map c.S.clip }

/-- The generations of DE with `ncores` processes, `neorl/evolu/de.py` line 247. -/
inductive DERun (ncores : ℕ) (c : DE.Conf K) (fit : List K → K) (dr : ℕ → ℕ → DE.Draw K) (rl : ℕ → List (ℕ × List K)) (pop0 : List (List K)) : ℕ → Py (DE.State K) → Prop
  | zero : DERun ncores c fit dr rl pop0 0 (.ok { pop := pop0, sel := [], best := [], last := none, log := [] })
  | fail {g : ℕ} {e : PyErr} : DERun ncores c fit dr rl pop0 g (.error e) → DERun ncores c fit dr rl pop0 (g + 1) (.error e)
  | succ {g : ℕ} {s : DE.State K} {r : Py (DE.State K)} : DERun ncores c fit dr rl pop0 g (.ok s) → DEGen ncores c fit (dr g) (rl g) s r → DERun ncores c fit dr rl pop0 (g + 1) r

/-- The parallel branch of PSO, `neorl/evolu/pso.py` lines 413-421: the memories are updated after all evaluations. -/
def evalAfter : List K → List (List K) → List (List K × K) → List K × K → List (List K × K) × (List K × K)
  | v :: vs, p :: ps, l :: ls, g =>
    if v > l.2 then
      let r := evalAfter vs ps ls (if v > g.2 then (p, v) else g)
      ((p, v) :: r.1, r.2)
    else
      let r := evalAfter vs ps ls g
      (l :: r.1, r.2)
  | _, _, ls, g => (ls, g)

/-- The evaluation of the swarm, `neorl/evolu/pso.py` lines 397-440: two different pieces of code. -/
def PSOEval (ncores : ℕ) (f : List K → K) (xs : List (List K)) (mem : List (List K × K)) (swm : List K × K) (r : List K × List (List K × K) × (List K × K)) : Prop :=
  if ncores > 1 then ∃ vs, Returns ncores (fun x => .ok (f x)) xs (.ok vs) ∧ r = (vs, evalAfter vs xs mem swm)
  else r = (xs.map f, PSO.evalLoop f xs mem swm)

/-- One generation of PSO with `ncores` processes, `neorl/evolu/pso.py` lines 386-454: as `PSO.gen`, with the evaluation and the memories as in lines 397-440.  `offspring[k][2]` is the
fitness in both branches (lines 411 and 430), it is read for the score of the generation. -/
def PSOGen (ncores : ℕ) (c : PSO.Conf K) (fit : List K → K) (g : ℕ) (dr : ℕ → PSO.Draw K) (s : PSO.State K) (r : Py (PSO.State K)) : Prop :=
  match PSO.genSwarm c s.w s.swm dr (s.swarm.zip s.mem) with
  | .error e => r = .error e
  | .ok off =>
    ∃ (vs : List K) (mem : List (List K × K)) (swm : List K × K), PSOEval ncores (fun p => fit (c.S.clip p)) (off.map fun p => p.pos) s.mem s.swm (vs, mem, swm) ∧
      r = match PSO.nextW c g s.w with
        | .error e => .error e
        | .ok w =>
          match PSO.listMax vs with
          | .error e => .error e
          | .ok mx => .ok { swarm := off, mem := mem, swm := swm, w := w, scores := s.scores ++ [mx], log := s.log ++ (off.map fun p => p.pos).map c.S.clip }

/-- The generations of PSO with `ncores` processes, `neorl/evolu/pso.py` line 386.  The initial swarm (lines 206-219) is that of `PSO.init`. -/
inductive PSORun (ncores : ℕ) (c : PSO.Conf K) (fit : List K → K) (dr : ℕ → ℕ → PSO.Draw K) (pos0 : List (List K)) : ℕ → Py (PSO.State K) → Prop
  | zero : PSORun ncores c fit dr pos0 0 (PSO.init c fit pos0)
  | fail {g : ℕ} {e : PyErr} : PSORun ncores c fit dr pos0 g (.error e) → PSORun ncores c fit dr pos0 (g + 1) (.error e)
  | succ {g : ℕ} {s : PSO.State K} {r : Py (PSO.State K)} : PSORun ncores c fit dr pos0 g (.ok s) → PSOGen ncores c fit g (dr g) s r → PSORun ncores c fit dr pos0 (g + 1) r

/-- The arguments of the chains of one generation of SA, `neorl/evolu/sa.py` lines 330-335: number of the chain, steps, start. -/
def chainArgs (c : SA.Conf K) (step0 : ℕ) (starts : List (List K × K)) : List (ℕ × (ℕ × ℕ) × (List K × K)) :=
  ((SA.ranges c.npop step0 c.ncores 1 step0).zip starts).mapIdx fun j p => (j, p.1, p.2)

/-- `chain_object` on such an argument. -/
def chainCall (c : SA.Conf K) (fit : List K → K) (g : SA.GDraw K) (a : ℕ × (ℕ × ℕ) × (List K × K)) : SA.Chain K :=
  SA.chainObject c.S fit c.accP (g.temp a.1) (g.core a.1) a.2.2.1 a.2.2.2 a.2.1.1 a.2.1.2

omit [FloorRing K] in
theorem selectBy_eq (score : List K → K) : ∀ xs ts : List (List K), selectBy (ts.map score) (xs.map score) xs ts = DE.select score xs ts
  | [], ts => by cases ts <;> rfl
  | x :: xs, [] => rfl
  | x :: xs, t :: ts => by simp only [List.map_cons, selectBy, DE.select, selectBy_eq score xs ts]

omit [FloorRing K] in
theorem evalAfter_eq (f : List K → K) : ∀ (xs : List (List K)) (mem : List (List K × K)) (g : List K × K), evalAfter (xs.map f) xs mem g = PSO.evalLoop f xs mem g
  | [], mem, g => by cases mem <;> rfl
  | x :: xs, [], g => rfl
  | x :: xs, l :: ls, g => by simp only [List.map_cons, evalAfter, PSO.evalLoop, evalAfter_eq f xs]

end

end Neorl.Parallel

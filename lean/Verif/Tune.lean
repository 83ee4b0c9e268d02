import Verif.Py
import Mathlib.Data.List.GetD
import Mathlib.Data.List.Forall2
import Mathlib.Data.List.ProdSigma

/-!
# Hyperparameter tuners: grid, random and Bayesian search

`neorl/tune/gridtune.py`, `neorl/tune/randtune.py`, `neorl/tune/bayestune.py`.
-/

set_option linter.unusedSectionVars false
set_option linter.unusedVariables false

namespace Neorl.Tune

/-- `itertools.product(*lists)`: the last list varies fastest.  Used in gridtune.py:50. -/
def product {α : Type} : List (List α) → List (List α)
  | [] => [[]]
  | l :: ls => l.flatMap (fun a => (product ls).map (fun r => a :: r))

/-- Assignment `d[k] = v` to an insertion-ordered dictionary. -/
def dset {γ : Type} (k : String) (v : γ) : List (String × γ) → List (String × γ)
  | [] => [(k, v)]
  | e :: d => if e.1 = k then (k, v) :: d else e :: dset k v d

/-- What `worker` returns for a case: the objective, or the text `'case{id}:failed'` (gridtune.py:76, 90). -/
inductive Score (β : Type)
  | done (b : β)
  | failed (id : ℕ)
  deriving DecidableEq, Repr

/-- An entry of the case dictionary, of the CSV file or of the table. -/
inductive Cell (α β : Type)
  | head (s : String)
  | id (n : ℕ)
  | val (a : α)
  | score (s : Score β)
  deriving DecidableEq, Repr

/-- `param_grid`: an insertion-ordered dictionary from names to lists of values. -/
abbrev Grid (α : Type) := List (String × List α)

/-- `full_grid`, gridtune.py:43-51: the names and all cases. -/
def names {α : Type} (g : Grid α) : List String := g.map Prod.fst
def cases {α : Type} (g : Grid α) : List (List α) := product (g.map Prod.snd)

/-- The dictionary built for one case, gridtune.py:59-63. -/
def caseDict {α β : Type} (ns : List String) (id : ℕ) (vals : List α) : List (String × Cell α β) :=
  (ns.zip vals).foldl (fun d e => dset e.1 (.val e.2) d) [("id", .id id)]

/-- `worker`, gridtune.py:53-90 (randtune.py:85-121 is the same code).  `fit` returns `none` when it raises.  The second component is the rows appended to the
CSV file.  Printing is left out; writing the CSV file is taken to succeed. -/
def worker {α β : Type} (fit : List α → Option β) (csv : Bool) (ns : List String) (id : ℕ) (vals : List α) : Py (Score β × List (List (Cell α β))) :=
  if vals.length ≠ ns.length then .error .assertion
  else match fit vals with
    | some b => .ok (.done b, if csv then [(dset "score" (.score (.done b)) (caseDict ns id vals)).map Prod.snd] else [])
    | none => .ok (.failed id, [])

/-- The loop over the cases in `tune`, gridtune.py:116-132 (one core; `joblib` returns results in the order of the tasks, so the table is the same with several
cores, only the order of the CSV rows may differ then). -/
def results {α β : Type} (fit : List α → Option β) (csv : Bool) (ns : List String) : ℕ → List (List α) → Py (List (Score β) × List (List (Cell α β)))
  | _, [] => .ok ([], [])
  | i, c :: cs => match worker fit csv ns (i + 1) c with
    | .error e => .error e
    | .ok (s, rows) => match results fit csv ns (i + 1) cs with
      | .error e => .error e
      | .ok (ss, rows') => .ok (s :: ss, rows ++ rows')

/-- The returned table, gridtune.py:134-136: index from 1, one column per name, then the column `score` assigned. -/
structure Table (α β : Type) where
  index : List ℕ
  cols : List (String × List (Cell α β))
  file : List (List (Cell α β))

/-- `pd.DataFrame(cases, columns=names)` as a list of columns. -/
def columns {α β : Type} (ns : List String) (cs : List (List α)) : List (String × List (Cell α β)) :=
  ns.zipIdx.map (fun e => (e.1, cs.filterMap (fun c => (c[e.2]?).map Cell.val)))

/-- `tune`, gridtune.py:93-139, for given cases. -/
def tuneCases {α β : Type} (fit : List α → Option β) (csv : Bool) (ns : List String) (cs : List (List α)) : Py (Table α β) :=
  match results fit csv ns 0 cs with
  | .error e => .error e
  | .ok (ss, rows) => .ok
      { index := (List.range cs.length).map (· + 1), cols := dset "score" (ss.map Cell.score) (columns ns cs),
        file := if csv then ((.head "id") :: ns.map Cell.head ++ [.head "score"]) :: rows else [] }

/-- GRIDTUNE(param_grid, fit).tune(), gridtune.py:38-139. -/
def gridTune {α β : Type} (fit : List α → Option β) (csv : Bool) (g : Grid α) : Py (Table α β) := tuneCases fit csv (names g) (cases g)

/-! ### RANDTUNE -/

/-- An entry of a parameter description: a type name or other text, an integer, a float, or a list of values. -/
inductive Arg (K α : Type)
  | tag (s : String)
  | int (z : ℤ)
  | num (x : K)
  | grid (l : List α)
  deriving DecidableEq, Repr

/-- A sampled value. -/
inductive Value (K α : Type)
  | int (z : ℤ)
  | num (x : K)
  | item (a : α)
  deriving DecidableEq, Repr

section
variable {K α : Type} [Field K] [LinearOrder K] [IsStrictOrderedRing K]

/-- A bound read as a number. -/
def Arg.toNum : Arg K α → Py K
  | .int z => .ok z
  | .num x => .ok x
  | _ => .error .typeError

/-- Random numbers of one sampled entry: `r` selects an integer or a list element, `u` is a uniform number. -/
structure Draw (K : Type) where
  r : ℕ
  u : K

/-- One sampled value, randtune.py:52-79.  `random.randint(lb, ub)` raises ValueError when `ub < lb`, `random.sample(l, 1)` when the list is empty.  The type is
the *first* entry of the description and the range the rest; a type that is none of the six names raises `Exception` (modelled as ValueError).  A grid given as a
text (which Python would sample by character) is not modelled and raises here. -/
def sample1 (p : List (Arg K α)) (d : Draw K) : Py (Value K α) :=
  match p with
  | [] => .error .indexError
  | .tag t :: vals =>
    if t = "int" ∨ t = "discrete" then
      match vals with
      | .int lb :: .int ub :: _ => if ub < lb then .error .valueError else .ok (.int (lb + (d.r % (ub - lb + 1).toNat : ℕ)))
      | _ :: _ :: _ => .error .valueError
      | _ => .error .indexError
    else if t = "float" ∨ t = "continuous" then
      match vals with
      | a :: b :: _ => match a.toNum, b.toNum with
        | .ok lb, .ok ub => .ok (.num (lb + (ub - lb) * d.u))
        | .error e, _ => .error e
        | _, .error e => .error e
      | _ => .error .indexError
    else if t = "grid" ∨ t = "categorical" then
      match vals with
      | .grid l :: _ => match l[d.r % l.length]? with
        | some a => .ok (.item a)
        | none => .error .valueError
      | _ :: _ => .error .typeError
      | [] => .error .indexError
    else .error .valueError
  | _ :: _ => .error .valueError

/-- One case: a value per parameter, in order, randtune.py:65-79. -/
def sampleCase (d : ℕ → Draw K) : ℕ → List (List (Arg K α)) → Py (List (Value K α))
  | _, [] => .ok []
  | j, p :: ps => match sample1 p (d j) with
    | .error e => .error e
    | .ok v => match sampleCase d (j + 1) ps with
      | .error e => .error e
      | .ok vs => .ok (v :: vs)

/-- All cases, randtune.py:62-81. -/
def sampleCases (ps : List (List (Arg K α))) (d : ℕ → ℕ → Draw K) : ℕ → Py (List (List (Value K α)))
  | 0 => .ok []
  | n + 1 => match sampleCases ps d n with
    | .error e => .error e
    | .ok cs => match sampleCase (d n) 0 ps with
      | .error e => .error e
      | .ok c => .ok (cs ++ [c])

/-- RANDTUNE(param_grid, fit, ncases).tune(), randtune.py:38-171. -/
def randTune {β : Type} (fit : List (Value K α) → Option β) (csv : Bool) (g : List (String × List (Arg K α))) (ncases : ℕ) (d : ℕ → ℕ → Draw K) : Py (Table (Value K α) β) :=
  match sampleCases (g.map Prod.snd) d ncases with
  | .error e => .error e
  | .ok cs => tuneCases fit csv (g.map Prod.fst) cs

end

/-! ### BAYESTUNE -/

section
variable {K α : Type} [Field K] [LinearOrder K] [IsStrictOrderedRing K]

/-- Value of a name in a row labelled by `ns`. -/
def lookup (ns : List String) (row : List α) (k : String) : Option α := ((ns.zip row).find? (fun e => e.1 == k)).map Prod.snd

/-- Calling the fitness with keyword arguments (`use_named_args`, bayestune.py:86-94): the positional arguments it sees, in the order of its signature `args`;
a missing or superfluous name is a TypeError. -/
def bind (args ns : List String) (row : List α) : Py (List α) :=
  if ns.length = args.length ∧ args.all (fun a => (lookup ns row a).isSome) then .ok (args.filterMap (lookup ns row)) else .error .typeError

/-- Objective handed to the search: the fitness or its negative, bayestune.py:84-94 and 151-158. -/
def objective (minMode : Bool) (fit : List α → K) (args ns : List String) (row : List α) : Py K :=
  match bind args ns row with
  | .error e => .error e
  | .ok v => .ok (if minMode then fit v else -fit v)

/-- Objective values of the visited points in order (`func_vals`); the first exception ends the search. -/
def funcVals (f : List α → Py K) : List (List α) → Py (List K)
  | [] => .ok []
  | x :: xs => match f x with
    | .error e => .error e
    | .ok y => match funcVals f xs with
      | .error e => .error e
      | .ok ys => .ok (y :: ys)

/-- The table: column labels, rows, scores. -/
structure BTable (K α : Type) where
  labels : List String
  rows : List (List α)
  score : List K

/-- BAYESTUNE(...).tune(ncores), bayestune.py:45-200.  `gp` is `skopt.gp_minimize`: from the seed and the number of calls it produces the visited points; how it
chooses them is not modelled.  `ns` are the keys of `param_grid`, `args` the argument names of the fitness; the columns of the table are labelled by `args`. -/
def bayesTune (minMode : Bool) (fit : List α → K) (args ns : List String) (ncases ncores : ℕ) (seed : Option ℕ) (gp : Option ℕ → ℕ → List (List α)) : Py (BTable K α) :=
  let nc := if ncases < 11 then 11 else ncases
  let xs := if 1 < ncores then (List.range ncores).flatMap (fun c => gp (seed.map (fun s => s + (c + 1))) nc) else gp seed nc
  match funcVals (objective minMode fit args ns) xs with
  | .error e => .error e
  | .ok ys => .ok { labels := args, rows := xs, score := if minMode then ys else ys.map (fun y => -y) }

end

/-! ### Lemmas -/

theorem mem_product {α : Type} : ∀ (ls : List (List α)) (c : List α), c ∈ product ls ↔ List.Forall₂ (fun a l => a ∈ l) c ls
  | [], c => by simp [product]
  | l :: ls, c => by
    simp only [product, List.mem_flatMap, List.mem_map]
    constructor
    · rintro ⟨a, ha, r, hr, rfl⟩
      exact List.Forall₂.cons ha ((mem_product ls r).1 hr)
    · intro h
      cases h with
      | cons h1 h2 => exact ⟨_, h1, _, (mem_product ls _).2 h2, rfl⟩

theorem length_product {α : Type} : ∀ ls : List (List α), (product ls).length = (ls.map List.length).prod
  | [] => by simp [product]
  | l :: ls => by simp [product, List.length_flatMap, length_product ls]

theorem nodup_product {α : Type} : ∀ ls : List (List α), (∀ l ∈ ls, l.Nodup) → (product ls).Nodup
  | [], _ => by simp [product]
  | l :: ls, h => by
    have h1 := nodup_product ls (fun x hx => h x (by simp [hx]))
    have h2 := h l (by simp)
    simp only [product]
    rw [List.nodup_flatMap]
    refine ⟨fun a _ => h1.map (fun x y hxy => (List.cons.inj hxy).2), ?_⟩
    refine h2.imp ?_
    intro a b hab
    rw [Function.onFun, List.disjoint_left]
    intro x hx hy
    simp only [List.mem_map] at hx hy
    obtain ⟨r, _, rfl⟩ := hx
    obtain ⟨r', _, he⟩ := hy
    exact hab (List.cons.inj he).1.symm

theorem flatMap_getElem {α β : Type} (f : α → List β) (n : ℕ) : ∀ (l : List α) (i : ℕ), (∀ a ∈ l, (f a).length = n) →
    (l.flatMap f)[i]? = (l[i / n]?).bind (fun a => (f a)[i % n]?)
  | [], i, _ => by simp
  | a :: l, i, h => by
    have ha := h a (by simp)
    simp only [List.flatMap_cons]
    rcases Nat.eq_zero_or_pos n with rfl | hn
    · have hz : ∀ b ∈ a :: l, f b = [] := fun b hb => List.length_eq_zero_iff.1 (h b hb)
      have : (l.flatMap f) = [] := by rw [List.flatMap_eq_nil_iff]; exact fun b hb => hz b (by simp [hb])
      rw [hz a (by simp), this]
      simp [hz a (by simp)]
    by_cases hi : i < n
    · rw [List.getElem?_append_left (by omega), Nat.div_eq_of_lt hi, Nat.mod_eq_of_lt hi]; rfl
    · rw [List.getElem?_append_right (by omega), ha, flatMap_getElem f n l (i - n) (fun b hb => h b (by simp [hb]))]
      have e1 : i / n = (i - n) / n + 1 := by rw [Nat.div_eq_sub_div hn (by omega)]
      have e2 : i % n = (i - n) % n := by rw [Nat.mod_eq_sub_mod (by omega)]
      rw [e1, e2, List.getElem?_cons_succ]

/-- Case `i` written in the mixed radix of the list lengths. -/
theorem product_getElem {α : Type} : ∀ (ls : List (List α)) (i : ℕ) (c : List α), (product ls)[i]? = some c →
    ∀ (j : ℕ) (l : List α), ls[j]? = some l → c[j]? = l[(i / ((ls.drop (j + 1)).map List.length).prod) % l.length]?
  | [], i, c, h, j, l, hj => by simp at hj
  | l0 :: ls, i, c, h, j, l, hj => by
    simp only [product] at h
    rw [flatMap_getElem _ (product ls).length _ _ (by intro a _; simp)] at h
    cases h1 : l0[i / (product ls).length]? with
    | none => rw [h1] at h; simp at h
    | some a =>
      rw [h1] at h
      simp only [Option.bind_some, List.getElem?_map, Option.map_eq_some_iff] at h
      obtain ⟨r, hr, rfl⟩ := h
      cases j with
      | zero =>
        simp only [List.getElem?_cons_zero, Option.some.injEq] at hj
        subst hj
        obtain ⟨hlt, _⟩ := List.getElem?_eq_some_iff.1 h1
        rw [length_product] at hlt h1
        simp only [List.getElem?_cons_zero, List.drop_succ_cons, List.drop_zero]
        rw [Nat.mod_eq_of_lt hlt, h1]
      | succ j =>
        have hj' : ls[j]? = some l := by simpa using hj
        rw [List.getElem?_cons_succ, List.drop_succ_cons, product_getElem ls _ r hr j l hj']
        congr 1
        rw [length_product]
        have hsplit : (ls.map List.length).prod = ((ls.take (j + 1)).map List.length).prod * ((ls.drop (j + 1)).map List.length).prod := by
          rw [← List.prod_append, ← List.map_append, List.take_append_drop]
        have htake : ((ls.take (j + 1)).map List.length).prod = ((ls.take j).map List.length).prod * l.length := by
          rw [List.take_add_one, hj']; simp
        rw [hsplit, htake]
        set A := ((ls.take j).map List.length).prod
        set B := ((ls.drop (j + 1)).map List.length).prod
        rw [mul_comm (A * l.length) B, Nat.mod_mul_right_div_self, mul_comm A, Nat.mod_mul_right_mod]

theorem worker_ok {α β : Type} {fit : List α → Option β} {csv : Bool} {ns : List String} {id : ℕ} {vals : List α} (h : vals.length = ns.length) :
    ∃ s rows, worker fit csv ns id vals = .ok (s, rows) ∧ (∀ b, fit vals = some b → s = .done b) ∧ (fit vals = none → s = .failed id) := by
  unfold worker
  rw [if_neg (by simpa using h)]
  cases hf : fit vals with
  | none => exact ⟨_, _, rfl, by simp, by simp⟩
  | some b => exact ⟨_, _, rfl, by simp, by simp⟩

theorem dset_mem {γ : Type} {k : String} {v : γ} : ∀ {d : List (String × γ)}, k ∉ d.map Prod.fst → dset k v d = d ++ [(k, v)]
  | [], _ => rfl
  | e :: d, h => by
    simp only [List.map_cons, List.mem_cons, not_or] at h
    rw [dset, if_neg (fun he => h.1 he.symm), dset_mem h.2]; rfl

theorem caseDict_eq {α β : Type} : ∀ (ns : List String) (vals : List α) (d : List (String × Cell α β)), ns.Nodup → (∀ n ∈ ns, n ∉ d.map Prod.fst) →
    (ns.zip vals).foldl (fun d e => dset e.1 (.val e.2) d) d = d ++ (ns.zip vals).map (fun e => (e.1, .val e.2))
  | [], _, d, _, _ => by simp
  | _ :: _, [], d, _, _ => by simp
  | n :: ns, v :: vals, d, h, hd => by
    simp only [List.zip_cons_cons, List.foldl_cons]
    rw [dset_mem (hd n (by simp)), caseDict_eq ns vals _ (List.nodup_cons.1 h).2]
    · simp
    · intro m hm
      simp only [List.map_append, List.map_cons, List.map_nil, List.mem_append, List.mem_singleton, not_or]
      refine ⟨hd m (by simp [hm]), ?_⟩
      rintro rfl
      exact (List.nodup_cons.1 h).1 hm

theorem sampleCase_spec {K α : Type} [Field K] [LinearOrder K] [IsStrictOrderedRing K] {P : List (Arg K α) → Value K α → Prop} {d : ℕ → Draw K}
    (hP : ∀ p v j, sample1 p (d j) = .ok v → P p v) : ∀ {ps : List (List (Arg K α))} {j : ℕ} {c : List (Value K α)}, sampleCase d j ps = .ok c → List.Forall₂ P ps c
  | [], j, c, h => by simp only [sampleCase, Except.ok.injEq] at h; subst h; exact .nil
  | p :: ps, j, c, h => by
    simp only [sampleCase] at h
    split at h
    · cases h
    rename_i v hv
    split at h
    · cases h
    rename_i vs hvs
    simp only [Except.ok.injEq] at h
    subst h
    exact .cons (hP _ _ _ hv) (sampleCase_spec hP hvs)

end Neorl.Tune

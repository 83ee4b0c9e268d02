import Verif.Best
import Mathlib.Data.Int.Basic

/-!
# Seeds: which runs can be repeated

`neorl/utils/seeding.py`, the places where the classes call it, and the other places that set the global generators: the chains of SA, the replay memory of PESA, the environments.

The generators of `random` and of `np.random` are two values `py` and `np`; what a seed makes of them is an arbitrary function, and what a constructor or a run does with them is an arbitrary
function of them.  Not modelled: the generator of TensorFlow, generators of action spaces, and in PESA the mode with one process per method.
-/

set_option linter.unusedSectionVars false
set_option linter.unusedVariables false

namespace Neorl.Seeds

/-- The global generators of `random` and `np.random`. -/
structure Gens (P N : Type) where
  py : P
  np : N
deriving DecidableEq

/-- `random.seed(s)` and `np.random.seed(s)`. -/
structure Seeder (P N : Type) where
  py : ℤ → P
  np : ℤ → N

/-- Something that draws from the generators. -/
abbrev Act (P N α : Type) := Gens P N → α × Gens P N

section
variable {P N I R X M W : Type} (S : Seeder P N)

/-- Both generators seeded. -/
def both (s : ℤ) : Gens P N := ⟨S.py s, S.np s⟩

/-- `set_neorl_seed`, seeding.py lines 26-34. -/
def setSeed : Option ℤ → Gens P N → Gens P N
  | none, g => g
  | some s, _ => both S s

/-! ### Constructors and runs -/

/-- The public classes. -/
inductive Kind
  | aco | bat | cs | de | es | gwo | hclpso | hho | jaya | mfo | pso | ssa | ts | woa | xnes | nsga2 | nsga3
  | ackde | ppoes | aeo | edev | epso | fneat | rneat | nga | nhho | randtune
deriving DecidableEq

/-- Whether `evolute` seeds again: de.py line 226, jaya.py 204, mfo.py 200, hho.py 104, nga.py 87, nhho.py 159; the others seed in the constructor only (for example es.py 53, pso.py 46, gwo.py 45,
aeo.py 512-514, randtune.py 50). -/
def Kind.seedsRun : Kind → Bool
  | .de | .jaya | .mfo | .hho | .nga | .nhho => true
  | _ => false

/-- An object. -/
structure Obj (I : Type) where
  kind : Kind
  seed : Option ℤ
  st : I

/-- What a user does: construct an object, run the `i`-th, anything else that draws. -/
inductive Cmd (P N I R : Type)
  | new (k : Kind) (seed : Option ℤ) (init : Act P N I)
  | run (i : ℕ) (prog : I → Act P N (R × I))
  | other (f : Gens P N → Gens P N)

/-- A session: generators, objects, results so far. -/
structure Sess (P N I R : Type) where
  gens : Gens P N
  objs : List (Obj I)
  out : List R

/-- One command.  Constructors seed first (for example de.py line 45, es.py line 53). -/
def exec (s : Sess P N I R) : Cmd P N I R → Py (Sess P N I R)
  | .new k seed init =>
    let r := init (setSeed S seed s.gens)
    .ok ⟨r.2, s.objs ++ [⟨k, seed, r.1⟩], s.out⟩
  | .run i prog =>
    match s.objs[i]? with
    | none => .error .unboundLocal
    | some o =>
      let r := prog o.st (setSeed S (if o.kind.seedsRun then o.seed else none) s.gens)
      .ok ⟨r.2, s.objs.set i { o with st := r.1.2 }, s.out ++ [r.1.1]⟩
  | .other f => .ok { s with gens := f s.gens }

/-- Several commands. -/
def execAll : List (Cmd P N I R) → Sess P N I R → Py (Sess P N I R)
  | [], s => .ok s
  | c :: cs, s =>
    match exec S s c with
    | .error e => .error e
    | .ok s' => execAll cs s'

/-! ### The chains of SA -/

/-- One generation, sa.py lines 316-365 with 263-267: chain `j` seeds with `self.seed + j`.  One chain runs in the main process, several in workers whose generators `w` are arbitrary. -/
def genStep (chain : ℕ → ℕ → X → Act P N X) (seed : Option ℤ) (w : ℕ → Gens P N) (t : ℕ) (xs : List X) (g : Gens P N) : List X × Gens P N :=
  match xs with
  | [x] => let r := chain 1 t x (setSeed S (seed.map (· + 1)) g); ([r.1], r.2)
  | xs => (xs.mapIdx fun j x => (chain (j + 1) t x (setSeed S (seed.map (· + ((j + 1 : ℕ) : ℤ))) (w j))).1, g)

/-- The generations of `evolute`, sa.py lines 444-498; `between` is what is done with the results before the next generation. -/
def saLoop (chain : ℕ → ℕ → X → Act P N X) (between : ℕ → List X → Act P N (List X)) (seed : Option ℤ) (w : ℕ → ℕ → Gens P N) : ℕ → ℕ → List X → Gens P N → List X × Gens P N
  | _, 0, xs, g => (xs, g)
  | t, n + 1, xs, g =>
    let r := genStep S chain seed (w t) t xs g
    let b := between t r.1 r.2
    saLoop chain between seed w (t + 1) n b.1 b.2

/-! ### PESA -/

/-- `ExperienceReplay.__init__`, er.py line 31. -/
def memInit (g : Gens P N) : Gens P N := { g with py := S.py 1 }

/-- `sample(mode='prior')`, er.py lines 120, 139-143: no caller passes a seed in this mode, so it is 1. -/
def samplePrior (choice : M → ℕ → N → List ℕ × N) (m : M) (b : ℕ) (g : Gens P N) : List ℕ × Gens P N :=
  let r := choice m b (S.np 1)
  (r.1, { g with np := r.2 })

/-- The steps of the search: those of ES, SA, PSO, DE, GWO, WOA and of uniform replay draw from `random` only; prioritized replay seeds `np.random` first. -/
inductive Op (P N M : Type)
  | py (f : M → P → M × P)
  | prior (choice : M → ℕ → N → List ℕ × N) (b : ℕ) (use : M → List ℕ → M)

/-- The search. -/
def runOps : List (Op P N M) → M → Gens P N → M × Gens P N
  | [], m, g => (m, g)
  | .py f :: t, m, g => let r := f m g.py; runOps t r.1 { g with py := r.2 }
  | .prior choice b use :: t, m, g => let r := samplePrior S choice m b g; runOps t (use m r.1) r.2

/-- `PESA(...).evolute(...)`: the constructor seeds (pesa.py line 90, pesa2.py 89, pesax.py 80), the first samples are drawn (pesa.py lines 219-235), the memory is made (line 247), the methods are
constructed: without a seed in PESA (lines 257-266), with it in PESA2 (pesa2.py lines 281-289) and PESAX (pesax.py line 213) — `inner`. -/
def pesa (inner : Bool) (seed : Option ℤ) (warm : Act P N W) (start : W → M) (ops : W → List (Op P N M)) (g : Gens P N) : M :=
  let r := warm (setSeed S seed g)
  (runOps S (ops r.1) (start r.1) (setSeed S (if inner then seed else none) (memInit S r.2))).1

/-! ### Environments -/

/-- `seed` of the environments of `CreateEnvironment`, make_env.py lines 201-203: the global generators. -/
def envSeed (s : ℤ) (_ : Gens P N) : Gens P N := both S s

/-- `DummyVecEnv.seed`, dummy_vec_env.py lines 53-57. -/
def dummySeed (n : ℕ) (s : ℤ) (g : Gens P N) : Gens P N := (List.range n).foldl (fun g (i : ℕ) => envSeed S (s + (i : ℤ)) g) g

/-- `set_random_seed`, base_class.py lines 203-218, with `n` environments in one process. -/
def rlSeed (n : ℕ) : Option ℤ → Gens P N → Gens P N
  | none, g => g
  | some s, _ => dummySeed S n s (both S s)

end

end Neorl.Seeds

import Verif.Env

/-!
# RNEAT and FNEAT

Model of `neorl/hybrid/rneat.py` and `neorl/hybrid/fneat.py` (the two files differ in the network class and one default only): the evaluation of the
genomes, alone (`eval_genomes`) and with a pool of processes (`NEATWorker`, `ParallelEvaluator`), `evolute` and `modify_config`.
The environment is the one of `Verif/Env.lean`.  The library `neat` is not modelled: a genome is any value, the network made from it is any state machine,
the genomes of a generation are any function of the fitness values given so far, and the library may stop early after any generation.
The number −∞ is `none`; rewards are finite numbers.  The points evaluated are collected in a ghost list, one block per genome.
-/

set_option linter.unusedSectionVars false
set_option linter.unusedVariables false

namespace Neorl.Neat

open Neorl Neorl.Env

section
variable {K : Type} [Field K] [LinearOrder K] [IsStrictOrderedRing K] [FloorRing K]

/-- The networks of `neat.nn`: `create` builds the network of a genome, `activate` maps an observation to the outputs and may change the internal state
(recurrent networks). -/
structure Brain (G σ K : Type) where
  create : G → σ
  activate : σ → List K → σ × List K

/-- The attributes of the optimiser: the environment, `best_fit`, `best_x`, `best_fit_correct` and the two histories, rneat.py lines 59-60, 128-129. -/
structure St (K : Type) where
  env : Env.State K
  best : Option K
  bestX : Option (List (Val K))
  bestC : Option K
  glob : List K
  loc : List K

/-- `rew > b` where `b` may be −∞. -/
def beats (r : K) : Option K → Bool
  | none => true
  | some b => decide (b < r)

/-- The `while not done` loop of `eval_genomes`, rneat.py lines 76-106, with `fuel` iterations at most (`recursion` when they do not suffice).  `n` is the
network, `ob` the observation, `loc` is `local_fit`, `cnt` is `counter`.  Returns the attributes, `genome.fitness` and the steps made. -/
def episode {G σ : Type} (c : Conf K) (fit : List (Val K) → K) (br : Brain G σ K) : ℕ → σ → List K → Option K → ℕ → St K → Py (St K × K × List (Out K))
  | 0, _, _, _, _, _ => .error .recursion
  | fuel + 1, n, ob, loc, cnt, st =>
    match step c fit (.vec (br.activate n ob).2) 0 [] st.env with
    | .error e => .error e
    | .ok (env', o) =>
      let loc' := if beats o.reward loc then some o.reward else loc
      let cnt' := if beats o.reward loc then 0 else cnt + 1
      let st1 := if beats o.reward st.best then { st with env := env', best := some o.reward, bestX := some o.x } else { st with env := env' }
      let st2 := { st1 with bestC := st1.best.map (sgn (!c.minMode)) }
      if o.done = true ∨ cnt' = c.epLen then
        .ok ({ st2 with glob := st2.glob ++ st2.bestC.toList, loc := st2.loc ++ (loc'.map (sgn (!c.minMode))).toList }, o.reward, [o])
      else
        match episode c fit br fuel (br.activate n ob).1 o.obs loc' cnt' st2 with
        | .error e => .error e
        | .ok (st', f, os) => .ok (st', f, o :: os)

/-- The body of the `for` loop of `eval_genomes`, rneat.py lines 64-106: with `x0` the environment is not reset, without it `smp` is the sample drawn by
`reset`. -/
def evalGenome {G σ : Type} (c : Conf K) (fit : List (Val K) → K) (br : Brain G σ K) (x0 : Option (List K)) (fuel : ℕ) (smp : List K) (g : G) (st : St K) :
    Py (St K × K × List (Out K)) :=
  match x0 with
  | some ob => episode c fit br fuel (br.create g) ob none 0 st
  | none =>
    match reset c smp st.env with
    | .error e => .error e
    | .ok (env', ob) => episode c fit br fuel (br.create g) ob none 0 { st with env := env' }

/-- `eval_genomes`, rneat.py lines 62-106; `smp k` is the sample drawn for the genome with running number `k`.  Returns the attributes, the fitness values
and the steps of each genome. -/
def evalGenomes {G σ : Type} (c : Conf K) (fit : List (Val K) → K) (br : Brain G σ K) (x0 : Option (List K)) (fuel : ℕ) (smp : ℕ → List K) :
    ℕ → List G → St K → Py (St K × List K × List (List (Out K)))
  | _, [], st => .ok (st, [], [])
  | k, g :: gs, st =>
    match evalGenome c fit br x0 fuel (smp k) g st with
    | .error e => .error e
    | .ok (st1, f, os) =>
      match evalGenomes c fit br x0 fuel smp (k + 1) gs st1 with
      | .error e => .error e
      | .ok (st2, fs, oss) => .ok (st2, f :: fs, os :: oss)

/-- The library's population: the genomes of the next generation from the fitness values of the earlier ones, and whether `run` stops. -/
structure Library (G K : Type) where
  genomes : List (List K) → List G
  stop : List (List K) → Bool

/-- `p.run(self.eval_genomes, ngen)`, rneat.py line 199. `past` holds the fitness values of the generations done, `k` counts the genomes evaluated. -/
def runLib {G σ : Type} (c : Conf K) (fit : List (Val K) → K) (br : Brain G σ K) (lib : Library G K) (x0 : Option (List K)) (fuel : ℕ) (smp : ℕ → List K) :
    ℕ → ℕ → List (List K) → St K → Py (St K × List (List (Out K)))
  | 0, _, _, st => .ok (st, [])
  | ngen + 1, k, past, st =>
    match evalGenomes c fit br x0 fuel smp k (lib.genomes past) st with
    | .error e => .error e
    | .ok (st1, fs, oss) =>
      if lib.stop (past ++ [fs]) then .ok (st1, oss)
      else
        match runLib c fit br lib x0 fuel smp ngen (k + (lib.genomes past).length) (past ++ [fs]) st1 with
        | .error e => .error e
        | .ok (st2, oss') => .ok (st2, oss ++ oss')

/-- What `evolute` returns: the best point, its fitness, the two histories (and the ghost list of steps); `env` is the environment left behind. -/
structure Result (K : Type) where
  x : List (Val K)
  y : K
  glob : List K
  loc : List K
  env : Env.State K
  steps : List (List (Out K))

/-- `if self.x0`: an empty list counts as no start point, rneat.py line 65. -/
def start (x0 : Option (List K)) : Option (List K) :=
  match x0 with
  | some [] => none
  | o => o

/-- The assertion on the length of the start point, rneat.py lines 132-134. -/
def badStart (c : Conf K) (x0 : Option (List K)) : Bool :=
  match x0 with
  | some l => decide (l.length ≠ c.orig.length)
  | none => false

/-- `evolute` with one core, rneat.py lines 114-212; an unset attribute is an `AttributeError`.  `env` is the environment of the object. -/
def evolute {G σ : Type} (c : Conf K) (fit : List (Val K) → K) (br : Brain G σ K) (lib : Library G K) (x0 : Option (List K)) (fuel : ℕ) (smp : ℕ → List K)
    (ngen : ℕ) (env : Env.State K) : Py (Result K) :=
  if badStart c x0 then .error .assertion else
  match runLib c fit br lib (start x0) fuel smp ngen 0 [] { env := env, best := none, bestX := none, bestC := none, glob := [], loc := [] } with
  | .error e => .error e
  | .ok (st, oss) =>
    match st.bestX, st.bestC with
    | some x, some y => .ok { x := x, y := y, glob := st.glob, loc := st.loc, env := st.env, steps := oss }
    | _, _ => .error .attributeError

/-! ### Several processes -/

/-- The loop of `NEATWorker.work`, rneat.py lines 355-370: the last reward, the best reward, the last point, and the steps made. -/
def workLoop {G σ : Type} (c : Conf K) (fit : List (Val K) → K) (br : Brain G σ K) : ℕ → σ → List K → Option K → Env.State K → Py (K × Option K × List (Val K) × List (Out K))
  | 0, _, _, _, _ => .error .recursion
  | fuel + 1, n, ob, loc, env =>
    match step c fit (.vec (br.activate n ob).2) 0 [] env with
    | .error e => .error e
    | .ok (env', o) =>
      let loc' := if beats o.reward loc then some o.reward else loc
      if o.done = true then .ok (o.reward, loc', o.x, [o])
      else
        match workLoop c fit br fuel (br.activate n ob).1 o.obs loc' env' with
        | .error e => .error e
        | .ok (r, l, x, os) => .ok (r, l, x, o :: os)

/-- `NEATWorker.work` in a process of the pool, rneat.py lines 342-372: it works on a copy of the environment `env` of the object. -/
def work {G σ : Type} (c : Conf K) (fit : List (Val K) → K) (br : Brain G σ K) (x0 : Option (List K)) (fuel : ℕ) (smp : List K) (g : G) (env : Env.State K) :
    Py (K × Option K × List (Val K) × List (Out K)) :=
  match x0 with
  | some ob => workLoop c fit br fuel (br.create g) ob none env
  | none =>
    match reset c smp env with
    | .error e => .error e
    | .ok (env', ob) => workLoop c fit br fuel (br.create g) ob none env'

/-- `ParallelEvaluator.evaluate`, rneat.py lines 396-417: the results are collected in the order of the genomes. -/
def evalPool {G σ : Type} (c : Conf K) (fit : List (Val K) → K) (br : Brain G σ K) (x0 : Option (List K)) (fuel : ℕ) (smp : ℕ → List K) :
    ℕ → List G → St K → Py (St K × List K × List (List (Out K)))
  | _, [], st => .ok (st, [], [])
  | k, g :: gs, st =>
    match work c fit br x0 fuel (smp k) g st.env with
    | .error e => .error e
    | .ok (f, l, x, os) =>
      let st1 := if beats f st.best then { st with best := some f, bestX := some x } else st
      let st2 := { st1 with bestC := st1.best.map (sgn (!c.minMode)) }
      let st3 := { st2 with glob := st2.glob ++ st2.bestC.toList, loc := st2.loc ++ (l.map (sgn (!c.minMode))).toList }
      match evalPool c fit br x0 fuel smp (k + 1) gs st3 with
      | .error e => .error e
      | .ok (st4, fs, oss) => .ok (st4, f :: fs, os :: oss)

/-- `p.run(pe.evaluate, ngen)`, rneat.py line 194. -/
def runPool {G σ : Type} (c : Conf K) (fit : List (Val K) → K) (br : Brain G σ K) (lib : Library G K) (x0 : Option (List K)) (fuel : ℕ) (smp : ℕ → List K) :
    ℕ → ℕ → List (List K) → St K → Py (St K × List (List (Out K)))
  | 0, _, _, st => .ok (st, [])
  | ngen + 1, k, past, st =>
    match evalPool c fit br x0 fuel smp k (lib.genomes past) st with
    | .error e => .error e
    | .ok (st1, fs, oss) =>
      if lib.stop (past ++ [fs]) then .ok (st1, oss)
      else
        match runPool c fit br lib x0 fuel smp ngen (k + (lib.genomes past).length) (past ++ [fs]) st1 with
        | .error e => .error e
        | .ok (st2, oss') => .ok (st2, oss ++ oss')

/-- `evolute` with several cores, rneat.py lines 114-212. -/
def evolutePool {G σ : Type} (c : Conf K) (fit : List (Val K) → K) (br : Brain G σ K) (lib : Library G K) (x0 : Option (List K)) (fuel : ℕ) (smp : ℕ → List K)
    (ngen : ℕ) (env : Env.State K) : Py (Result K) :=
  if badStart c x0 then .error .assertion else
  match runPool c fit br lib (start x0) fuel smp ngen 0 [] { env := env, best := none, bestX := none, bestC := none, glob := [], loc := [] } with
  | .error e => .error e
  | .ok (st, oss) =>
    match st.bestX, st.bestC with
    | some x, some y => .ok { x := x, y := y, glob := st.glob, loc := st.loc, env := st.env, steps := oss }
    | _, _ => .error .attributeError

/-! ### The configuration -/

/-- A section of the configuration: keys and values in order. -/
abbrev Section (V : Type) := List (String × V)

/-- The assignments of `modify_config` inside one section, rneat.py lines 222-229; `user` is the user's dictionary. -/
def modifySection {V : Type} (user : Section V) (s : Section V) : Section V :=
  s.map fun kv => match user.lookup kv.1 with | some v => (kv.1, v) | none => kv

/-- `modify_config`, rneat.py lines 214-232. -/
def modifyConfig {V : Type} (user : Section V) (cfg : List (String × Section V)) : List (String × Section V) :=
  cfg.map fun s => (s.1, modifySection user s.2)

/-- `config[sec][key] = v` for a key that exists. -/
def assign {V : Type} (sec key : String) (v : V) (cfg : List (String × Section V)) : List (String × Section V) :=
  cfg.map fun s => if s.1 = sec then (s.1, s.2.map fun kv => if kv.1 = key then (kv.1, v) else kv) else s

/-- `config[sec][key]`. -/
def get {V : Type} (cfg : List (String × Section V)) (sec key : String) : Option V := (cfg.lookup sec).bind fun s => s.lookup key

/-- The configuration of the constructor, rneat.py lines 51-56; `maxV` is the value `"max"`, `num n` the number `n`. -/
def config {V : Type} (maxV : V) (num : ℕ → V) (user : Section V) (basic : List (String × Section V)) (nx : ℕ) : List (String × Section V) :=
  assign "DefaultGenome" "num_outputs" (num nx) (assign "DefaultGenome" "num_inputs" (num nx) (assign "NEAT" "fitness_criterion" maxV (modifyConfig user basic)))

/-- The default configuration, rneat.py lines 234-322 and fneat.py lines 238-326, values as text; `ff` is the value of `feed_forward`
('False' for RNEAT, 'True' for FNEAT). -/
def basicConfig (ff : String) : List (String × Section String) :=
  [("NEAT", [("fitness_criterion", "max"), ("fitness_threshold", "1e5"), ("pop_size", "30"), ("reset_on_extinction", "True"),
     ("no_fitness_termination", "False")]),
   ("DefaultGenome", [("activation_default", "identity"), ("activation_mutate_rate", "0.05"), ("activation_options", "sigmoid"),
     ("aggregation_default", "random"), ("aggregation_mutate_rate", "0.05"), ("aggregation_options", "sum product min max mean median maxabs"),
     ("single_structural_mutation", "False"), ("structural_mutation_surer", "default"), ("bias_init_type", "gaussian"), ("bias_init_mean", "0.05"),
     ("bias_init_stdev", "1.0"), ("bias_max_value", "30.0"), ("bias_min_value", "-30.0"), ("bias_mutate_power", "0.5"), ("bias_mutate_rate", "0.7"),
     ("bias_replace_rate", "0.1"), ("compatibility_disjoint_coefficient", "1.0"), ("compatibility_weight_coefficient", "0.5"),
     ("conn_add_prob", "0.5"), ("conn_delete_prob", "0.1"), ("enabled_default", "True"), ("enabled_mutate_rate", "0.2"),
     ("enabled_rate_to_true_add", "0.0"), ("enabled_rate_to_false_add", "0.0"), ("feed_forward", ff), ("initial_connection", "partial_nodirect 0.5"),
     ("node_add_prob", "0.5"), ("node_delete_prob", "0.5"), ("num_hidden", "1"), ("num_inputs", "None"), ("num_outputs", "None"),
     ("response_init_type", "gaussian"), ("response_init_mean", "1.0"), ("response_init_stdev", "0.05"), ("response_max_value", "30.0"),
     ("response_min_value", "-30.0"), ("response_mutate_power", "0.1"), ("response_mutate_rate", "0.75"), ("response_replace_rate", "0.1"),
     ("weight_init_type", "gaussian"), ("weight_init_mean", "0.1"), ("weight_init_stdev", "1.0"), ("weight_max_value", "30"),
     ("weight_min_value", "-30"), ("weight_mutate_power", "0.5"), ("weight_mutate_rate", "0.8"), ("weight_replace_rate", "0.1")]),
   ("DefaultSpeciesSet", [("compatibility_threshold", "2.5")]),
   ("DefaultStagnation", [("species_fitness_func", "max"), ("max_stagnation", "50"), ("species_elitism", "0")]),
   ("DefaultReproduction", [("elitism", "1"), ("survival_threshold", "0.3"), ("min_species_size", "2")])]

end

end Neorl.Neat

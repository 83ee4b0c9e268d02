# Formal model of NEORL: design

Lean 4 models of the optimisers, hybrid algorithms, multi-objective tools, RL environment and replay/return utilities of `/repo/neorl`, and theorems
about them. The Python code is read as text; it is never executed. `properties.jsonl` holds the claims in English, `MANIFEST.json` maps each claim to its
theorems, `seeded/LOG.jsonl` records the wrong programs the theorems were tried against.

## 1. Layout

* `lean/Verif/X.lean` - the model of one source file (or a group of them) with the lemmas about it; every definition cites the lines it mirrors.
* `lean/Verif/Props/X.lean` - specifications that do not use the model's helpers, the property theorems (`Cnn_...`) and, beside them, examples that meet the
  hypotheses or witnesses of the defects.
* `lean/Verif.lean` - imports everything; `lake build` in `/verif/lean`.

## 2. Conventions shared by all models

* **Numbers.** Python and numpy floats are elements of an arbitrary linearly ordered field `K` (`[Field K] [LinearOrder K] [IsStrictOrderedRing K]`,
  `[FloorRing K]` where `int()`/`round` occur): no rounding, overflow, NaN or signed zero. Examples run in the rationals. `float('inf')` start values are `⊤` or an
  explicit "nothing yet". Integers are `Int`/`Nat`.
* **Randomness.** Each `random`/`np.random` call is an argument (an arbitrary draw). Theorems hold for all draws; the range a library call guarantees
  (for instance 0 <= u < 1) is a hypothesis only where it is needed.
* **Transcendental functions** (`exp`, `log`, `sqrt`, `cos`, `gamma`, powers) are parameters, with the facts needed as explicit hypotheses; C27 (utilities), C61
  are over the real numbers.
* **User fitness** is an arbitrary total function of the encoded vector. All points handed to it are collected in ghost fields (`log`), so "everything evaluated" means the
  actual calls. Fitness functions that raise (except in the tuners, C57) or give different answers for the same point are out of scope.
* **Exceptions** are values: `Py α = Except PyErr α`, one constructor per Python exception class. No error branch is replaced by a default. Endless recursion is
  `PyErr.recursion` after running out of a fuel that the theorems show to suffice otherwise.
* **Mutation and aliasing.** Updates return new values; where numpy views are observable (JAYA, EPSO) the model stores a reference and reads through it.
* **Parallel evaluation** (`joblib`, `Pool`) is a map in input order (justified for the documented behaviour of `joblib` in C144); where the parallel branch differs in effect (EPSO counter, PESA weights) it is modelled.
* **Grid variables** are encoded as integers exactly as the optimisers do; C05 shows the encoding to be a bijection.

## 3. Trusted base

* The Lean 4.33.0 kernel and the installed Mathlib. No own axioms, no `sorry`/`admit`, no `native_decide`, no `bv_decide`; `decide +kernel` is used only for
  closed examples and witnesses, and is checked by the kernel.
* Axioms, from `#print axioms` on all 1339 theorems of `MANIFEST.json`: 1102 depend on `propext`, `Classical.choice`, `Quot.sound` (marked pcq in section 6), 179 on `propext`, `Quot.sound` (pq),
  44 on `propext` (p), 14 on none (0).
* That the models are faithful readings of the cited lines under the idealisations of section 2. This was checked by reading only.

## 4. What is modelled

| model | what it models, and where it simplifies (from the head of the file) | lines |
|---|---|---|
| `ACERLoss.lean` | **The policy update of ACER.** Model of parts of `neorl/rl/baselines/acer/acer_simple.py` for discrete actions: `get_by_index` (lines 33-46), `strip` (49-60) with `batch_to_seq` and `seq_to_batch` (`tf_util.py` lines 24-56), `EpisodeStats` (lines 96-152), the importance weights and the bias correction (lines 363-405), the policy gradient and the trust region step (lines 426-447). The retrace targets are in `Verif/Returns.lean`. The outputs of the networks and the gradient of the loss are parameters; `eps` (1e-6), the correction term `c` (10) and `delta` (1) are kept as parameters. | 121 |
| `ACO.lean` | **Ant colony optimisation (ACOR).** Model of `neorl/evolu/aco.py`. Fitness is an arbitrary function of the position. Variable types are never consulted by the main loop, so a space is just its list of bounds. All new ants share one numpy array until line 152 rebinds each position (`createEmptyNewPopulations`, lines 344-355); every coordinate is overwritten before that, so the sharing is not observable. | 311 |
| `AEO.lean` | **Animorphic ensemble optimisation.** Model of `neorl/hybrid/aeo.py`: the helper functions (lines 43-267), `Population` (lines 269-439), and `AEO` (lines 442-889). A population's own algorithm is called through an evolver, an arbitrary function from the member list to its last population and the points it evaluated; `Props/AEO.lean` shows that the models of the supported optimisers are such evolvers. Generators are functions of their arguments with the laws of `Rng.OK`. NaN fitness values are `none`. Not modelled: the xarray log itself (only the size of its rows is checked), `clone_algo_obj` (the evolver receives the current members), printing. | 448 |
| `AEOMembers.lean` | **The nine algorithms of the ensemble as evolvers.** `neorl/hybrid/aeo.py`, `clone_algo_obj` lines 116-177 and `Population.evolute` lines 301-347: the optimiser is rebuilt with as many members as the population has, and called with `x0 = members` and the annealed keyword arguments. | 88 |
| `AEOStart.lean` | **The start of the animorphic ensemble.** Model of the first part of `AEO.evolute` (`neorl/hybrid/aeo.py` lines 671-710): sizes of the populations, starting positions with their population numbers, and the names under which the populations are logged. `get_algo_nmembers` (lines 179-202) is the list `sizes`; a sampled position is `sample k`; names are lists of characters. | 66 |
| `ActProb.lean` | **`predict` and `action_probability`.** Model of `_is_vectorized_observation`, `predict` and `action_probability` of `neorl/rl/baselines/shared/base_class.py` (lines 691-750 and 810-909) together with the `_policy_proba` of `neorl/rl/baselines/shared/policies.py` (lines 240-251), over the real numbers. The network is a parameter: `outs` is its output, one flat vector per row of observations. Arrays are lists of rows; reshapes of the actions given by the caller are already done (`acts` is the list of rows). Arrays are not restricted to float32. | 179 |
| `Anneal.lean` | **Annealing from an input file.** Model of `neorl/evolu/runners/sa.py` (class `SAAgent`), which runs the card `SA` of an input file. The values of the card are those delivered by `PARSER.py` (vectors are arrays of floats). A state of the chain is an array, here a list of numbers. `np.random.randint([l], [u])` gives an array with one entry, which is identified with its entry. Temperatures are the parameter `temp` (their formula is `coolT` below) and `np.exp(-dE/T)` is the parameter `accP dE T`. Draws are arbitrary numbers reduced to the range of the call. `none` means that a `while` loop has not ended when the draws are used up. Printing, seeding and the plot of the callback are left out; what is printed at a check is kept as a report, before rounding. A plain `Exception` is `.runtimeError`. | 314 |
| `Assoc.lean` | **Normalisation and association of NSGA-III.** Model of `find_extreme_points`, `find_intercepts` and `associate_to_niche`, `neorl/multi/tools.py` lines 375-462, and of their use in `NSGAIII.select`, `neorl/multi/nsgaIII.py` lines 132-147. The fitness vectors have `m` entries. `np.linalg.solve` is a parameter (`none` for `LinAlgError`), so is the square root in `np.linalg.norm`. The arguments `best_point`, `worst_point`, `extreme_points` of `select` are never passed (line 291), so they are `None` here. | 174 |
| `Atari.lean` | **Atari wrappers.** Model of `neorl/rl/baselines/shared/atari_wrappers.py`. A game is a machine with state `E`: `reset`, `step` and the number of lives. `info` is passed through by every wrapper and left out. `ScaledFloatFrame` and the composition of the wrappers: `Verif/DeepMind.lean`. | 147 |
| `Attach.lean` | **Attaching environments to models.** Model of `BaseRLModel.__init__`, `set_env`, `_setup_learn` (`neorl/rl/baselines/shared/base_class.py` lines 43-98, 115-162, 220-230), of the runner of `ActorCriticRLModel` (lines 773-799), of `ACER.set_env` (`acer/acer_simple.py` lines 246-252), of `n_batch` in `setup_model` and `learn` of A2C, PPO2 and ACKTR, and of `SetVerbosity` (base_class.py lines 1117-1147). An environment is described by its spaces, whether it is vectorised, how many environments it holds and the `VecNormalize` object among its wrappers. Functions that change the model return it together with the exception, in the state in which the exception leaves it. | 217 |
| `BAT.lean` | **Bat algorithm.** Model of `neorl/evolu/bat.py`. Fitness is an arbitrary function of the encoded vector (grid decoding included). The points handed to the fitness function are collected: `log0` for the initial evaluation, `log` for the three stages of all generations. | 270 |
| `BenchMore.lean` | **More benchmarks: Alpine, Shubert, ridge, power splits, and the surface plot.** `neorl/benchmarks/classic.py` lines 95-99 and 137-146, `neorl/benchmarks/qpower_model.py`, `neorl/benchmarks/__init__.py`. As in `Verif/Classic.lean`, over the real numbers. The network of the power model is an arbitrary function; the drawing itself is not modelled. | 88 |
| `Best.lean` | **Shared specifications for optimisers.** Running minima with an initial value `float("inf")` (the top element), best-of-a-set specifications, recorded histories and the sign convention by which `mode='max'` is reduced to minimisation (or `mode='min'` to maximisation). | 740 |
| `CEC08.lean` | **The CEC 2008 benchmark functions.** `neorl/benchmarks/cec08.py`: the classes `F1`-`F7`, their `fit` and `return_global`. Functions are over the real numbers. The column of `tools/data08.csv` a class loads is a parameter `data`; the file has a thousand rows. `F7` draws from numpy's global generator, which is modelled as a state machine with an arbitrary state type. | 139 |
| `CEC17.lean` | **The CEC 2017 benchmark suite.** `neorl/benchmarks/tools/basic.py` (the twenty basic functions), `neorl/benchmarks/cec17.py` (the thirty shifted, rotated, hybrid and composed functions) and the key sets of the data tables in `neorl/benchmarks/tools/transforms.py`. Over the real numbers, so rounding is not modelled; `float('inf')` and `nan`, which the composition functions produce, are (`Fl`). A vector is a list of reals, a matrix the list of its rows. `x - shift` and `np.matmul` fail with a `valueError` on operands that do not fit; numpy's stretching of a one-element operand in `x - shift` is not modelled. The contents of the data file (`tools/data.pkl`) are arbitrary. | 523 |
| `CG.lean` | **Conjugate gradients.** Model of `conjugate_gradient` (`neorl/rl/baselines/shared/cg.py`), which TRPO and GAIL use for the natural gradient. Arithmetic is exact, over any ordered field; the callback and the printing are left out. A division by zero makes numpy return a vector of nan/inf: this is `none`. The second division (`mu_val`) has a zero denominator only when the first one has (`Verif/Props/CG.lean`, `guard`). | 55 |
| `CS.lean` | **Cuckoo search.** Model of `neorl/evolu/cs.py`. Fitness is an arbitrary function of the encoded vector. `fit_worker` (line 147) clamps the point it evaluates but not the stored nest. | 378 |
| `Callbacks.lean` | **Callbacks of the RL baselines.** Model of `neorl/rl/baselines/shared/callbacks.py`. - A callback is a machine: `on_step` with the model's `num_timesteps` gives a new state and what the Python function returns, of which only three things matter: the object `False`, any other false value (`None`, `np.False_`, `0`), or a true value. - A child reads its `parent` attribute; the parent is passed along: nothing, a parent without `best_mean_reward`, or one with it. - Evaluating the policy, saving the model, printing: the mean reward of the k-th evaluation is an arbitrary function of k, saved models are recorded with `num_timesteps`. | 145 |
| `Classic.lean` | **The classical benchmark functions.** `neorl/benchmarks/classic.py`: the objective functions the package ships for trying the optimisers on, with the tables `all_functions`, `all_bounds`, `all_ndim` and `all_minima_x`. The functions are modelled over the real numbers (`sin`, `cos`, `exp`, `sqrt`, `pi` and real powers are Mathlib's), so rounding of the floating-point evaluation is not modelled. An individual is a list of reals of any length. Exceptions are values: an index into an empty list is an `indexError`, an integer or float division by zero a `zeroDivision`. | 329 |
| `Compare.lean` | **Dependence on the fitness through comparisons only.** Lemmas behind C135: the models of the optimisers commute with a strictly increasing change of the internal fitness. No new code is modelled here; `mapFit` applies a function to every fitness value stored in a state or a result and leaves everything else alone. | 1475 |
| `ConvLayer.lean` | **The convolutional layer: shapes, formats and bias.** Model of `conv` (`neorl/rl/baselines/shared/tf_layers.py` lines 64-107): the sizes of the filter, the two data formats, the shapes of the variables and the sum of the bias and the convolution, with the broadcasting of tensorflow. The convolution itself is a parameter (its values are in `Verif/ConvStats.lean`); shapes are known when the graph is built. | 93 |
| `ConvStats.lean` | **Convolutions and their statistics in ACKTR.** Model of `conv` (`neorl/rl/baselines/shared/tf_layers.py` lines 95-107, padding `VALID`, format `NHWC`) and of the part of `KfacOptimizer.compute_stats` for convolutions (`neorl/rl/baselines/acktr/kfac.py` lines 375-384, 416-444, 452-481), with and without `approx_t2`, for a kernel with a bias and without `blockdiag_bias` and `channel_fac` (ACKTR sets neither). Real numbers take the place of 32 bit floats. A batch has `B` images, the output `Oh × Ow` places. Images are functions of row, column and channel; that only pixels of the image are read is a theorem. The rows of a matrix with flattened places are pairs of image and place; the flattened entries of a kernel are triples of row, column and channel, in both cases instead of one number in row-major order. `Option` adds the column for the bias. | 74 |
| `Cooling.lean` | **Cooling schedules of simulated annealing.** Model of `temp`, `neorl/evolu/sa.py` lines 215-238, over the real numbers. | 34 |
| `Crowd.lean` | **Crowding distance and the survivor selection of NSGA-II.** Model of `assignCrowdingDist`, `neorl/multi/tools.py` lines 551-579, and of `NSGAII.select`, `neorl/multi/nsgaII.py` lines 103-138. `float("inf")` is `⊤`; arithmetic is exact. Fitness vectors of one population have equal length in the theorems; a shorter vector raises in the code and is padded with zero in the model. | 651 |
| `DE.lean` | **Differential evolution.** Model of `neorl/evolu/de.py`. Fitness is an arbitrary function of the encoded vector (the grid decoding of `fit_worker`, lines 171-173, is part of that function). The points handed to the fitness function are collected in `log`. | 434 |
| `DQN.lean` | **The training loop of DQN.** Model of `DQN.learn` (`neorl/rl/baselines/deepq/dqn.py` lines 149-310) with the uniform replay buffer (`Replay`) and the exploration schedule (`Schedule.linearValue`). - The environment, the Q network (`act`), the gradient step (`upd`, on online and target parameters) and the sampling (`draws`) are arbitrary functions; the callback is an arbitrary sequence of decisions to stop (C95). - Not modelled: prioritised replay (C35), hindsight replay (C36), parameter noise (C146), observation normalisation (C92), logging. | 131 |
| `DQNNet.lean` | **The network of DQN and its predictions.** Model of `FeedForwardPolicy` and the four policies of `neorl/rl/baselines/deepq/policies.py` (lines 91-152, 172-176, 196-200, 220-224, 244-248), of the checks of `DQNPolicy.__init__` (lines 26-36) and `_kwargs_check` (`neorl/rl/baselines/shared/policies.py` lines 168-184), and of `predict` and `action_probability` of `neorl/rl/baselines/deepq/dqn.py` (lines 326-362), over the real numbers. The network is the function it computes on one flattened observation, given the variables. `fully_connected` and `layer_norm` of `tf.contrib.layers` are the formulas of their documentation (`layer_norm` adds `1e-12` to the variance). The activation function and the features of the CNN are parameters. A draw of `np.random.choice` is one uniform number in `[0, 1)`. Arrays are lists of rows; the reshape of the actions given by the caller is already done. | 164 |
| `DTLZ.lean` | **The DTLZ2 multi-objective benchmark.** `neorl/benchmarks/dtlz.py`: `DTLZ2` with its superclasses `DTLZ` and `Problem`: construction, `evaluate` of one or several rows, `pareto_front` with its cache, `nadir_point` and `ideal_point`. Real arithmetic; `cos`, `sin`, `sqrt` are Mathlib's. Not modelled: the automatic differentiation branch of `evaluate` and `return_values_of` other than the default (there are no constraints, so the default returns the objectives only). | 100 |
| `Dataset.lean` | **Minibatches.** `neorl/rl/baselines/shared/dataset.py`: class `Dataset` (lines 4-77) and `iterbatches` (lines 80-101). A dataset is a list of columns (the values of `data_map`), each with `n` samples; `np.random.shuffle(np.arange(n))` is a list `perm` that is a permutation of `0 .. n-1`. | 90 |
| `DeepMind.lean` | **The DeepMind pipeline of Atari wrappers.** Model of `wrap_deepmind`, `ScaledFloatFrame` and `LazyFrames` of `neorl/rl/baselines/shared/atari_wrappers.py`: the wrappers of `Verif/Atari.lean` on top of each other, in the order of the code. Simplifications: a frame is the list of its pixels (row by row), that is, the frames are grey already, so that `WarpFrame` (line 194) only adds an axis of length 1; the caching of `LazyFrames._force` is left out; the game is any machine, in particular the result of `make_atari`. | 117 |
| `Dist.lean` | **Action distributions.** Model of `neorl/rl/baselines/shared/distributions.py`: categorical, multi-categorical, diagonal Gaussian and Bernoulli distributions, one row of the batch, over the real numbers. `tf.nn.softmax_cross_entropy_with_logits_v2` and `tf.nn.sigmoid_cross_entropy_with_logits` are the formulas of their documentation. `proba_distribution_from_latent` (a network) is not modelled. | 265 |
| `EDEV.lean` | **Ensemble of differential evolution variants.** `neorl/hybrid/edev.py`: one population, cut anew in every generation into three sub-populations which run JADE, CoDE and EPSDE. `mixPop` and `mixVal` are kept as one list of (individual, value) pairs. All random numbers of a generation are fields of `Draws`; the sampled control parameters (`randFCR`, `Para`) and donor indices (`gnR1R2`, `generator`) enter as such, their generators are in `Verif/EDEVCore.lean`. The EPSDE parameter memory `PPara`, `RATE`, `RR` is in `Verif/EPSPool.lean`; here `Draws.estrat`, `ecr`, `epar` stand for whatever it yields. | 748 |
| `EDEVCore.lean` | **Helpers of the ensemble of differential evolution variants.** `neorl/hybrid/edevcore/helpers.py`: donor indices of `generator` (lines 45-133), `gnR1R2` (139-169), `randFCR` (171-192), `ARCHIVE` (201-224). | 83 |
| `EPSO.lean` | **EPSO (`neorl/hybrid/epso.py`).** Simplifications: exact arithmetic (also in the phase test `fitcount <= 0.9*max_FES`); `Pc` (lines 325-327) is a parameter; the three nearest personal bests of LIPS (`np.argsort` of Euclidean distances, lines 458-460) are an arbitrary choice `near`; grid variables as integers (C05); `delta` is not kept (it is written before it is read). | 840 |
| `EPSPool.lean` | **The parameter pool of EPSDE.** `neorl/hybrid/edev.py` lines 299, 315-325, 491-512 and 569-601: every member of the third sub-population gets a strategy, a crossover rate and a scale, either fresh or from the pool `PPara` of parameters that were successful before. `np.random.randint(n)` is `ri n` for an arbitrary function `ri` (below `n` in the theorems, `ValueError` for `n = 0`); which members are successful (`tempval[i] < val[i]`, line 571) is an arbitrary list of Booleans, the rest of the generation is in `Verif/EDEV.lean`. | 139 |
| `ER.lean` | **Experience memory of PESA.** Model of `neorl/hybrid/pesacore/er.py`. A sample `(x, obj)` or `(x, obj, method)` is an element of a type `β` with decidable equality, of which the code uses the vector (`xOf`) and the objective (`obj`). Vectors are Python lists (comparing numpy arrays with `in` would raise). | 222 |
| `ES.lean` | **Evolution strategies: the main loop.** Model of `neorl/evolu/es.py`. Fitness is an arbitrary function of the encoded vector (grid decoding included). ES maximises internally. Parallel and serial evaluation give the same values. | 586 |
| `ESTune.lean` | **Evolutionary hyperparameter search.** Model of `neorl/tune/estune.py`: evolution strategies (`Verif/ES.lean`) over the encoded hyperparameter space (`Verif/Grid.lean`), and the table built from `best_indvs` and `local_fitness`. Not modelled: the plot, the CSV file (a copy of the table), printing, worker processes. | 90 |
| `Env.lean` | **The RL environment around a fitness function.** Model of `neorl/rl/make_env.py` (`action_map`, `ensure_discrete`, the multidiscrete codecs and `BaseEnvironment`). Simplifications: every number of the encoded vector is kept in `K` (numpy dtypes are not modelled); `list(set(...))` is an arbitrary order of the different values; the samples of the gym spaces are arbitrary points (of the space, where a theorem needs it); without grid variables the code skips the decoding, which is then the identity anyway. `SubprocVecEnv` and seeding are not modelled. | 349 |
| `EnvCheck.lean` | **Checking a user's environment.** Model of `neorl/rl/baselines/shared/env_checker.py` (`check_env` and its helpers), with the parts of `DummyVecEnv` and `VecCheckNan` that it uses. The environment is a state machine whose methods may raise. Python types are names (`Ty`), `observation_space.contains` is a function. Texts of warnings are replaced by names. | 180 |
| `Feasible.lean` | **Encoded search spaces and feasibility.** The data an optimiser keeps about its (grid-encoded) search space, and the specification of a feasible point. | 273 |
| `GARun.lean` | **The genetic algorithm started from an input file.** Model of `neorl/evolu/runners/ga.py` (`GAAgent`) with the operators of `neorl/evolu/crossover.py` it calls. The fitness `env.fit` is a parameter. Not modelled: the plots of the callback, the printed statistics of the strategies, the process pool (serial and parallel evaluation give the same values in the same order), `kbs_append` (always false). | 554 |
| `GATune.lean` | **Mutation of hyperparameters by the genetic tuner.** Model of `GATUNE.mutGATUNE` (`neorl/tune/runners/gatune.py` lines 437-496) and of the lists `LOW` and `UP` it is given (lines 204-223). The two powers `xy ** (eta + 1)` and `val ** mut_pow` are parameters (`pw`, `rt`). Python's `float` and `int` values are told apart as `type(...)` does. Simplified: `low` and `up` are lists (the code also takes single numbers), the numbers of a stream of draws are functions of the coordinate. The class is not used by `scripts.py`, which sends `gatune` to `ESTUNE`. | 150 |
| `GWO.lean` | **Grey wolf optimiser.** Model of `neorl/evolu/gwo.py`. Fitness is an arbitrary function of the encoded vector (the grid decoding of `fit_worker`, lines 125-127, is part of that function). The points handed to the fitness function are collected in `log`. | 307 |
| `Gmatmul.lean` | **Products of tensors and matrices in ACKTR.** Model of `gmatmul` and `factor_reshape` (`neorl/rl/baselines/acktr/kfac_utils.py` lines 4-64 and 103-128), with which `apply_gradients_kfac` brings a gradient into the basis of eigenvectors and back (`neorl/rl/baselines/acktr/kfac.py` lines 718-796). - A tensor is its shape and its entries by index; `tf.transpose` and `tf.reshape` are modelled as TensorFlow defines them (row-major order). Shapes are fully known. - `reduce_dim` is a natural number. | 277 |
| `Grid.lean` | **Mixed search spaces: grid encoding, initial-guess check, population tables.** Models of `neorl/evolu/discrete.py` lines 104-151 and of `neorl/utils/tools.py`. | 438 |
| `HCLPSO.lean` | **HCLPSO (`neorl/evolu/hclpso.py`).** Simplifications: exact arithmetic; `Pc` (lines 249-254, an exponential ramp from 0 to 0.25) is a parameter `pc`; grid variables as integers (C05); `ncores > 1` evaluates the same rows. | 371 |
| `HER.lean` | **Hindsight experience replay.** Model of `neorl/rl/baselines/deepq/replay_buffer.py`. | 352 |
| `HHO.lean` | **Harris hawks optimisation.** Model of `neorl/evolu/hho.py`. Fitness is an arbitrary function of the encoded vector (grid decoding included). Ghost logs: `starts` collects the start-of-generation evaluations (`eval_hawks`), `dives` the evaluations made inside `team_rapid_dives` during the latest generation, `early` everything evaluated before those dives. | 458 |
| `Informed.lean` | **RL-informed evolution: ACKDE and PPO-ES.** Model of `neorl/hybrid/ackde.py` and `neorl/hybrid/ppoes.py` (identical but for the agent and the evolutionary algorithm): the selection of the RL individuals in `learn`, and `evolute` with the RL mode of DE (`mix_population`, `neorl/evolu/de.py` lines 204-213 and 325-326) and of ES (`neorl/evolu/es.py` lines 408-424). What the agent visits (`cb.x_hist`, `cb.r_hist`) is arbitrary; the agent and its hyperparameters are not modelled. The order of rows with equal score in `sort_values` and of equal scores in `argsort` is arbitrary. Numbers in the array `self.data` are floats (`DataFrame.values` with a float score column). `random.sample` is an arbitrary choice (that the indices differ is not used). A bare `Exception` is reported as `valueError`. | 453 |
| `InitPop.lean` | **Initial populations.** Model of how the optimisers of `neorl/evolu` (and NSGA-II) obtain their first population: the random generators of individuals, the treatment of the initial guesses `x0`, and the exceptions to the rule in ACO, XNES, SA and TS. Draws are arbitrary: `u` is what `random.random()` returns, `z` picks one of the values of an integer range or of a list (every integer and every value of a list is the result for some `z`). A bare `Exception` is reported as `valueError`. `x0=None` and `x0=[]` take the same branch (`if x0:`) and are both `[]` here. | 213 |
| `InputFile.lean` | **The input file.** Model of `neorl/parsers/PARSER.py` (the whole file), `neorl/parsers/TuneChecker.py` and the tables of `neorl/parsers/ParamList.py`. Text is a list of characters; Python's `isspace` and `isalpha` are the parameters `ws` and `alpha`. `float` on text is a parameter (`none`: ValueError; infinities and nan are not represented, numbers are rationals), `json.loads` with `literal_eval` as fallback is the parameter `ev`, `cpu_count` and `os.path.exists` are parameters. A plain `Exception` is `.runtimeError`. Printing is left out. | 480 |
| `JAYA.lean` | **JAYA.** Model of `neorl/evolu/jaya.py`. Fitness is an arbitrary function of the encoded vector. `Best_pos` and `Worst_pos` are numpy *views* of rows of `pos` (lines 222, 225, 260, 263): the model stores the row index and reads the row at use time. | 478 |
| `KP.lean` | **The knapsack environment.** `neorl/benchmarks/kp.py`, class `KP`. | 268 |
| `Kfac.lean` | **The Kronecker-factored optimiser of ACKTR.** `neorl/rl/baselines/acktr/kfac.py` (`KfacOptimizer`) and `kfac_utils.py`, as ACKTR builds them (`acktr/acktr.py` 204-213): synchronous, without full initialisation of the statistics, with one forward and one backward factor for each dense layer and the bias of the layer as the last row of its weight matrix. Real numbers take the place of 32 bit floats. The eigenvalue decomposition is a parameter. Convolutions, the channel factorisation, the asynchronous queues and the search of the graph for the factors are not modelled. A training step of TensorFlow runs the whole K-FAC operation at every step, in the cold phase as well: `kfac_optim_op` is made outside of the branches of `tf.cond` (kfac.py 994-999), and an operation made outside runs whichever branch is taken. The read of `sgd_step` in the K-FAC operation is not ordered with respect to the increment in the cold branch; an oracle decides it. | 349 |
| `Latin.lean` | **Latin hypercube design.** `neorl/hybrid/ngacore/Latin.py` lines 24-40 (the copy in `neorl/hybrid/nhhocore/Latin.py` is the same code). | 34 |
| `Local.lean` | **The fitness is used only through the recorded evaluations.** Lemmas behind C143. No new code is modelled here: for every optimizer below the run with another fitness is compared with the recorded one. | 846 |
| `LocalMore.lean` | **Runs and the evaluations they make: HCLPSO, EPSO, EDEV, NSGA-II, NSGA-III.** More lemmas behind C143. No new code is modelled here. | 443 |
| `LogConf.lean` | **Which logger is current, and where it writes.** Model of `configure`, `reset`, `ScopedConfigure` and `make_output_format` (`neorl/rl/baselines/shared/logger.py` lines 251-272 and 569-634). Loggers are numbered in the order of their creation; 0 is `Logger.DEFAULT`, which prints to the terminal and owns no file, so that closing it does nothing. Opening a file for writing empties it; `opened` lists every such event. What the formats write is in the model of the logger (C117); the lines "Logging to ..." and "Reset logger" are left out. | 135 |
| `LogSort.lean` | **The divide-and-conquer non-dominated sort.** Model of `sortLogNondominated` and its helpers, `neorl/multi/tools.py` lines 130-364. The dictionary `front` is a function from fitness vectors to front numbers. `stairs` is not stored, it is always the list of the negated second objectives of `fstairs`; `bisect_right` (standard library) on that ascending list is the length of the longest prefix whose entries do not exceed the argument. | 1567 |
| `Logger.lean` | **The logger of the RL agents.** Model of `RLLogger` (`neorl/utils/neorlcalls.py` lines 210-330) together with the counter of `BaseCallback.on_step` (`neorl/rl/baselines/shared/callbacks.py` lines 87-99). One call sees the rewards and the individuals `info['x']` of all parallel environments (a single entry for DQN). Saving the network is recorded as the call number at which it happens. Plotting and printing are not modelled. | 300 |
| `Longer.lean` | **Longer runs, continued runs.** Lemmas behind C142: what a run of `n` generations and a run of `n' ≥ n` generations with the same draws have in common, and what a run started from the last population of another one does. No new code is modelled here. | 497 |
| `Lstm.lean` | **The recurrent layer (neorl/rl/baselines/shared/tf_layers.py, lines 128-198; tf_util.py, lines 24-55).** The networks before and after the layer act on every sample alone and are left out. Rows of tensors are functions on `Fin`; the `4 n` columns of the gates are four blocks of `n`. Sigmoid, tanh and the square root are arbitrary functions. | 107 |
| `MFO.lean` | **Moth-flame optimisation.** Model of `neorl/evolu/mfo.py`. Fitness is an arbitrary function of the encoded vector; `exp(b t) cos(2 pi t)` is an arbitrary function `spiral`. `np.argsort` does not promise an order for ties, so sorting is a parameter `srt` that is only assumed to sort (`SortOK`). | 338 |
| `MakeEnv.lean` | **Making monitored environments: seeds and log files.** Model of `neorl/rl/baselines/shared/cmd_util.py` lines 18-154: `make_vec_env`, `make_atari_env`, `make_mujoco_env`, `make_robotics_env`. An environment is what the functions do to it: how it was made, its seeds, its log file and whether the user's wrapper is around it. The Atari wrappers are in the models of C104 and C149, the contents of log files in C99 and C133. `isdir k` says whether the folder of the logs has a directory named `k`, which changes the name of the file (`MonLoad.fileName`). | 57 |
| `MathUtil.lean` | **Numerical helpers of the baselines and action noise.** Model of `neorl/rl/baselines/shared/math_util.py` (`explained_variance`, `explained_variance_2d`, `flatten_arrays`, `unflatten_vector`, `scale_action`, `unscale_action`; the discounted sums are in `Verif/Returns.lean`) and of `neorl/rl/baselines/shared/noise.py`. Gaussian draws are arbitrary numbers. | 173 |
| `Memory.lean` | **The experience memory inside PESA.** Model of what `neorl/hybrid/pesa.py`, `pesa2.py` and `pesax.py` do with the memory of `Verif/ER.lean`: samples `(x, obj, method)`, added in blocks, sampled with priorities, and the best one read after every generation. | 278 |
| `MonLoad.lean` | **The files of `Monitor`: their names, and `load_results`.** `neorl/rl/baselines/shared/monitor.py` lines 25, 38-48 (the name of the file) and 159-208 (`get_monitor_files`, `load_results`). A file is what its parsing gives: the `t_start` of its first line and its rows; a row is its time and everything else. pandas sorts with an algorithm that is not stable, so the sort is an arbitrary function `srt` (in the theorems: one that sorts). Rounding of times is left out. | 105 |
| `Monitor.lean` | **Monitor and evaluate_policy.** Model of `neorl/rl/baselines/shared/monitor.py` (class `Monitor`) and `shared/evaluation.py`. - The time stamps and the file are left out: the rows written are a list. Rounding to six decimals is an arbitrary function `rnd`. - An environment is a machine whose calls can raise; `predict` of the model is an arbitrary function with a hidden state for recurrent policies. | 190 |
| `Moves.lean` | **Helpers for the movement laws.** How clamping and the discrete repair treat a float coordinate, and elementary estimates shared by the movement rules. | 133 |
| `Mpi.lean` | **Statistics and gradient steps shared by several processes.** Model of `neorl/rl/baselines/shared/mpi_moments.py`, `mpi_running_mean_std.py` and `mpi_adam.py`. A *world* is the list of what the processes hold, rank 0 first. `Allreduce` with `MPI.SUM` gives every process the sum of the messages; all processes compute the same from it, so results are modelled once. A message is one flat array in the code (sums followed by a count); its parts are kept apart here. An array is a list of rows, a row has one number for each of `d` entries; only `axis=0`, the default, is modelled. Numbers are real; the conversions to `float32` are left out. A division by a count of zero (no process has a row; numpy gives `nan`) is excluded by the theorems. `mpi_adam.py` and `mpi_running_mean_std.py` import `shared.tf_util` by a path that does not exist in the package, so they cannot be imported as they are. | 130 |
| `NDSort.lean` | **Pareto dominance and the standard non-dominated sort.** Model of `isDominated` and `sortNondominated`, `neorl/multi/tools.py` lines 35-115. A population is the list of the fitness vectors of its individuals (in dictionary order); individuals are the indices. The dictionary keys are unique, so `map_fit_ind` holds one individual per key. | 870 |
| `NGA.lean` | **Neural genetic algorithm.** Model of `neorl/hybrid/nga.py` with `neorl/hybrid/ngacore/GA.py` and `neorl/hybrid/ngacore/RBFN.py`. Parameters of the model: the clustering of `KMeans`, the pseudo-inverse, the norm, the kernel and the real root `x ** (1 / n)`. The types of the variables do not occur because the code does not read them. Where numpy divides by zero the code continues with `inf` or `nan`; the crossover handles both cases and so does the model; in the mutation the theorems assume `lb < ub`. Not modelled: printing; `nan` predictions (equal cluster centers). | 282 |
| `NHHO.lean` | **Neural Harris hawks optimisation.** Model of `neorl/hybrid/nhho.py` with `neorl/hybrid/nhhocore/hho.py` (the same moves as `evolu/hho.py`, but the fitness is not negated for maximisation) and the data handling of `neorl/hybrid/nhhocore/nnmodel.py`. The network itself is an arbitrary function of the (scaled) training and validation samples; predictions are made row by row. Grid variables are covered by `Verif/Grid.lean` (fitness is a function of the encoded vector). Not modelled: files, plots, printing, worker processes. | 205 |
| `NSGA.lean` | **NSGA-II and NSGA-III: the main loop.** Model of `neorl/multi/nsgaII.py` lines 139-331 and `neorl/multi/nsgaIII.py` lines 170-371 (identical but for the selection). Both derive from `ES` with `mu = lambda_`; `GenOffspring` is that of `ES` except for the dictionary keys. The fitness is an arbitrary function to vectors of a fixed length; internally everything is maximised. Grid spaces are encoded as in `ES`. | 503 |
| `Neat.lean` | **RNEAT and FNEAT.** Model of `neorl/hybrid/rneat.py` and `neorl/hybrid/fneat.py` (the two files differ in the network class and one default only): the evaluation of the genomes, alone (`eval_genomes`) and with a pool of processes (`NEATWorker`, `ParallelEvaluator`), `evolute` and `modify_config`. The environment is the one of `Verif/Env.lean`. The library `neat` is not modelled: a genome is any value, the network made from it is any state machine, the genomes of a generation are any function of the fitness values given so far, and the library may stop early after any generation. The number −∞ is `none`; rewards are finite numbers. The points evaluated are collected in a ghost list, one block per genome. | 250 |
| `Nets.lean` | **The networks of the policies.** Model of `observation_input` (`neorl/rl/baselines/shared/input.py`), of `mlp_extractor`, the shapes of `nature_cnn`, the constructors of `FeedForwardPolicy` and `LstmPolicy`, `step`, `get_policy_from_name` and `register_policy` (`neorl/rl/baselines/shared/policies.py` lines 17-92, 167-184, 404-512, 543-581, 708-756), of `linear`, `ortho_init` and `conv_to_fc` (`tf_layers.py` lines 5-43, 110-125, 216-225) and of `proba_distribution_from_latent` (`distributions.py` lines 169-172, 202-205, 238-243, 267-270). A network is the function it computes on one observation, given the variables: a weight and a bias for each variable scope. Vectors are lists. The activation function, the recurrent layer (modelled in `Lstm`), the features extracted by a CNN and the singular value decomposition are parameters. Layer sizes are natural numbers; all failed assertions are `assertion`, `NotImplementedError` is `runtimeError`. Of a convolution only the shape is modelled. | 286 |
| `Niche.lean` | **Niching and the survivor selection of NSGA-III.** Model of `niching`, `neorl/multi/tools.py` lines 465-511, and of `NSGAIII.select`, `neorl/multi/nsgaIII.py` lines 107-169. The association of individuals to reference points (extreme points, intercepts, distances: floating-point linear algebra) enters as an arbitrary function. `np.random.shuffle` is an arbitrary permutation; individuals are positions in the last front. | 425 |
| `Ortho.lean` | **Orthogonal initialisation of weights.** Model of `ortho_init` (`neorl/rl/baselines/shared/tf_layers.py` lines 5-42). Entries are numbers of an ordered field (the conversion to `float32` is left out), the noise of line 36 and numpy's singular value decomposition are parameters. | 55 |
| `PER.lean` | **Prioritised replay buffer.** Model of `neorl/rl/baselines/shared/buffers.py`, class `PrioritizedReplayBuffer` (lines 146-264). | 530 |
| `PESA.lean` | **PESA: evolution strategies, simulated annealing and particle swarm around one memory.** Model of `neorl/hybrid/pesa.py` with `neorl/hybrid/pesacore/es.py`, `sa.py`, `pso.py` and `er.py`. The fitness is an arbitrary function of the encoded vector (grid decoding included). PESA maximises internally. `ESMod.GenOffspring` (`pesacore/es.py` lines 329-385) has the same body as `ES.genOffspring` with two-point crossover and clipped strategies, and the model reuses it. `SAMod.move` (`pesacore/sa.py` lines 110-127) has the same body as `SA.defMove`. The position update of `PSOMod` (`pesacore/pso.py` lines 163-188) is that of `PSO.newPos` with Python integers as bounds; the speed update differs and is modelled here. Not modelled: worker processes and their random seeds (`PROC`, lines 293-338). In that mode the three methods run in child processes on copies of the state; the model keeps the two visible consequences, that sorting the memory inside a chain and the weight of `speed_mech='timew'` stay in the child. An assertion that fails in a child leaves the parent waiting for ever; the model reports the assertion. | 1231 |
| `PESA2.lean` | **PESA2.** Model of `neorl/hybrid/pesa2.py`: grey wolves, differential evolution and whales share a prioritised replay memory. The three methods `neorl/hybrid/pesacore/gwo.py`, `de.py` and `woa.py` are copies of `evolu/gwo.py`, `evolu/de.py` (without the RL individuals) and `evolu/woa.py` (without keyword arguments, `a0 = 2`, `b = 1`) that return the last population with its fitness; the models of those files are reused. The warmup samples are those of `ESMod.init_pop`, as in `Verif/PESA.lean`. Lists are values here. In the code a list that DE returns also sits in the memory, and DE repairs its targets in place; the last section models that sharing. Not modelled: worker processes (`PROC`, lines 313-338), grid variables (`Verif/Grid.lean`), printing. | 236 |
| `PESAX.lean` | **PESAX.** Model of `neorl/hybrid/pesax.py`: evolution strategies, differential evolution and particle swarm around one prioritised memory. The methods are those of `neorl/hybrid/pesacore/es.py` and `pso.py` (modelled in `Verif/PESA.lean`) and `pesacore/de.py` (a copy of `evolu/de.py` without the RL individuals, modelled in `Verif/DE.lean`; the trials are clipped before they are evaluated, so the clipping of `fit_worker` there changes nothing). The fitness is an arbitrary function of the vector, maximised internally. Not modelled: worker processes (`PROC`, lines 245-285) beyond their visible consequence that the weight of `speed_mech='timew'` is updated in the child and lost; printing. Lists are values here; `C69_shared_unchanged` shows that the in-place repair of the targets of DE changes nothing for `nearest_int`, the only method PESAX uses. | 195 |
| `PGLoss.lean` | **The losses and training steps of A2C and ACKTR.** Model of `neorl/rl/baselines/a2c/a2c.py` lines 148-190, 218-222 and 259-281 and of `neorl/rl/baselines/acktr/acktr.py` lines 158-178 and 238-251, over the real numbers. A batch has `n` samples. The policy is the categorical or the diagonal Gaussian distribution of the module `Dist`; the outputs of the network (logits or Gaussian parameters, and values) are parameters. `tf.gradients` is not modelled: the theorems compute the derivatives of the losses. `tf.clip_by_global_norm` and `tf.train.RMSPropOptimizer` are the formulas of their documentation; the optimiser of ACKTR is the module `Kfac`. | 118 |
| `PPOLoss.lean` | **The loss of PPO2.** Model of the loss of `neorl/rl/baselines/ppo2/ppo2.py` lines 146-187 and of the advantages given to it (lines 264-265), over the real numbers. A minibatch has `n` samples; the negative log probabilities, values and the entropy computed by the network are parameters. | 73 |
| `PSO.lean` | **Particle swarm optimisation.** Model of `neorl/evolu/pso.py`. Fitness is an arbitrary function of the encoded vector (grid decoding included). PSO maximises internally. The parallel evaluation (lines 389-417) performs the same updates in the same order as the serial one. | 503 |
| `Parallel.lean` | **Evaluation of a population by several processes.** All evolutionary optimizers evaluate a list of points with `joblib.Parallel(n_jobs=ncores)(joblib.delayed(self.fit_worker)(item) for item in core_lst)` when `ncores > 1` and with a loop otherwise, e.g. `neorl/evolu/woa.py` lines 118-128. `joblib` is an external library; its documented behaviour is modelled as a transition system: at most `n_jobs` calls run at any time, calls are started in the order of the list, they may finish in any order, and the results are given back in the order of the list. A call that raises makes the whole call raise; which of several exceptions is raised is left open. The worker processes work on copies, so the fitness is a function of its argument. | 267 |
| `ParamNoise.lean` | **Parameter noise of DQN.** Model of `default_param_noise_filter` and `build_act_with_param_noise` (`neorl/rl/baselines/deepq/build_graph.py` lines 104-123 and 164-319), of the calls `DQN.learn` makes to it (`neorl/rl/baselines/deepq/dqn.py` lines 188-253), and of the names of the variables of the networks (`neorl/rl/baselines/deepq/policies.py` lines 103-127, `nature_cnn` of `neorl/rl/baselines/shared/policies.py` lines 16-30). - A network is a family `ι → K` of numbers, one for each entry of its variables; `flag i` says whether the filter accepts the variable of entry `i`. The online network between the calls (changed by the training), the greedy action, the ends of episodes and the measured divergence are arbitrary functions of what was done before. - One call of `_perturbed_act` is one session run: the outputs and the four updates have no order among them. `Race` says for each reading whether it comes before or after the assignment; all theorems hold for every choice. - `random_normal(stddev=s)` is `s` times a standard normal number; the numbers are arbitrary. Not modelled: a `MultiDiscrete` action space (`action_space.n` fails, dqn.py line 208), single precision. | 172 |
| `Particles.lean` | **Particles with exemplars.** Shared by `neorl/evolu/hclpso.py` and `neorl/hybrid/epso.py`: exemplar construction (`UpdateParticles`), velocity limits, personal and global bests. In `epso.py` the global best position is sometimes a numpy *view* of a row of `pbest_pos` (lines 510, 653) which later assignments to that row change; the model keeps that distinction (`Ref`). | 396 |
| `Pretrain.lean` | **Pretraining.** Model of `pretrain` (`neorl/rl/baselines/shared/base_class.py` lines 290-374), the cloning of an expert's behaviour, with the placeholders of the agents (`_get_pretrain_placeholders` in `a2c.py` lines 116-120, `acer_simple.py` lines 239-244, `acktr.py` lines 121-125, `dqn.py` lines 102-104, `ppo2.py` lines 102-106). The variables of the graph are the parameters of the agent (`self.params`), the state of the optimiser, and all others (for DQN the target network). One step of the optimiser is an arbitrary function of the first two and the batch; the loader gives an arbitrary stream of batches for each of the two parts of the data. Printed lines are a list of reports. | 113 |
| `Py.lean` | **Python primitives shared by the models.** Small total models of the Python / numpy primitives that the NEORL code calls. They are not models of NEORL code themselves; every NEORL function model that uses them cites the NEORL lines. | 100 |
| `QLoss.lean` | **Actions, targets and loss of DQN.** Model of `neorl/rl/baselines/deepq/build_graph.py` (`build_act`, the adaptation in `build_act_with_param_noise`, the loss of `build_train`), of `huber_loss` (`neorl/rl/baselines/shared/tf_util.py` lines 75-87), of the dueling head (`neorl/rl/baselines/deepq/policies.py` lines 119-130) and of the noise threshold (`neorl/rl/baselines/deepq/dqn.py` lines 206-208), over the real numbers. There are `m` actions; the outputs of the networks are parameters. `tf.random_uniform` is uniform on `[0, 1)` and on the actions. Not modelled: whether the action of a call still sees the old `eps` (the order of output and update within a session run), optimiser and gradient clipping. | 74 |
| `Reactivity.lean` | **Control drum reactivity model (neorl/benchmarks/reactivity_model.py).** The inward current `j-` of a drum is a table of angles (`centers`) and values (`hist`). `integrate` and `integrate_sq` integrate the piecewise linear function through the table and its square between two angles; `ReactivityModel.eval` combines the integrals into the reactivity of the eight drums, `evald` and `evalg` its derivatives. Numbers are elements of a linearly ordered field (no rounding), `pi` is a parameter; a division by zero, which numpy answers with nan or inf, gives 0 (it does not occur for tables with distinct angles). Reading the CSV files is not modelled: the tables are arguments. | 233 |
| `Refs.lean` | **The reference points of NSGA-III.** Model of `uniform_reference_points`, `neorl/multi/tools.py` lines 514-541. | 121 |
| `Reorder.lean` | **Order of the variables, variables without influence.** Lemmas behind C141: the optimizers on a search space of continuous variables and rounded integers when the variables are listed in another order, when variables on which the fitness does not depend are left out, or when a variable is listed twice. No new code is modelled here. | 749 |
| `ReorderACO.lean` | **Order of the variables: ant colony.** Lemmas behind C141 for ACO. No new code is modelled here. | 228 |
| `ReorderMore.lean` | **Order of the variables, continued.** GWO, WOA, SSA, MFO, CS, BAT and PSO, for C141. No new code is modelled here. | 1025 |
| `Replay.lean` | **Replay buffers.** Models of `neorl/rl/baselines/shared/buffers.py` (class `ReplayBuffer`) and `neorl/rl/baselines/acer/buffer.py`. | 288 |
| `Rescale.lean` | **Units of the variables.** Lemmas behind C138: the optimizers on a continuous search space under a change of units `x_j ↦ a_j * x_j + b_j` (`a_j > 0`) of every variable. No new code is modelled here. | 681 |
| `RescaleACO.lean` | **Units of the variables: ant colony.** Lemmas behind C138 for ACO. No new code is modelled here. | 259 |
| `RescaleMore.lean` | **Units of the variables, continued.** JAYA and PSO (change of scale), BAT (shift), MFO and CS (both), for C138. No new code is modelled here. | 848 |
| `Returns.lean` | **Returns and advantages.** The backward recursions that turn rewards, done flags and value estimates into training targets, for one environment (numpy works columnwise): - `neorl/rl/baselines/shared/math_util.py`: `discount` (lines 16-27), `discount_with_boundaries` (lines 98-114); - `neorl/rl/baselines/a2c/a2c.py`: `discount_with_dones` (lines 30-44), the bootstrap of `A2CRunner._run` (lines 399-407); - `neorl/rl/baselines/ppo2/ppo2.py`: generalised advantage estimation in `Runner._run` (lines 505-519), `swap_and_flatten` (lines 528-536); - `neorl/rl/baselines/acer/acer_simple.py`: `q_retrace` (lines 63-92). Float rounding is not modelled: `K` is a field. | 214 |
| `Rms.lean` | **Running mean and variance.** `neorl/rl/baselines/shared/running_mean_std.py` lines 4-37, one component of the arrays (numpy works componentwise). Batches are non-empty: `np.mean` of an empty array is `nan`. | 73 |
| `Rollout.lean` | **Training loops of the on-policy learners.** Model of the runners and `learn` loops of PPO2 (`neorl/rl/baselines/ppo2/ppo2.py`), A2C (`a2c/a2c.py`) and ACER (`acer/acer_simple.py`), with `shared/runners.py`. - Environments, policy network and learning update are arbitrary functions; the random draws of the policy are an argument (the number of the draw). - Observations, dones and rewards of all environments together are single values here (the vector environment is C91). - The callback is an arbitrary sequence of decisions to stop (C95). | 125 |
| `Round.lean` | **Python `round`.** `round(x)` on floats rounds to the nearest integer, ties to even. | 48 |
| `RunFiles.lean` | **The start of a run from an input file.** Model of `neorl/scripts.py` (lines 102-195), the name of the log directory in `neorl/parsers/PARSER.py` (lines 33-40), `neorl/utils/initfiles.py` (the whole file) and `run_all` of `neorl/utils/multiproc.py` (lines 105-151). Text is a list of characters. The file system is a function from paths to the files of the directory there (`none`: no such directory); a path is its list of components, relative to the working directory, and an absolute path begins with an empty component. Simplified: a rename onto an existing directory is an error (the operating system allows it if the directory is empty); of the shell that runs `rm -Rf` only the splitting at blanks is modelled; `.` and `..` among the components and symbolic links are not. The tuning classes and the agents themselves are modelled elsewhere (`TuneFile`, `TuneRun`, `GARun`, `SavePlot`); here they are names. | 173 |
| `RunId.lean` | **Run directories of TensorBoard logs.** Model of `TensorboardWriter.__enter__` and `_get_latest_run_id`, `neorl/rl/baselines/shared/base_class.py` lines 1160-1187. The log directory is the list of the names in it. Assumed: the log name has no characters special to `glob` and names are ASCII (`str.isdigit` accepts other digits, which `int` may refuse). | 51 |
| `SA.lean` | **Simulated annealing.** Model of `neorl/evolu/sa.py`. Internally SA maximises: `fit` below is the internal fitness (`-fit` of the user in `mode='min'`, lines 61-70). The fitness is a function of the encoded vector. Temperatures are arbitrary: `temp g j k` is the temperature of generation `g`, core `j`, step `k`; this covers the four cooling schedules of `temp` (lines 215-238), whose values are the subject of `Verif/Props/Cooling.lean`. The acceptance number `np.exp(dE/T)` is a parameter `accP dE T`. | 865 |
| `SAMap.lean` | **Simulated annealing on a rewritten problem.** Lemmas behind C138 and C141 for SA: if points are rewritten by a map that commutes with the repair, the fitness and the moves, the run is rewritten. No new code is modelled here. | 299 |
| `SSA.lean` | **Salp swarm.** Model of `neorl/evolu/ssa.py`: the main loop is `Verif/Swarm.lean`, the move is below. | 149 |
| `Save.lean` | **Saving and loading models.** Model of `neorl/rl/baselines/shared/save_util.py` and of `_save_to_file*`, `_load_from_file*`, `get_parameters`, `load_parameters` and the check of `policy_kwargs` in `load` of `neorl/rl/baselines/shared/base_class.py`. The libraries are modelled by their contracts: `json` at the level of trees (`dumps`, `loads`; the text is not modelled), `cloudpickle` with base64 by a function and its partial inverse (parameters), `np.savez` as a table from names to arrays in any order, the file system as a table from paths to files. Dictionary keys are strings, integers, or anything else; keys that are floats, booleans or `None` are not modelled. Subclasses of `float` or `int` (numpy scalars) are `obj`. | 275 |
| `SavePlot.lean` | **Training an agent from an input file.** Model of `SavePlotCallback` and of `calc_cumavg` in `neorl/utils/neorlcalls.py` (lines 31-207, 339-347), of the loops of `learn` that call it (`a2c/a2c.py` lines 265-304, `ppo2/ppo2.py` lines 316-405, `acer/acer_simple.py` lines 571-636, `deepq/dqn.py` lines 194-323, as sequences of calls), of `build` in `neorl/rl/runners/{dqn,ppo2,a2c,acer}.py` and of `neorl/utils/test_policy.py`. The csv file written by the environment is an oracle: what `pd.read_csv` returns at each call (`none`: it raises). A table is its list of columns without `caseid` (a file without that column is treated as unreadable at the plot; the model has it always). The weights of the agent after `u` updates are an oracle, so is the square root in `np.std`. A mean of nothing is nan, `none`. Printing is left out; a figure is what is handed to the plotting library. | 254 |
| `Schedule.lean` | **Schedules.** `neorl/rl/baselines/shared/schedules.py`: `linear_interpolation` (38-48), `PiecewiseSchedule` (51-87), `LinearSchedule` (90-108) and the legacy `Scheduler` with its curves (148-254). Times are numbers of a linearly ordered field. | 80 |
| `Schwefel.lean` | **How large `z * sin(sqrt(\|z\|))` gets on `[-500, 500]`.** The term of Schwefel's function, used by `schwefel` in `neorl/benchmarks/classic.py` (93) and by `modified_schwefel` in `neorl/benchmarks/tools/basic.py` (165-184). No code is modelled here: these are the numerical facts about the real function that the two models need. | 193 |
| `Seeded.lean` | **Which samples the prioritised replay draws.** Model of the `'prior'` branch of `ExperienceReplay.sample`, `neorl/hybrid/pesacore/er.py` lines 120 and 139-143, down to the indices. The branch calls `np.random.seed(seed)`, and no caller passes `seed`, so it is the default 1: the uniform numbers behind `np.random.choice` are the same in every call. `stream` is that sequence. `np.random.choice(range(n), p=p, size=k)` compares them with the cumulative sums of `p` (`cdf = p.cumsum(); cdf /= cdf[-1]; cdf.searchsorted(u, side='right')`). | 111 |
| `Seeds.lean` | **Seeds: which runs can be repeated.** `neorl/utils/seeding.py`, the places where the classes call it, and the other places that set the global generators: the chains of SA, the replay memory of PESA, the environments. The generators of `random` and of `np.random` are two values `py` and `np`; what a seed makes of them is an arbitrary function, and what a constructor or a run does with them is an arbitrary function of them. Not modelled: the generator of TensorFlow, generators of action spaces, and in PESA the mode with one process per method. | 154 |
| `SegTree.lean` | **Segment trees.** Model of `neorl/rl/baselines/shared/segment_tree.py`. The capacity is `2 ^ h` (the constructor asserts a power of two, line 39); the array `_value` of `2 * capacity` cells is a function on indices, with explicit bound checks where the code could run out of the array. | 672 |
| `Sort.lean` | **Python's stable sort.** `list.sort(key=..., reverse=True)`, `list.sort(key=...)` and `sorted` of Python are stable sorts; the model is a structural insertion sort, which computes the same (unique) stable sorted permutation. | 164 |
| `Space.lean` | **Search-space repair: bounds and discrete variables.** Models of `ensure_bounds` (present in every optimiser) and of `neorl/evolu/discrete.py:mutate_discrete` together with the optimisers' `ensure_discrete`. | 461 |
| `Swarm.lean` | **Swarm skeleton: evaluate, remember the best, move, evaluate, ....** `neorl/evolu/woa.py` and `neorl/evolu/ssa.py` share the same main loop and only differ in the way the population is moved. This file models that loop with the move as a parameter; `Verif/WOA.lean` and `Verif/SSA.lean` supply the moves. | 316 |
| `SwarmTrace.lean` | **Reading the moves off the log.** Block `k` of the log of `Swarm.evolute` is the population of generation `k`; block `k + 1` is what the move makes of it. | 101 |
| `TS.lean` | **Tabu search.** Model of `neorl/evolu/ts.py`. TS minimises: `fit` below is the internal fitness (`-fit` of the user in `mode='max'`, lines 56-63), a function of the encoded vector. The dictionary `tabu_structure` is a list indexed by the position of the move in insertion order. | 713 |
| `TSP.lean` | **The travelling-salesman environment.** `neorl/benchmarks/tsp.py`, class `TSP`. | 497 |
| `TextLog.lean` | **The training log: console table, JSON, CSV and TensorBoard.** Model of `neorl/rl/baselines/shared/logger.py` lines 53-245 (output formats), 457-516 (class `Logger`) and 707-745 (`read_tb`). Numbers are taken from an ordered field (no rounding), text is a list of characters, a dictionary is the list of its items in insertion order. How a value is printed (`str`, `'%-8.3g'`) and whether a text is a numeral are parameters (`Env`), so is the order in which Python walks through a set. Files are written by the logger alone; carriage returns, which text mode would translate, do not occur. `writeseq` and the clock are not modelled; `configure` and closing are in the model of the current logger. | 413 |
| `ToyEnvs.lean` | **The bit flipping and identity environments (neorl/rl/baselines/shared/bit_flipping_env.py, identity_env.py).** Bits are the integers of the numpy array; `obs_space.sample()` is an argument. Actions of the discrete variant are natural numbers (the action space `Discrete(n_bits)`), those of the continuous one lists of numbers. | 126 |
| `Traj.lean` | **The trajectory generator (neorl/rl/baselines/shared/runners.py, lines 60-209).** Policy, environment, reward giver and callback are arbitrary functions of the time step and of what they are given, so they may be random and may learn between segments. Arrays written at the same place are kept together: `Pre` (lines 146-149) and `Post` (lines 184-186). | 145 |
| `TrajSeg.lean` | **Collecting trajectories in segments of a fixed length.** Model of `traj_segment_generator` (`neorl/rl/baselines/shared/runners.py` lines 58-209). The environment, the policy, the reward giver and the callback are parameters; what they return may depend on the number of the step (their random numbers). The generator is run for any number of turns of its `while True` loop and the dictionaries it yields are collected in order. Simplified: the seven history arrays are kept as two lists of records (`Pre`: written before the environment is stepped, `Post`: written after the callback), the three lists of finished episodes as one list of records, and a yielded dictionary holds the values at the time of the `yield` (in the code the next segment overwrites the same arrays). The actions of several environments are not modelled: `action[0]` and `vpred[0]` are the action and the value. `current_it_len` is a counter of its own. | 498 |
| `Tune.lean` | **Hyperparameter tuners: grid, random and Bayesian search.** `neorl/tune/gridtune.py`, `neorl/tune/randtune.py`, `neorl/tune/bayestune.py`. | 352 |
| `TuneFile.lean` | **Hyperparameter search from an input file: templates, cases, tables.** Model of `neorl/tune/runners/gridtune.py` and `neorl/tune/runners/randtune.py` (`GRIDTUNE`, `RANDTUNE`), whose `__init__`, case files and `case_object` are repeated word for word in `bayestune.py` and `estune.py`. Text is a list of characters; `int` and `float` on text and `str` on floats are parameters, real numbers stand for floats. The run of a case (a sub-process) is a parameter giving the reward columns of the `*_out.csv` files found afterwards. `sort_values` is a parameter: pandas does not promise the order of equal keys. The pool may append the rows of the cases in any order. Not modelled: the confirmation asked for above a million cases, copying of `extfiles`, directories, printing; `n_last_episodes` is a natural number. | 273 |
| `TuneRun.lean` | **Bayesian and evolutionary hyperparameter search from an input file.** Model of `neorl/tune/runners/bayestune.py` (`BAYESTUNE`) and `neorl/tune/runners/estune.py` (`ESTUNE`, also used for GATUNE). Values, templates, case files and rows are those of `Verif.TuneFile`. The run of a case is a parameter (its reward logs); `gp_minimize` of scikit-optimize is a parameter that, given all points and answers so far, names the next point or raises. The pool of processes is modelled by independent copies. `np.exp` of random numbers is an arbitrary draw. Not modelled: directories, external files, printing; the search-space objects of scikit-optimize; words that pandas reads as numbers or truth values. | 354 |
| `Units.lean` | **Units of the objectives.** Lemmas behind C136: the non-dominated sorts, the crowding distance and the runs of NSGA-II under a change of every objective by a function of its own. No new code is modelled here. | 537 |
| `Variation.lean` | **Evolution strategies: selection, crossover, mutation.** Model of `neorl/evolu/crossover.py` (also used by `es.py`, `nsgaII.py`, `nsgaIII.py`) and of `ES.mutES` (`neorl/evolu/es.py` lines 267-338, repeated in `neorl/multi/nsgaII.py` and `nsgaIII.py`). | 242 |
| `VecAttr.lean` | **Attributes, structured observations, images and construction of vectors of environments.** Model of the parts of `neorl/rl/baselines/shared/vec_env/` that the module on `VecEnv` leaves out: - `get_attr`, `set_attr`, `env_method` of `DummyVecEnv` (dummy_vec_env.py lines 99-117) and `SubprocVecEnv` (subproc_vec_env.py lines 12-49, 145-176), `_get_indices` (base_vec_env.py lines 201-212), with the processes in any interleaving. A call on an environment is a function from its state to the new state and the answer, and does not raise; - `obs_space_info`, `dict_to_obs` (util.py), `_save_obs`, `_obs_from_buf` (dummy_vec_env.py lines 89-97) and `_flatten_obs` (subproc_vec_env.py lines 179-206) for one entry per space; `cast` is the conversion to the type of the buffer; - the attributes of wrappers: `__getattr__`, `getattr_recursive`, `getattr_depth_check` (base_vec_env.py lines 189-199, 262-319) and of `_UnvecWrapper` (`shared/base_class.py` lines 1072-1084). A layer is what `name in all_attributes` and `getattr` say about it; - `tile_images` (tile_images.py) on flat arrays; - `make_vec_env` (cmd_util.py lines 18-72). | 346 |
| `VecEnv.lean` | **Several environments at once.** Models of `DummyVecEnv` (`neorl/rl/baselines/shared/vec_env/dummy_vec_env.py`) and `SubprocVecEnv` (`subproc_vec_env.py`), which the reinforcement learners of NEORL use for `ncores = 1` and `ncores > 1`. - An environment is a state together with `step` and `reset`, which do not raise; randomness is part of the state. The environments of one vector may differ: the type of states can be a sum. - Observations are of one type (an unstructured space); `f32` is the rounding to 32 bit of `buf_rews`. - An `info` dictionary is the environment's own part and the entry `terminal_observation`. - The processes of `SubprocVecEnv` and the main program run in any interleaving; a pipe is a pair of queues; `recv` waits for a message. Rendering, attributes and `close` are left out. | 206 |
| `VecNorm.lean` | **Normalising wrapper.** Model of `VecNormalize` (`neorl/rl/baselines/shared/vec_env/vec_normalize.py`). - One component of the observations: numpy works componentwise, `obs` is the list of this component over the environments. - The wrapped environments are arbitrary: a run is a list of the answers they give, together with the changes the user makes to the attribute `training`. - `sq` is the square root (a parameter). `RunningMeanStd` is `Verif.Rms`. | 152 |
| `VecStack.lean` | **Frame stacking and nan checking.** Model of `VecFrameStack` (`neorl/rl/baselines/shared/vec_env/vec_frame_stack.py`) and `VecCheckNan` (`.../vec_check_nan.py`). - The answers of the wrapped environments are arbitrary, a run is the list of what they answer. - Frame stack: observations with one axis of `d` entries. Arrays live in a heap, because `reset` writes into an array it has already given away. - Nan check: an array is the list of its entries, each a number, an infinity or nan; the text of the message is kept as data. | 173 |
| `VideoRec.lean` | **The video recorder.** Model of `VecVideoRecorder` (`neorl/rl/baselines/shared/vec_env/vec_video_recorder.py`). A picture is represented by the value of `step_id` when it is taken; writing the file (library `gym`) and the environment itself are left out. `record_video_trigger` is an arbitrary function of `step_id`. | 284 |
| `WOA.lean` | **Whale optimisation.** Model of `neorl/evolu/woa.py`: the main loop is `Verif/Swarm.lean`, the move is below. | 159 |
| `XNES.lean` | **Exponential natural evolution strategy.** Model of `neorl/evolu/xnes.py`. XNES maximises: `fit` below is the internal fitness (`-fit` of the user in `mode='min'`, lines 58-67). `numpy.log`, `numpy.exp`, `scipy.linalg.expm`, `numpy.argsort` and the adaptation sampling `adasam` are parameters; int and grid types, which the code does not treat specially, are not modelled. | 469 |

### Not modelled

* TensorFlow itself: sessions, gradients and optimizers; the networks of the actor-critic policies are modelled as functions of their variables (C127) with arbitrary activation, convolutional features
  and recurrent layer (the recurrent cell itself is in the module on `lstm`), and so are the network and the predictions of DQN. The losses of PPO2, DQN, A2C and ACKTR and the policy update of ACER are functions of the outputs of the networks; replay buffers, schedules, returns, running statistics, datasets and the environment around the fitness function are modelled.
* The library that writes video files (which steps are filmed is in C145) and crashes of worker processes.
* The neat-python library behind RNEAT and FNEAT (an arbitrary function in C86-C88); the agents of ACKDE and PPO-ES (what they visit is arbitrary); the training of the networks in NHHO and, in NGA, clustering and pseudo-inverse (parameters of the model; the data given to them are modelled).
* The unused class of `tune/runners/gatune.py` except its mutation (C151); plots other than those of the training callback (C126), CSV/Excel output beyond the rows of the tuners' tables, process pools.
* Of the benchmarks: the weights of the reactor power surrogate (qpower_model.py), the data files, the gradient branch of dtlz.py; `evolu/ga.py` (refers to undefined names and cannot run).
* Floating-point effects.

## 5. Findings

Claims that fail for the code as it is. Each is a theorem about the model with a witness, or an exact characterisation from which the defect can be read.

| claim | finding | theorems |
|---|---|---|
| C04 | `nearest_int` truncates instead of rounding; the upper bound of an int range is produced only from values that reach it | `C04_not_nearest` |
| C05 | a repeated value in a grid makes the decoding of the later index irreversible | `C05_duplicate_grid` |
| C06 | numpy integers are rejected as int entries of an initial guess, surplus entries are ignored | `C06_numpy_int_rejected`, `C06_check_length` |
| C08 | with `sigmoid`/`minmax` DE re-randomises survivors, so a slot can get worse | `C08_sigmoid_regresses` |
| C13 | blend crossover with `clip=False` produces strategies outside [smin, smax] | `C13_blend_escapes` |
| C14 | ES forgets the initial population; with as many RL vectors as survivors the returned individual does not belong to the returned fitness | `C14_start_lost`, `C14_rl_mismatch` |
| C15 | the PSO history leaves out the initial swarm; spaces mixing int and float raise TypeError | `C15_history_misses_start`, `C15_mixed_space_raises` |
| C17 | WOA's keyword `a` without `fac` raises | `C17_kw_a_alone_raises` |
| C19 | BAT loses its initial evaluation | `C19_initial_lost` |
| C20 | HHO loses the rapid dives of the last generation | `C20_last_dives_lost` |
| C21 | JAYA's "worst" stays the initially worst row for ever | `C21_worst_frozen`, `C21_worst_not_worst` |
| C22 | the local history of MFO lags by one population | `C22_local_lags` |
| C23 | cuckoo search can return a nest outside the box, with the fitness of the clamped nest | `C23_out_of_box` |
| C25 | the equilibrium schedule of SA can return an individual that does not belong to the returned fitness; softmax start selection; fewer generations than cores raises | `C25_equilibrium_stale_x`, `C25_soft_index`, `C25_no_generation` |
| C26 | tabu search: a generation without a move freezes the search for ever, the frequency penalty can hide the best candidate, the cut-off formula differs from the enumeration | `C26_frozen`, `C26_penalty_misses`, `C26_cutoff_mismatch` |
| C27 | a second `evolute` of XNES in `min` mode flips the sign of the earlier history; the `mu_best` branch is dead | `C27_second_call`, `C27_mu_best_never_set` |
| C35 | reducing an empty range of a segment tree never returns a neutral element | `C35_reduce_empty_range` |
| C36 | a segment tree of capacity one cannot be searched | `C36_capacity_one` |
| C37 | the last stored slot is never sampled; a single stored transition sends `sample` into endless recursion; extending by a multiple of the capacity sets no priority | `C37_sample`, `C37_single_element_diverges`, `C37_full_extend_no_priority` |
| C38 | hindsight strategy `final` uses the goal before the last action | `C38_final_not_final_state` |
| C39 | greedy sampling sorts the ring in place, after which an `add` can overwrite the best sample | `C39_greedy_then_add_loses_best` |
| C40 | one cycle divides by zero; q outside [-1,1] is accepted and raises later | `C40_one_cycle`, `C40_q_unchecked` |
| C41 | AEO `order=None` raises; migrants with out-of-range labels are dropped | `C41_order_none`, `C41_out_of_range` |
| C43 | the evaluation formula is short by one population for WOA and the announced bound for HHO is wrong | `C43_woa`, `C43_hho_not_bound` |
| C44 | EDEV: JADE's means never move, archived values belong to the offspring, the forced crossover component is misplaced, a better second evaluation of the third group is lost, EPSDE always gets the large share first, ng = 0 raises | `C44_means_frozen`, `C44_archived_values`, `C44_forced_misplaced`, `C44_second_evaluation_lost`, `C44_first_period`, `C44_ng_zero` |
| C45 | the first member other than i is never a donor | `C45_donors` |
| C46 | the first observation is sampled from the action space and can lie outside the observation space; one action in nx+1 is ignored for dqn/acer | `C46_reset_outside`, `C46_value_ignores` |
| C51 | the piecewise schedule returns the outside value at its last end point; `double_middle_drop` rises | `C51_last_endpoint`, `C51_double_middle_drop` |
| C53 | an abandoned iteration shortens the next one; `iterbatches` by number without a final partial batch yields nothing | `C53_resumes`, `C53_iterbatches_nothing` |
| C55 | EPSO: failure counter of CLPSO never resets, HPSO reverses velocities for a negative upper bound, LP = 0, g2 = 0 or ngen = 0 never return, parallel runs never exploit, the FDR neighbour is only looked for among the first g2 particles | `C55_slope_grows`, `C55_hpso_negative_bound`, `C55_lp_zero`, `C55_g2_zero`, `C55_ngen_zero`, `C55_phase`, `C55_move` |
| C56 | HCLPSO ignores x0, loses a better start point, never uses the last particle as a friend, zeroes a velocity exactly on the limit, ngen = 0 raises | `C56_x0_ignored`, `C56_start_lost`, `C56_last_not_friend`, `C56_limit_lost`, `C56_ngen_zero` |
| C57 | Bayesian tuner: columns mislabelled unless the grid has the order of the arguments; parameters called `id` or `score` are overwritten; the documented format of the random tuner raises | `C57_bayes_mislabelled`, `C57_id_collision`, `C57_score_collision`, `C57_documented_format` |
| C58 | TSP: reported order is not the scored tour, blank observation, mixed rows, tours of length 10^6 raise, reset in mid-tour corrupts the state; knapsack: light problems raise, reset can leave an over-full knapsack | `C58_tsp_reported_order`, `C58_tsp_obs_blank`, `C58_tsp_rows_mixed`, `C58_tsp_long`, `C58_tsp_reset`, `C58_kp_light`, `C58_kp_reset` |
| C59 | the reported per-objective optimum of NSGA-II/III is the worst of the front, or stale | `C59_not_best`, `C59_min_stale` |
| C63 | a constant objective leaves GWO's second and third leader at the origin | `C63_gwo_origin` |
| C64 | PSO's keyword w is used one generation late, `globw` is unbounded for maximisation, SSA measures its step from the origin, JAYA moves a solution equal to the best | `C64_pso_keyword_late`, `C64_pso_globw_unbounded`, `C64_ssa_far_box`, `C64_jaya_fixed` |
| C65 | cuckoo `pa` is the keep-rate, BAT's Levy jump is overwritten | `C65_cs_pa_keeps`, `C65_bat_jump_lost` |
| C66 | PESA's default memory loses the best of a large warmup; a second `evolute` runs with the wrong memory size | `C66_default_memory_loses`, `C66_second_call` |
| C67 | PESA raises if the chains do not divide npop; the `timew` weight is lost in parallel runs | `C67_not_divisible`, `C67_timew` |
| C39 | every draw from the memory reseeds numpy, so samples repeat | `C39_same_samples`, `C39_same_ranks` |
| C68 | PESA2 loses points visited inside wolf and whale runs, ignores the search when nobody survives, and raises for more wolves than warmup samples | `C68_loses`, `C68_no_survivors`, `C68_too_many_wolves`, `C68_second_call`, `C68_no_generation` |
| C69 | PESA2's methods get the same memory samples, its wolves can be idle, and DE rewrites stored points | `C69_next`, `C69_gwo_idle`, `C69_shared_corrupted` |
| C71 | NHHO returns the worst predicted hawk when maximising, reports predictions on the scaled axis, and its default arguments raise or are not as documented | `C71_max_returns_worst`, `C71_max_witness`, `C71_dives_minimise`, `C71_scaled`, `C71_default_params`, `C71_default_warmups` |
| C74 | NGA passes non-integers for integer variables, divides by zero with one hidden unit (the default below 12 warmup samples) and raises for one individual | `C74_not_integer`, `C74_one_hidden`, `C74_one_individual` |
| C75 | With several parallel environments RLLogger records only the first; the best individual found by another is lost | `C75_parallel_loses` |
| C77 | ACKDE encodes grid variables twice when it starts from RL individuals: string grids always raise, numeric grids can start from other values | `C77_string_grid`, `C77_encoded_twice` |
| C77 | ACKDE draws its start with replacement and never evaluates RL individuals mixed in after the last generation: the agent's best can be lost | `C77_best_lost` |
| C78 | PPO-ES accepts npop_rl >= mu (default mu = npop // 2): more RL individuals than survivors always raise, equally many can return an individual that was never evaluated with another's fitness | `C78_too_many`, `C78_mismatch` |
| C78 | PPO-ES can return something worse than every individual the agent handed over | `C78_start_lost` |
| C66 | PESA refuses exactly npop warmup samples although its documentation allows them | `C66_warmup_strict` |
| C80 | The minimisers documented for quartic are not minimisers; rosenbrock, bohachevsky, schaffer, brown are constant in one dimension; cigar also penalises its first coordinate | `C80_quartic`, `C80_flat`, `C80_cigar` |
| C81 | CEC'2017 f9 does not have its optimum at the shift vector (basic levy is not shifted); f10 never reaches 1000; f8 overwrites the caller's array | `C81_levy`, `C81_schwefel`, `C81_f8_writes` |
| C82 | CEC'2017 f11-f20, f29, f30 raise a key error in dimensions 2 and 20, which the documentation allows | `C82_dimensions`, `C83_dimensions` |
| C83 | CEC'2017 f21-f30 return nan at their documented optimum | `C83_nan`, `C83_nan_hybrids`, `C83_never` |
| C84 | CEC'2008 functions score 1 for more than 1000 coordinates, better than the global minimum of F3 | `C84_oversize` |
| C84 | Evaluating CEC'2008 F7 reseeds numpy's global generator | `C84_F7_reseeds` |
| C85 | DTLZ2.pareto_front ignores later reference directions; nadir_point and ideal_point raise on a fresh problem; k is ignored | `C85_cached`, `C85_nadir_fails`, `C85_k_ignored` |
| C87 | RNEAT/FNEAT with x0: the environment is never reset, every genome after the first proposes a single point | `C87_start`, `C87_start_again` |
| C88 | RNEAT/FNEAT with ncores > 1 forget all but the last point of each genome; the local history can be better than the returned optimum | `C88_misses` |
| C90 | conjugate_gradient returns nan for the right side 0 and, with tolerance 0, loses an exact solution | `C90_zero`, `C90_exact_lost` |
| C91 | SubprocVecEnv waits for ever when given fewer actions than environments (DummyVecEnv raises after moving some of them) | `C91_hangs`, `C91_short` |
| C91 | SubprocVecEnv.seed(None), the documented default, raises a TypeError | `C91_seeds` |
| C92 | VecNormalize never counts the observations returned by reset and passes terminal observations on unnormalised | `C92_reset_uncounted`, `C92_terminal_raw` |
| C92 | sync_envs_normalization copies by position without comparing the kinds of wrappers; a failed set_venv leaves the wrong environments set | `C92_sync_order`, `C92_load` |
| C93 | VecFrameStack.reset overwrites the array of observations returned last | `C93_reset_overwrites` |
| C93 | VecFrameStack declares bounds repeated entry by entry although frames are concatenated; correct stacks lie outside the declared space | `C93_space_wrong` |
| C92 | sync_envs_normalization does nothing for DQN (its environment is wrapped in _UnvecWrapper), so EvalCallback evaluates with statistics that are never updated | `C92_sync_unvec` |
| C95 | CallbackList loses a request to stop that is followed by a callback returning None | `C95_stop_lost` |
| C95 | EveryNTimesteps keeps last_time_trigger over a second learn that starts counting anew and stays silent until the old count is passed | `C95_every_again` |
| C95 | StopTrainingOnRewardThreshold raises when nested in CallbackList or EveryNTimesteps | `C95_stop_nested` |
| C96 | A2C and ACER keep the observation from before the last step when the callback stops a training, so the next learn acts on a stale observation | `C96_stale` |
| C96 | PPO2 and A2C silently do nothing when total_timesteps is less than one rollout | `C96_nothing` |
| C98 | DQN divides by zero when int(exploration_fraction*total_timesteps) is 0, silently never trains when batch_size exceeds buffer_size, and accepts train_freq = 0 until the first training | `C98_short`, `C98_never`, `C98_freq_zero` |
| C99 | Monitor: a reset refused for a missing keyword argument still marks the episode as reset | `C99_reset_missing` |
| C99 | evaluate_policy raises RuntimeError at the second episode when a Monitor with allow_early_resets=False is inside a DummyVecEnv | `C99_vec_monitor` |
| C99 | evaluate_policy with reward_threshold raises "below threshold" when the mean equals the threshold | `C99_threshold` |
| C100 | PESAX with the default memory can lose the best point, and a second evolute call runs with the number of stored samples as memory size | `C100_loses`, `C100_second_call` |
| C100 | PESAX fills DE and the swarm with the very same memory samples (every sample reseeds the generator) and, with a seed, DE repeats the same draws in every generation | `C100_next`, `C100_seeded` |
| C100 | PESAX: the swarm best ignores better particles taken from the memory | `C100_swarm_best` |
| C100 | PESAX: the weight of speed_mech='timew' never decreases with more than three cores; npop <= 4 and exactly npop warmup samples are refused | `C100_timew`, `C100_refused` |
| C101 | NSGA-III subtracts the best point from the hyperplane intercepts twice: the normalisation is wrong unless the best values are 0, can be inverted or divide by zero, and adding a constant to an objective changes the niches | `C101_shift`, `C101_flipped`, `C101_translated` |
| C101 | NSGA-III: if one objective is constant over the population, everybody is associated with reference point 0 | `C101_constant` |
| C102 | the categorical distribution gives an action outside its categories probability one | `C102_cat_invalid` |
| C103 | explained_variance of two-dimensional predictions divides the variance of the whole array by the variance of each column | `C103_explained_2d` |
| C103 | unflatten_vector fails for scalars (shape `()`), because `np.prod(())` is a float | `C103_scalar` |
| C103 | OrnsteinUhlenbeckActionNoise with a plain float mean fails at the first call | `C103_ou_float` |
| C104 | FireResetEnv returns the last observation of a finished episode as the first one of the next, or starts the episode without the fire action | `C104_fire_stale`, `C104_fire_skipped` |
| C104 | EpisodicLifeEnv ignores that the no-op in its reset may end the game; the finished game is then stepped on | `C104_life_over` |
| C104 | MaxAndSkipEnv returns frames of earlier steps when an episode ends early, mixes in zeros for skip=1 and fails for skip=0 | `C104_skip_stale`, `C104_skip_small` |
| C104 | WarpFrame announces 84 x 84 x 1 but neither resizes nor removes the colours | `C104_warp` |
| C105 | ESTUNE's table shows the position of a grid value instead of the value | `C105_grid` |
| C105 | ESTUNE with one hyperparameter fails with probability 0.7 per case, because two-point crossover needs two positions | `C105_single` |
| C105 | ESTUNE calls the function 10*(ngen+1) times, documented 10*ngen; the first ten results are in no row | `C105_table` |
| C108 | ACER's entropy bonus has no effect with the trust region on (the default): the objective is differentiated by the probabilities, the entropy is computed from the logits | `C108_policy` |
| C109 | An input value containing `=` is silently cut at the second `=` | `C109_equals` |
| C109 | An `env_data` entry with unmatched braces makes the input parser loop for ever | `C109_hang` |
| C109 | Test and continue mode are accepted without a model to load, and unknown modes are accepted: the check compares the first letter of the mode with its name | `C109_accept` |
| C109 | A card with `flag=False` is still counted among the methods and cores | `C109_values` |
| C110 | integrate and integrate_sq are wrong if the lower bound is an angle of the table and no other angle lies between the bounds (the line of the block below is prolonged) | `C110_node` |
| C110 | `ReactivityModel.eval(pert, nom)` with a starting position always raises (`if nom:` of an array) | `C110_nom` |
| C110 | `evalg` does not bring the angles into range before computing the weights and raises for angles beyond the table | `C110_far` |
| C111 | the goal observation is not in the declared observation space `Discrete(2 ** n_bits - 1)` of the bit flipping environment | `C111_space` |
| C111 | an episode of the bit flipping environment that starts at the goal is not noticed; with one bit it cannot succeed | `C111_start` |
| C112 | when the callback stops the training, the last segment of `traj_segment_generator` pairs the observation, value and action of the last step with reward and end of episode of the step `horizon` before (or zeros) | `C112_stop` |
| C114 | for `Box` actions `action_probability` treats the standard deviation as logarithm of the variance: the reported density is wrong for every policy | `C114_box`, `C114_box_wrong` |
| C114 | `action_probability` does not check batch sizes for `Box` | `C114_box_sizes` |
| C114 | without actions, a single observation gets only the mean (Box) or the first category (MultiDiscrete) | `C114_all_lossy` |
| C114 | negative numbers are accepted as actions by `action_probability` and counted from the end | `C114_discrete_invalid` |
| C115 | attributes that JSON accepts but cannot represent (tuples, integer keys) come back silently changed | `C115_changed` |
| C115 | a model saved with a tuple in `policy_kwargs` refuses to be loaded with the same `policy_kwargs` | `C115_kwargs` |
| C115 | a dictionary with keys that are neither strings nor numbers makes saving fail although it is pickled | `C115_keys` |
| C115 | a dictionary with an entry `:serialized:` is taken for a pickle when loaded | `C115_marker` |
| C115 | if a file of the bare name exists, saving writes a new archive beside it but loading reads the old file | `C115_stale` |
| C115 | a model saved with `cloudpickle=True` is not found again under the same name | `C115_pickle` |
| C115 | surplus entries of a list given to `load_parameters` are ignored even with `exact_match` | `C115_list` |
| C117 | values containing commas are written to the CSV log without quotes and shift the columns | `C117_commas` |
| C117 | if the first two dumps are empty, a row of the CSV log has one field more than the header | `C117_empty` |
| C117 | keys longer than 23 characters that agree in the first 20 share one line of the console table; a value is lost | `C117_lossy` |
| C117 | a value set with `logkv` after `logkv_mean` gets the weight of all values averaged before | `C117_mixed` |
| C117 | after `None` was logged, `logkv_mean` raises a TypeError | `C117_none` |
| C117 | an array of shape (1, n) makes the JSON log fail | `C117_json_shape` |
| C117 | a text value makes the TensorBoard log raise a ValueError, after which the other formats get the same values twice | `C117_repeat` |
| C117 | `read_tb` mixes the runs whose events lie in the same directory | `C117_two_runs` |
| C118 | A2C and PPO2 keep the batch size of the first environment: after `set_env` with another number of environments `learn` takes a wrong number of steps | `C118_stale` |
| C118 | after `set_env` with fewer environments PPO2 raises an IndexError, with more it never trains on the samples of the additional ones | `C118_dropped` |
| C118 | a model constructed without environment never accepts one | `C118_without` |
| C118 | a plain environment, accepted by the constructor, is refused by `set_env`, with ACER by an AttributeError | `C118_wrap` |
| C118 | a refused `set_env` still throws the runner away, so running episodes are lost | `C118_lost` |
| C118 | `SetVerbosity` leaves TF_CPP_MIN_LOG_LEVEL at 0 if it was not set before | `C118_unset` |
| C119 | the SA card without bounds (the default) raises a TypeError; the swap-only modes are never reached | `C119_none` |
| C119 | a start vector `initstate` with more than one entry raises a ValueError | `C119_start` |
| C119 | `quadswap` raises a TypeError with one bound for all, and never changes the vector with several | `C119_quad` |
| C119 | `singleswap` and `dualswap` loop forever once they choose a coordinate whose bounds are equal | `C119_stuck` |
| C119 | annealing from an input file makes `steps`+1 steps; the last one is in no report and nothing is returned | `C119_last` |
| C119 | bounds of the SA card are truncated towards zero, so values below a fractional lower bound are evaluated | `C119_trunc` |
| C120 | at step `cold_iter` of ACKTR both the cold optimiser and the K-FAC optimiser move the parameters | `C120_both` |
| C120 | with a large `kfac_update` ACKTR moves along bare, unclipped gradients between the cold phase and the first factors | `C120_bare` |
| C121 | the GA of the input-file runner forgets the best vector: the reported best can fall from generation to generation | `C121_lost` |
| C121 | `crossover.mutES` lets the strategy of a float parameter grow without bound | `C121_wild` |
| C121 | GA of the input-file runner: one survivor or one parameter makes the first crossover raise | `C121_single` |
| C121 | GA of the input-file runner: the advertised type `grid` always raises | `C121_grid` |
| C121 | GA in KBS mode: `kbs_frac*lambda` above `pop` ends every run in its first generation | `C121_kbs` |
| C121 | GA in KBS mode: replaced members keep the fitness of the vector they lost | `C121_stale` |
| C122 | tuning from a file: a line after the TUNE card that mentions READ TUNE leaves the whole card in every case file | `C122_template_mention` |
| C122 | tuning from a file: a value inside braces can be taken for another placeholder and is replaced again | `C122_nested` |
| C122 | random tuning from a file: a value list without a keyword gives no sample and later values move to the wrong names | `C122_shift` |
| C109 | TUNE card: any text given for a bool, even `False`, means True | `C109_tune_bool` |
| C117 | the JSON format converts arrays in the shared dictionary, so formats after it write something else than formats before it | `C117_converted` |
| C123 | Bayesian/evolutionary tuning from a file: the reported mean is that of the fourth column after the case number, the mean reward only for exactly three hyperparameters | `C123_mean` |
| C123 | Bayesian/evolutionary tuning from a file: no summary with one hyperparameter, nor with a text in the fourth | `C123_mean_none` |
| C123 | Bayesian tuning from a file: a failed case leaves its number, and its files, to the next case | `C123_reused` |
| C123 | Bayesian tuning from a file on several cores: wrong number of cases reported, failures never counted | `C123_reported` |
| C123 | Bayesian tuning from a file: a list without a keyword gives no start value and the search stops at the first case | `C123_no_keyword` |
| C123 | Bayesian/evolutionary tuning from a file: the normal distribution of the random search is not known | `C123_normal` |
| C123 | evolutionary tuning from a file: with one hyperparameter every crossover raises | `C123_es_single` |
| C123 | evolutionary tuning from a file: with an integer range of one value every mutation raises | `C123_es_const` |
| C123 | evolutionary tuning from a file: the first ten results are not used | `C123_es_first` |
| C123 | evolutionary tuning from a file: a generation in which some cases fail and some do not stops the search; the summary never counts a failure | `C123_es` |
| C123 | evolutionary tuning from a file: the summary says the requested number of cases, not those run | `C123_es_tune` |
| C125 | run from an input file in a subdirectory: the second run stops with an exception, since `old_` is put before the directory | `C125_subdir` |
| C125 | run from an input file with a blank in its name: `rm -Rf` deletes another directory and the run stops | `C125_blank` |
| C125 | run from an input file: several column names that begin with the default letter are never counted | `C125_columns` |
| C125 | run from an input file: the log is moved away also in mode `test` or a refused mode | `C125_mode` |
| C125 | command line: `-c` is accepted and ignored | `C125_command` |
| C126 | training from an input file never returns; `build` never saves its own model file and the exit status is 1 also on success | `C126_exit` |
| C126 | training from an input file: the saved last model lacks the last update, with one rollout it is the untrained model | `C126_short` |
| C126 | training from an input file with check frequency 0 saves no model | `C126_zero` |
| C126 | plot of a training with 100 columns or more raises; so does a block length of 0 | `C126_plot` |
| C126 | a window of 0 rewards is all rewards, a negative one drops the first | `C126_window` |
| C126 | `evaluate_policy` returns nothing although described to return the reward | `C126_eval` |
| C127 | a Box observation with one component of equal bounds (and other components not) is divided by zero in that component | `C127_box` |
| C127 | a discrete observation out of range is not refused but becomes a vector of zeros | `C127_onehot` |
| C127 | `net_arch`: whatever follows the dict is silently ignored, also wrong entries | `C127_ignored` |
| C127 | a CNN policy ignores `net_arch` and `layers`, also wrong ones | `C127_feedforward` |
| C127 | `step` with a deterministic action returns the negative log probability of another, sampled action | `C127_step` |
| C128 | `pretrain` draws all variables anew: what the agent has learnt or loaded before is lost | `C128_forgets` |
| C128 | `pretrain` with zero epochs replaces the agent by a random one | `C128_none` |
| C128 | after `pretrain` the target network of DQN is a random network unrelated to the pretrained one | `C128_train` |
| C129 | `LnMlpPolicy` of DQN ignores `dueling=False` | `C129_dueling_ignored` |
| C129 | `LnCnnPolicy` of DQN acts like `CnnPolicy`: the normalisation, and `layers`, are only in the value of the state, which takes no part in acting | `C129_ln_cnn` |
| C129 | with layer normalisation a hidden layer of one unit makes the network of DQN independent of the observation | `C129_ln_one` |
| C129 | `action_probability` of DQN ignores `logp=True` when no actions are given | `C129_logp_ignored` |
| C130 | `SubprocVecEnv`: an attribute read between `step_async` and `step_wait` is exchanged with the results of the step | `C130_pending` |
| C130 | `_UnvecWrapper`: assigning to an attribute never reaches the environment (`__set_attr__` is not a name Python calls) | `C130_unvec_set` |
| C130 | `get_attr` and the like refuse an integer of NumPy as index | `C130_targets` |
| C131 | from the twelfth generation on the success of a generation has no effect on the rate of reuse in the next one (EPSDE of EDEV) | `C131_stale` |
| C131 | the pool row removed after a successful reuse is not the row that was used (EPSDE of EDEV) | `C131_removed` |
| C132 | `bench_2dplot` reports every error of the plotted function as a problem of CEC17 | `C132_surface_error` |
| C133 | `Monitor` with an empty file name writes `.monitor.csv`, which `load_results` never finds | `C133_hidden` |
| C133 | `load_results` fails for all logs if one JSON log has no finished episode | `C133_unfinished` |
| C134 | most optimizers seed in the constructor only: an object runs with the seed of the object constructed last | `C134_overwritten` |
| C134 | with a seed, SA seeds its chains anew in every generation, so that all generations draw the same numbers | `C134_same_draws` |
| C134 | SA seeds chain `j` with `seed + j`: runs with neighbouring seeds share chains | `C134_neighbours` |
| C134 | in PESA the seed has no influence after the first samples: `ExperienceReplay` calls `random.seed(1)` | `C134_pesa` |
| C134 | seeding environments in one process overwrites the seed of the agent: one more environment is the same as the next seed | `C134_environments` |
| C135 | PSO with `speed_mech='globw'` (the ratio of two fitnesses) moves the particles differently when a constant is added to the fitness | `C135_pso_ratio` |
| C137 | Simulated annealing encodes the guesses in the list the user passed (sa.py 379): a second run with the same list starts at another point or stops with an assertion. | `C137_second_run` |
| C137 | ACO and XNES use their initial guesses without checking types or bounds. | `C137_unchecked` |
| C137 | JAYA and ACO silently skip a variable of unknown type, so individuals are shorter than the number of variables. | `C137_skipped_variable` |
| C137 | DE, ES and PSO accept a guess with surplus entries and evaluate it as it is. | `C137_surplus_entry` |
| C137 | Tabu search in swap mode starts with a permutation of 1..n whatever the bounds. | `C137_tour_infeasible` |
| C138 | GWO, WOA, SSA, JAYA, the first PSO speeds and HHO multiply coordinates by random numbers, so moving the zero of a variable (say Celsius to Kelvin) changes the search: points near zero are favoured. | `C138_origin` |
| C138 | The random walk of BAT and the Levy jump of HHO have a fixed absolute size, whatever the width of the box: in smaller units they become negligible. | `C138_step_size` |
| C13 | ES takes the mutation step before it limits the strategy to [smin, smax]: smax does not bound the step. | `C13_step_unlimited` |
| C78 | PPO-ES reads the hyperparameter alpha but does not hand it to ES, which always blends with 0.5. | `C78_alpha_ignored` |
| C139 | The running standard deviation of mpi_running_mean_std.py has an absolute floor of 1/10: observations in small units are not normalised. | `C139_floor` |
| C139 | MpiAdam compares the parameters of the processes only at every hundredth update; processes that differ in between stay different. | `C139_drift` |
| C140 | check_env compares only the first step with the declared spaces. | `C140_first_step_only` |
| C140 | The nan/inf check of check_env refuses nothing, because VecCheckNan is built with raise_exception=False. | `C140_nan_accepted` |
| C140 | check_env goes on stepping after the end of an episode without a reset, so a correct environment whose first step ends the episode can be refused. | `C140_stepped_after_end` |
| C140 | check_env refuses np.bool_ signals, np.float32 rewards and numpy integers as observations. | `C140_numpy_refused` |
| C141 | With int_transform minmax or sigmoid the repair of an integer variable depends on the values of all other variables, whatever they mean, and on the order in which integer variables are listed. | `C141_minmax` |
| C142 | last_pop of JAYA holds the trial positions of the last generation instead of the survivors, and PSO, GWO, WOA, SSA and MFO keep their best point outside it; a run continued from last_pop, as AEO does, can lose the best point found. | `C142_lost` |
| C142 | For PSO with timew, GWO, WOA, SSA and MFO one more generation with the same random numbers can return a worse answer, because the step sizes depend on ngen. | `C142_worse` |
| C145 | VecVideoRecorder: with a trigger every video_length steps exactly every second video is missing; reset ignores the trigger and cuts the running video; two resets overwrite a file; length 0 gives two pictures | `C145_every_other`, `C145_reset_cuts`, `C145_same_name`, `C145_zero_length` |
| C146 | DQN with param_noise: the first action of an episode may be chosen by the network of the episode before, or at the very start by an unrelated initialisation, because the session run does not order the two; a policy without variables called fully_connected is never perturbed and explores nothing, without a warning | `Neorl.ParamNoise.C146_first`, `Neorl.ParamNoise.C146_no_exploration` |
| C147 | gmatmul ignores reduce_dim when both arguments are matrices, and cannot apply a matrix that is not square to a tensor | `Neorl.Gmatmul.C147_matrices`, `Neorl.Gmatmul.C147_square` |
| C149 | `wrap_deepmind(frame_stack=True, scale=True)` declares the stacked space with bounds 0 and 255 although the frames are scaled already; a convolutional policy divides by 255 again and gets no input above 1/255. | `Neorl.Atari.C149_dark` |
| C150 | traj_segment_generator: the segment yielded when the callback stops contains the last action without its reward and entries of the segment before, and nothing but total_timestep tells them apart; `callback=None`, the default, is an error although a test for None follows later. | `Neorl.TrajSeg.C150_stop`, `Neorl.TrajSeg.C150_errors` |
| C151 | GATUNE.mutGATUNE writes `individual[i] == random.randint(xl, xu)`: integer hyperparameters are never mutated. Floats of a grid are mutated between the first two values of the grid and leave the grid, or make the tuner fail. | `Neorl.GATune.C151_int`, `Neorl.GATune.C151_frozen`, `Neorl.GATune.C151_grid_float` |
| C152 | AEO.evolute: a position of x0 whose label in pop0 is not the number of an optimizer (numbering from one, say) is dropped without an error. | `Neorl.AEO.C152_dropped` |
| C153 | logger.configure ignores the rank when format_strs is given, so that all MPI processes open and empty the same files; an unknown format is noticed after files have been emptied; configure inside ScopedConfigure leaves the logger of the scope open. | `Neorl.LogConf.C153_shared`, `Neorl.LogConf.C153_unknown`, `Neorl.LogConf.C153_leak` |
| C154 | make_mujoco_env seeds the environments of all MPI processes alike and lets them write the same log file; make_atari_env leaves action spaces unseeded. | `Neorl.MakeEnv.C154_mujoco`, `Neorl.MakeEnv.C154_atari` |
| C156 | tf_layers.conv: with data_format='NCHW' and one_dim_bias=True the bias is added along the width instead of the channels. | `Neorl.ConvLayer.C156_width` |

## 6. Claims and theorems

Statements are in `properties.jsonl`; the letters give the axioms (section 3). All theorems are for all inputs, states and executions of the model; witnesses and closed
examples appear only for existence claims (defects) and to show that hypotheses can be met.

* **C01 Bound repair puts every vector inside the box** (proved). ensureBounds models the three-if loop; hypothesis lb<=ub shown necessary.
  - `Verif/Props/Space.lean`: `C01_bound_repair` (pcq), `C01_bounds_closed` (pq), `C01_needs_order` (pq)
* **C02 Discrete repair returns an integer inside the bounds** (proved). mutate_discrete and ensure_discrete, all methods and draws.
  - `Verif/Props/Space.lean`: `C02_discrete_in_bounds` (pcq), `C02_flip_changes` (pcq), `C02_vector` (pcq)
* **C03 Discrete repair never crashes on repaired input, except on a degenerate range** (proved). Exact raise condition with exception class.
  - `Verif/Props/Space.lean`: `C03_raises_iff` (pcq), `C03_nearest_int_total` (pq), `C03_vector_total` (pcq)
* **C04 nearest_int is truncation, not rounding** (proved). Includes the negation: not nearest rounding.
  - `Verif/Props/Space.lean`: `C04_truncation` (pcq), `C04_nearest_iff` (pcq), `C04_not_nearest` (pcq)
* **C05 Grid encoding round-trips** (proved). Python equality on values; duplicates in a grid raise.
  - `Verif/Props/Grid.lean`: `C05_encode_decode` (pcq), `C05_decode_encode` (pcq), `C05_encoded_bounds` (pcq), `C05_duplicate_grid` (pcq)
* **C06 Initial-guess check accepts exactly the members of the space** (proved). iff holds for Python numbers and strings; numpy integer scalars are rejected (negation theorem), surplus entries are ignored.
  - `Verif/Props/Grid.lean`: `C06_check_iff` (pcq), `C06_check_length` (pcq), `C06_numpy_int_rejected` (pq)
* **C07 DE evaluates only feasible points** (proved). Every point passed to the objective (initial population excepted as supplied/initialised in the space) is feasible.
  - `Verif/Props/DE.lean`: `C07_feasible` (pcq), `C07_total` (pcq), `C07_evolute_total` (pcq)
* **C08 DE selection is greedy and its best-so-far history never gets worse** (proved). Greedy selection never worsens a slot; with sigmoid discretisation the re-evaluated vector may differ (negation recorded).
  - `Verif/Props/DE.lean`: `C08_greedy` (pcq), `C08_slots_monotone` (pcq), `C08_best_of_all` (pcq), `C08_sigmoid_regresses` (pcq), `C08_trial` (pcq)
* **C09 DE returned individual matches the returned fitness** (proved). Returned y is the objective at returned x, evaluated during the run.
  - `Verif/Props/DE.lean`: `C09_result_consistent` (pcq), `C09_histories` (pcq), `C09_last_pop` (pcq)
* **C10 ES selection keeps the k best in order** (proved). 
  - `Verif/Props/ES.lean`: `C10_select` (pcq)
* **C11 Two-point crossover is a positional exchange** (proved). Raises ValueError exactly for fewer than two variables; every interval reachable.
  - `Verif/Props/ES.lean`: `C11_two_point` (pcq), `C11_points` (pcq)
* **C12 Blend crossover conserves the sum of the parents** (proved). 
  - `Verif/Props/ES.lean`: `C12_sum` (pcq), `C12_range` (pcq)
* **C13 ES strategy vectors and individuals stay in range** (proved). Holds with clip=True (default) or two-point crossover; witness that blend with clip=False leaves the range.
  - `Verif/Props/ES.lean`: `C13_mutation` (pcq), `C13_int_changes` (pcq), `C13_run` (pcq), `C13_blend_escapes` (pcq)
  - `Verif/Props/Mutation.lean`: `C13_steps` (pcq), `C13_steps_determined` (pcq), `C13_reach` (pcq), `C13_step_unlimited` (pcq)
* **C14 ES returns the best offspring ever evaluated** (proved). For RL mode with fewer RL vectors than survivors; with as many the returned pair mismatches (witness). The initial population is not counted (witness).
  - `Verif/Props/ES.lean`: `C14_evolute` (pcq), `C14_total` (pcq), `C14_start_lost` (pcq), `C14_rl_mismatch` (pcq)
* **C15 PSO global best dominates everything evaluated** (proved). Float-only spaces; in mixed spaces the code raises (witness).
  - `Verif/Props/PSO.lean`: `C15_evolute` (pcq), `C15_memory` (pcq), `C15_total` (pcq), `C15_history_misses_start` (pcq), `C15_mixed_space_raises` (pq)
* **C16 GWO keeps the three best in order** (proved). alpha, beta, delta are the three smallest distinct values seen; result, histories, counts and feasibility exact
  - `Verif/Props/GWO.lean`: `C16_leaders` (pcq), `C16_leaders_midway` (pcq), `C16_evolute` (pcq), `C16_total` (pcq), `C16_no_generation` (pq)
* **C17 WOA returns the best whale ever evaluated** (proved). full contract of the swarm loop; keyword a without fac raises
  - `Verif/Props/WOA.lean`: `C17_evolute` (pcq), `C17_total` (pcq), `C17_kw_a_alone_raises` (pq)
* **C18 SSA returns the best salp ever evaluated** (proved). full contract, follower midpoint rule
  - `Verif/Props/SSA.lean`: `C18_evolute` (pcq), `C18_total` (pcq), `C18_bad_c1` (pq), `C18_follower` (pcq)
* **C19 BAT best is the best evaluation after initialisation** (proved). best over the per-generation evaluations; witness that the initial evaluation is lost
  - `Verif/Props/BAT.lean`: `C19_evolute` (pcq), `C19_loudness` (pcq), `C19_total` (pcq), `C19_initial_lost` (pcq)
* **C20 HHO returned best versus evaluated points** (proved). best over start-of-generation evaluations, over everything but the last dives with nearest_int; witness of a lost dive
  - `Verif/Props/HHO.lean`: `C20_evolute` (pcq), `C20_best_but_last_dives` (pcq), `C20_total` (pcq), `C20_last_dives_lost` (pcq)
* **C21 JAYA is greedy per row and returns the best evaluated** (proved). Greedy acceptance, exact histories, feasibility and counts; the worst individual is frozen at the initial one (documented deviation, with a witness).
  - `Verif/Props/JAYA.lean`: `C21_evolute` (pcq), `C21_rows` (pcq), `C21_worst_frozen` (pcq), `C21_total` (pcq), `C21_worst_not_worst` (pcq)
* **C22 MFO flames are the sorted best of previous moths and flames** (proved). Flame count schedule, flames are the best of the previous population and flames, returned best; the recorded local history lags by one population.
  - `Verif/Props/MFO.lean`: `C22_flame_count` (pcq), `C22_flames` (pcq), `C22_evolute` (pcq), `C22_total` (pcq), `C22_local_lags` (pcq)
* **C23 Cuckoo search result** (proved). Returned nest is the best nest and its own fitness; nests may leave the box in some branch (witness).
  - `Verif/Props/CS.lean`: `C23_evolute` (pcq), `C23_integer_space` (pcq), `C23_total` (pcq), `C23_out_of_box` (pcq)
* **C24 ACO archive stays sorted, bounded and elitist** (proved). Archive size, order, retention of better ants; roulette semantics; exp is a parameter.
  - `Verif/Props/ACO.lean`: `C24_evolute` (pcq), `C24_archive` (pcq), `C24_roulette` (pcq), `C24_weights` (pcq), `C24_total` (pcq)
* **C25 SA chain accounting and best tracking** (proved). The run theorem is for schedules that do not stop early; the early exit of the equilibrium schedule can return an individual that does not belong to the returned fitness (C25_equilibrium_stale_x). Fewer generations than cores raises UnboundLocalError.
  - `Verif/Props/SA.lean`: `C25_default_move` (pcq), `C25_chain` (pcq), `C25_ranges` (pq), `C25_evolute` (pcq), `C25_feasible` (pcq), `C25_no_generation` (pcq), `C25_soft_index` (pcq), `C25_soft_same_start` (pq), `C25_total` (pcq), `C25_equilibrium_stale_x` (pcq)
* **C26 Tabu search swaps keep a permutation and each iteration terminates** (proved). Swap moves as value transpositions, enumeration of the pairs, termination and choice of the candidate loop, tenures, best visited position. Also shown: in swap mode a generation without a move freezes the search for ever; with a frequency penalty the best evaluated candidate can be missed; above the 1e11 cut-off the returned pair is inconsistent.
  - `Verif/Props/TS.lean`: `C26_swap` (pcq), `C26_swap_missing` (pq), `C26_moves` (pcq), `C26_terminates` (pcq), `C26_no_moves` (pq), `C26_evolute_swap` (pcq), `C26_evolute_perturb` (pcq), `C26_total` (pcq), `C26_frozen` (pcq), `C26_frozen_witness` (pcq), `C26_no_generation` (pcq), `C26_penalty_misses` (pcq), `C26_cutoff_mismatch` (pcq)
* **C27 XNES utilities are a zero-sum ranking** (proved). Utilities over the reals; runs over any ordered field with log/exp/expm/argsort/adasam as parameters (the real matrix exponential is shown to satisfy the hypothesis used). Also shown: a second call of evolute flips the sign of the earlier history in mode min; the mu_best branch is dead.
  - `Verif/Props/XNES.lean`: `C27_utilities` (pcq), `C27_evolute` (pcq), `C27_total` (pcq), `C27_second_call` (pcq), `C27_mu_best_never_set` (pcq), `C27_distribution` (pcq), `C27_rank_invariant` (pcq), `C27_no_generation` (pcq), `expmOK_exp` (pcq)
* **C28 Non-dominated sorting partitions the population by rank** (proved). Fronts are the sets of individuals of equal longest-dominator-chain length; fitness vectors of equal length.
  - `Verif/Props/NDSort.lean`: `C28_dominance` (pcq), `C28_order` (pq), `C28_sort` (pcq), `C28_partition` (pcq), `C28_nodup` (pcq), `C28_front_incomparable` (pcq), `C28_front_dominated` (pcq), `C28_rank` (pcq), `C28_first_front` (pcq)
* **C29 The divide-and-conquer sort gives the same fronts** (proved). The divide-and-conquer sort gives the same fronts (same members) as the standard one for two or more objectives of equal length and a non-empty population. The single-objective call is not modelled (evolute switches to the standard sort).
  - `Verif/Props/LogSort.lean`: `C29_log_sort` (pcq), `C29_same_fronts` (pcq), `C29_helperA` (pcq), `C29_helperB` (pcq), `C29_empty` (pcq)
* **C30 NSGA-II survivor selection is elitist** (proved). Selection of NSGA-II with either sort. Exactly min(k, n) distinct survivors, whole fronts in order, within the cut front by decreasing crowding distance; nobody kept is dominated by somebody dropped; with k at least twice the number of objectives a best individual of every objective is kept. The stronger sentence "every dominator of a dropped individual is kept" is false and refuted by an example in Props/Crowd.lean.
  - `Verif/Props/Crowd.lean`: `C30_select` (pcq), `C30_elitist` (pcq), `C30_first_front` (pcq), `C30_crowding` (pcq), `C30_extremes` (pcq), `C30_edge` (pcq)
* **C31 Crowding distance** (proved). Distances in WithTop K; division by a zero range is avoided as in the code.
  - `Verif/Props/Crowd.lean`: `C31_crowding` (pcq), `C31_nonneg` (pcq), `C31_extremes` (pcq), `C31_top_count` (pcq)
* **C32 Reference points lie on the unit simplex** (proved). Number, sum, sign and distinctness of the points; scaling; division count zero.
  - `Verif/Props/Refs.lean`: `C32_points` (pcq), `C32_simplex` (pcq), `C32_scaling` (pcq), `C32_zero` (pq)
* **C33 NSGA-III niching picks exactly k distinct individuals** (proved). The association of points to niches is an arbitrary function (its linear algebra is not modelled here); shuffles are arbitrary permutations. Also the greedy law of the niche choice.
  - `Verif/Props/Niche.lean`: `C33_niching` (pcq), `C33_too_many` (pcq), `C33_select` (pcq), `C33_elitist` (pcq), `C33_niche_choice` (pcq)
* **C34 Replay buffer is a FIFO ring** (proved). Ring refined to the last `cap` submissions in order; capacity 0 raises.
  - `Verif/Props/Replay.lean`: `C34_fifo` (pcq), `C34_slots` (pcq), `C34_capacity_zero` (0), `C34_sample` (pcq)
* **C35 Segment tree range reduction** (proved). Includes negation: empty ranges never return.
  - `Verif/Props/SegTree.lean`: `C35_new` (p), `C35_write` (pcq), `C35_write_error` (pq), `C35_read` (p), `C35_reduce` (pcq), `C35_reduce_conventions` (pq), `C35_history` (pcq), `C35_reduce_empty_range` (pcq)
* **C36 Prefix-sum search finds the right slot** (proved). Exact arithmetic; capacity one raises (negation recorded).
  - `Verif/Props/SegTree.lean`: `C36_prefix_search` (pcq), `C36_unique` (pcq), `C36_capacity_one` (pcq)
* **C37 Prioritised replay** (proved). C37_single_element_diverges and C37_full_extend_no_priority are defects; C37_sample gives the exact draw-to-slot map, in which the last stored slot never occurs.
  - `Verif/Props/PER.lean`: `C37_capacity` (pcq), `C37_history` (pcq), `C37_add_max` (pcq), `C37_sample` (pcq), `C37_sample_stored` (pcq), `C37_sample_exact` (pcq), `C37_update` (pcq), `C37_extend_max` (pcq), `C37_single_element_diverges` (pcq), `C37_full_extend_no_priority` (pcq)
* **C38 Hindsight replay relabelling** (proved). Strategy `final` uses the goal achieved before the last action (negation of the documented meaning).
  - `Verif/Props/HER.lean`: `C38_episode` (pcq), `C38_pending` (p), `C38_count` (pcq), `C38_final_not_final_state` (p)
* **C39 Experience memory of PESA** (proved). C39_greedy_then_add_loses_best, C39_same_samples and C39_same_ranks are defects.
  - `Verif/Props/ER.lean`: `C39_bounded_distinct` (pcq), `C39_add_stored` (pcq), `C39_add_fifo` (pcq), `C39_greedy` (pcq), `C39_priorities` (pcq), `C39_uniform` (pcq), `C39_prior` (pcq), `C39_remove_duplicates` (pq), `C39_greedy_then_add_loses_best` (pcq)
  - `Verif/Props/Seeded.lean`: `C39_choice` (pcq), `C39_seeded_total` (pcq), `C39_same_samples` (pq), `C39_same_ranks` (pcq)
* **C40 AEO binomial coefficient and migration matrix** (proved). Combination function, migration matrix columns, closed form of its entries, export/destination schedules, strengths in [0,1], export numbers always drawable for legal options; defects: one cycle divides by zero, q outside [-1,1] accepted but raises.
  - `Verif/Props/AEO.lean`: `C40_ncr` (pcq), `C40_ncr_above` (pcq), `C40_columns` (pcq), `C40_entry` (pcq), `C40_schedules` (pcq), `C40_one_cycle` (pq)
  - `Verif/Props/AEOMigration.lean`: `C40_strength` (pcq), `C40_export_numbers` (pcq)
  - `Verif/Props/AEORun.lean`: `C40_q_unchecked` (pcq)
* **C41 AEO migration conserves individuals** (proved). Conservation by one export, one migration and whole runs; best-of-everything return value; totality; instantiated for ensembles of the nine concrete algorithms. Defects: order=None raises, labels out of range are dropped.
  - `Verif/Props/AEOMigration.lean`: `C41_export` (pcq), `C41_order_none` (pq), `C41_migrate` (pcq), `C41_migrate_total` (pcq), `C41_evolute` (pcq), `C41_out_of_range` (pcq), `C41_total` (pcq)
  - `Verif/Props/AEOMembers.lean`: `C41_ensemble` (pcq), `C41_ensemble_total` (pcq)
  - `Verif/Props/AEORun.lean`: `C41_example` (pcq)
  - `Verif/Props/AEOOrder.lean`: `C41_who_leaves` (pcq)
* **C42 AEO annealing schedules join up** (proved). All annealed parameters of all algorithms over the whole run; single-cycle single-generation defect.
  - `Verif/Props/AEO.lean`: `C42_joins` (pcq), `C42_ramp` (pcq), `C42_kwargs` (pcq), `C42_no_kwargs` (pq), `C42_single` (pq)
* **C43 AEO evaluation budget formula** (proved). Exact for GWO, MFO, PSO, DE, ES, SSA, JAYA; WOA short by one population; HHO between 1 and 3 per hawk and the announced bound 2 is refuted by a witness.
  - `Verif/Props/AEOMembers.lean`: `C43_exact` (pcq), `C43_woa` (pcq), `C43_hho` (pcq)
  - `Verif/Props/AEORun.lean`: `C43_hho_not_bound` (pcq)
* **C44 EDEV: sub-populations partition the population, individuals never get worse, the result is the best evaluated point** (proved). Full statement C44_run with C44_partition, C44_archive, C44_reward, C44_total; the rest are defects.
  - `Verif/Props/EDEV.lean`: `C44_partition` (pcq), `C44_run` (pcq), `C44_total` (pcq), `C44_ng_zero` (pq), `C44_reward` (pq), `C44_first_period` (pcq), `C44_means_frozen` (pq), `C44_archived_values` (pq), `C44_archive_mismatch` (pcq), `C44_forced_misplaced` (pcq), `C44_forced_single` (pcq), `C44_second_evaluation_lost` (pcq)
  - `Verif/Props/EDEVCore.lean`: `C44_archive` (pcq)
  - `Verif/Props/EDEVGain.lean`: `C44_gain` (pcq), `C44_configure` (pq), `C44_bestmem` (pcq), `C44_bestmem_start` (pq)
* **C45 EDEV mutation index generator returns distinct valid indices** (proved). Donor indices, gnR1R2, randFCR; sharpness C45_too_small, C45_two_members.
  - `Verif/Props/EDEVCore.lean`: `C45_donors` (pcq), `C45_reachable` (pcq), `C45_too_small` (pcq), `C45_r1r2` (pcq), `C45_two_members` (pcq), `C45_rates` (pcq), `C45_scales` (pcq)
  - `Verif/Props/EDEVGain.lean`: `C45_scales_first` (pcq)
* **C46 RL environment only evaluates feasible actions** (proved). BaseEnvironment with its three action encodings. Random samples are arguments (feasible where the space sampler makes them so). Defects with witnesses: first observation outside the observation space, neat raises, float spaces refused for dqn/acer, one action in nx+1 ignored.
  - `Verif/Props/Env.lean`: `C46_feasible` (pcq), `C46_episode` (pq), `C46_episode_regular` (pq), `C46_reach` (pcq), `C46_policy_value` (pcq), `C46_value_step` (pcq), `C46_total` (pcq), `C46_init` (pq), `C46_reset_returns_action` (pq), `C46_reset_outside` (pcq), `C46_value_ignores` (pq)
* **C47 Normalised action map is an affine bijection** (proved). 
  - `Verif/Props/Env.lean`: `C47_action_map` (pcq), `C47_action_map_coord` (pq), `C47_multidiscrete` (pcq)
* **C48 Running mean and variance equal batch statistics** (proved). One component; numpy works componentwise. Exact arithmetic.
  - `Verif/Props/Rms.lean`: `C48_statistics` (pcq), `C48_split_independent` (pcq), `C48_no_prior` (pcq), `C48_var_pos` (pcq), `C48_mean_shrinks` (pcq)
* **C49 Generalised advantage estimation** (proved). One environment column; exact arithmetic. Callback abort not modelled.
  - `Verif/Props/Returns.lean`: `C49_gae` (pcq), `C49_lambda_one` (pcq), `C49_lambda_zero` (pcq), `C49_consistent_values` (pcq), `C49_no_leak` (pcq), `C49_flatten` (pq)
* **C50 Discounting utilities** (proved). lfilter modelled by its defining recursion.
  - `Verif/Props/Returns.lean`: `C50_discount` (pcq), `C50_dones` (pcq), `C50_a2c` (pcq), `C50_boundaries` (pcq)
* **C51 Schedules** (proved). Includes two defects: last end point, double_middle_drop.
  - `Verif/Props/Schedule.lean`: `C51_interp` (pcq), `C51_linear` (pcq), `C51_linear_zero` (pq), `C51_piecewise` (pcq), `C51_last_endpoint` (pcq), `C51_unsorted` (pq), `C51_curves` (pcq), `C51_double_middle_drop` (pcq), `C51_scheduler` (pcq)
* **C52 ACER episode buffer** (proved). Requested size below one rollout makes every put raise (negation recorded).
  - `Verif/Props/Replay.lean`: `C52_get` (pcq), `C52_ring` (pcq), `C52_has_atleast` (pcq), `C52_too_small` (pq)
* **C53 Minibatch iteration covers every sample once** (proved). Shuffles are arbitrary permutations. Defects: an abandoned iteration shortens the next; iterbatches(num_batches, include_final_partial_batch=False) yields nothing.
  - `Verif/Props/Dataset.lean`: `C53_iterate_once` (pcq), `C53_reusable` (pq), `C53_resumes` (pcq), `C53_next_batch_epoch` (pcq), `C53_epoch` (pcq), `C53_iterbatches_size` (pcq), `C53_iterbatches_number` (pcq), `C53_iterbatches_nothing` (pq), `C53_aligned` (pcq), `C53_fresh` (pcq), `C53_subset` (pcq), `C53_starts_over` (pq)
* **C54 Latin hypercube design** (proved). Both copies of the function.
  - `Verif/Props/Latin.lean`: `C54_latin` (pcq), `C54_refuses` (pq)
* **C55 EPSO: one strategy per draw, learned probabilities stay positive, results are the best evaluated point, aliasing is harmless** (proved). Roulette C55_strategy/C55_rates/C55_learning/C55_counts, run C55_run/C55_memory/C55_aliasing/C55_phase/C55_limits, totality C55_total; the rest are defects.
  - `Verif/Props/EPSO.lean`: `C55_run` (pcq), `C55_memory` (pcq), `C55_aliasing` (pcq), `C55_strategy` (pcq), `C55_rates` (pcq), `C55_learning` (pcq), `C55_counts` (pcq), `C55_phase` (pcq), `C55_limits` (pcq), `C55_slope_grows` (pcq), `C55_hpso_negative_bound` (pcq), `C55_hpso_cap` (pcq), `C55_lp_zero` (pcq), `C55_g2_zero` (pcq), `C55_total` (pcq), `C55_ngen_zero` (pcq)
  - `Verif/Props/EPSOMove.lean`: `C55_move` (pcq), `C55_move_first` (pcq), `C55_tables` (pcq)
* **C56 HCLPSO: personal and global bests belong to their positions, exemplars come from friends' personal bests** (proved). Run C56_run/C56_memory/C56_monotone/C56_limits, exemplars C56_exemplar; the rest are defects.
  - `Verif/Props/HCLPSO.lean`: `C56_run` (pcq), `C56_memory` (pcq), `C56_monotone` (pcq), `C56_limits` (pcq), `C56_exemplar` (pcq), `C56_last_not_friend` (pcq), `C56_x0_ignored` (pq), `C56_limit_lost` (pcq), `C56_total` (pcq), `C56_ngen_zero` (pcq), `C56_start_lost` (pcq)
  - `Verif/Props/HCLPSOMove.lean`: `C56_coefficients` (pcq), `C56_move` (pcq), `C56_counter` (pcq)
* **C57 Tuners run the cases they promise and put every score beside the parameters that produced it** (proved). Grid C57_grid*, table C57_scores/C57_csv, random C57_random*, Bayesian C57_bayes; C57_bayes_mislabelled, C57_id_collision, C57_score_collision, C57_documented_format are defects.
  - `Verif/Props/Tune.lean`: `C57_grid_complete` (pq), `C57_grid_once` (pq), `C57_grid_order` (pcq), `C57_scores` (pcq), `C57_csv` (pcq), `C57_grid` (pcq), `C57_random` (pcq), `C57_random_total` (pq), `C57_random_reach` (pcq), `C57_documented_format` (pq), `C57_bayes` (pcq), `C57_bayes_mislabelled` (pcq), `C57_id_collision` (p), `C57_score_collision` (p)
* **C58 Travelling-salesman and knapsack environments only build valid solutions and report their value** (proved). TSP: C58_tsp_step, C58_tsp_run, C58_tsp_single, C58_tsp_total; knapsack: C58_kp_step, C58_kp_single, C58_kp_total, C58_kp_light; the others are defects.
  - `Verif/Props/TSP.lean`: `C58_tsp_step` (pcq), `C58_tsp_obs_blank` (pcq), `C58_tsp_total` (pcq), `C58_tsp_run` (pcq), `C58_tsp_single` (pcq), `C58_tsp_reported_order` (pcq), `C58_tsp_long` (pcq), `C58_tsp_reset` (pcq), `C58_tsp_rows_mixed` (pcq), `C58_tsp_length_zero` (pcq)
  - `Verif/Props/KP.lean`: `C58_kp_step` (pcq), `C58_kp_single` (pcq), `C58_kp_light` (pcq), `C58_kp_total` (pcq), `C58_kp_light_example` (pcq), `C58_kp_reset` (pcq), `C58_kp_columns` (pcq), `C58_kp_no_length` (pq)
* **C59 NSGA-II/III runs and what they report** (proved). The main loop of NSGA-II and NSGA-III: what is reported (exactly), which part of it is right (front, records, single objective) and two defects with witnesses (the reported per-objective optimum is the worst of the front; stale in min mode for negative objectives).
  - `Verif/Props/NSGA.lean`: `C59_sel2_sound` (pcq), `C59_sel3_sound` (pcq), `C59_evolute` (pcq), `C59_records` (pcq), `C59_y_max` (pcq), `C59_y_min_pos` (pcq), `C59_y_min_neg` (pcq), `C59_x` (pcq), `C59_single` (pcq), `C59_total` (pcq), `C59_edge` (pcq), `C59_not_best` (pcq), `C59_min_stale` (pcq)
* **C60 Population converters** (proved). Row labels and dataframe wrapper not modelled.
  - `Verif/Props/Grid.lean`: `C60_dict_table` (pq), `C60_list_table` (pcq), `C60_nsga_table` (pq)
* **C61 SA cooling schedules behave as schedules** (proved). Over the real numbers.
  - `Verif/Props/Cooling.lean`: `C61_fast` (pcq), `C61_fast_geometric` (pcq), `C61_cauchy` (pcq), `C61_boltzmann` (pcq), `C61_equilibrium` (pcq), `C61_acceptance` (pcq)
* **C62 Q-retrace targets of ACER** (proved). One environment; batch_to_seq/seq_to_batch are reshapes.
  - `Verif/Props/Returns.lean`: `C62_retrace` (pcq), `C62_fixed_point` (pcq)
* **C63 Grey wolves, whales and hawks encircle the incumbent with a shrinking radius** (proved). Schedules, movement and reach for each method. C63_gwo_origin is a defect.
  - `Verif/Props/GWOMove.lean`: `C63_gwo_schedule` (pcq), `C63_gwo_radius` (pcq), `C63_gwo_attained` (pcq), `C63_gwo_origin` (pcq)
  - `Verif/Props/WOAMove.lean`: `C63_woa_schedule` (pcq), `C63_woa_move` (pcq), `C63_woa_choice` (pcq), `C63_woa_exploits` (pcq), `C63_woa_branches` (pcq)
  - `Verif/Props/HHOMove.lean`: `C63_hho_schedule` (pcq), `C63_hho_move` (pcq), `C63_hho_dive` (pcq), `C63_hho_explore` (pcq)
* **C64 Particles, salps and solutions move only by attraction to the best and the documented terms** (proved). C64_pso_keyword_late, C64_pso_globw_unbounded and C64_ssa_far_box are defects.
  - `Verif/Props/PSOMove.lean`: `C64_pso_weight` (pcq), `C64_pso_keyword_late` (pq), `C64_pso_move` (pcq), `C64_pso_globw` (pcq), `C64_pso_globw_unbounded` (pcq)
  - `Verif/Props/SSAMove.lean`: `C64_ssa_move` (pcq), `C64_ssa_far_box` (pcq), `C64_ssa_coefficient` (pcq)
  - `Verif/Props/JAYAMove.lean`: `C64_jaya_move` (pcq), `C64_jaya_fixed` (pcq)
* **C65 Cuckoos, bats and ants sample where the documentation says** (proved). C65_cs_pa_keeps and C65_bat_jump_lost are defects.
  - `Verif/Props/CSMove.lean`: `C65_cs_move` (pcq), `C65_cs_best_rests` (pcq), `C65_cs_pa_keeps` (pcq)
  - `Verif/Props/BATMove.lean`: `C65_bat_move` (pcq), `C65_bat_jump_lost` (pq)
  - `Verif/Props/ACOMove.lean`: `C65_aco_move` (pcq), `C65_aco_collapse` (pcq)
* **C66 PESA returns the best point it ever evaluated, if its memory can hold the run** (proved). C66_default_memory_loses, C66_second_call and C66_warmup_strict are defects.
  - `Verif/Props/PESA.lean`: `C66_best` (pcq), `C66_default_memory` (pq), `C66_attained` (pcq), `C66_second_call` (pcq), `C66_default_memory_loses` (pcq)
  - `Verif/Props/PESAMove.lean`: `C66_warmup_strict` (pcq)
* **C67 The three methods of PESA do what they document and share the memory correctly** (proved). C67_not_divisible and C67_timew record defects.
  - `Verif/Props/PESA.lean`: `C67_chain` (pcq), `C67_steps` (pcq), `C67_alpha` (pcq), `C67_populations` (pcq), `C67_timew` (pcq), `C67_total` (pcq), `C67_not_divisible` (pq)
  - `Verif/Props/PESAMove.lean`: `C67_swarm_move` (pcq), `C67_fresh_particles` (pcq)
* **C68 PESA2 returns the best of what its three methods report** (proved). C68_no_survivors, C68_second_call, C68_loses, C68_too_many_wolves and C68_no_generation are defects.
  - `Verif/Props/PESA2.lean`: `C68_best` (pcq), `C68_attained` (pcq), `C68_best_of_all` (pcq), `C68_default_memory` (pcq), `C68_no_survivors` (pcq), `C68_second_call` (pcq), `C68_wolves_whales` (pq), `C68_total` (pcq), `C68_too_many_wolves` (pcq), `C68_no_generation` (pcq), `C68_loses` (pcq)
* **C69 How PESA2 passes individuals between its methods** (proved). C69_gwo_idle, the last part of C69_next and C69_shared_corrupted are defects.
  - `Verif/Props/PESA2.lean`: `C69_starts` (pcq), `C69_gwo_idle` (pcq), `C69_next` (pcq), `C69_alpha` (pcq), `C69_shared_unchanged` (pcq), `C69_shared_corrupted` (pcq)
* **C70 What NHHO returns and how its surrogates are made** (proved). Minimisation; the networks are parameters of the model, so the theorems hold for every learner.
  - `Verif/Props/NHHO.lean`: `C70_returned` (pcq), `C70_surrogate` (pcq), `C70_evaluations` (pcq), `C70_total` (pcq)
* **C71 NHHO reports scaled predictions and maximises in the wrong direction** (proved). All are defects; C71_max_witness is a concrete run.
  - `Verif/Props/NHHO.lean`: `C71_max_returns_worst` (pcq), `C71_dives_minimise` (pcq), `C71_scaled` (pcq), `C71_default_params` (pq), `C71_default_warmups` (pcq), `C71_max_witness` (pcq)
* **C72 What NGA returns and how its surrogates are made** (proved). KMeans, the pseudo-inverse, the kernel and the norm are parameters of the model.
  - `Verif/Props/NGA.lean`: `C72_returned` (pcq), `C72_surrogate` (pcq), `C72_evaluations` (pcq), `C72_population` (pcq), `C72_total` (pcq), `C72_default_hidden` (pcq), `C72_total_default` (pcq), `C72_warmups` (pcq)
* **C73 NGA crossover and mutation stay in the bounds** (proved). For every non-negative root x ** (1 / n); the real power function is shown to be one.
  - `Verif/Props/NGA.lean`: `C73_crossover` (pcq), `C73_crossover_equal` (pcq), `C73_mutation` (pcq)
* **C74 NGA ignores variable types and fails for small settings** (proved). All are defects.
  - `Verif/Props/NGA.lean`: `C74_one_hidden` (pcq), `C74_not_integer` (pcq), `C74_one_individual` (pcq)
* **C75 RLLogger keeps the exact history and the best** (proved). C75_parallel_loses is a defect.
  - `Verif/Props/Logger.lean`: `C75_history` (pcq), `C75_best` (pcq), `C75_saving` (pcq), `C75_mode` (pcq), `C75_total` (pq), `C75_first_env_only` (pq), `C75_with_environment` (pcq), `C75_parallel_loses` (pcq)
* **C76 What the RL phase of ACKDE and PPO-ES hands to evolution** (proved). 
  - `Verif/Props/Informed.lean`: `C76_learn` (pcq), `C76_total` (pcq), `C76_feasible` (pcq), `C76_decodes` (pcq)
* **C77 ACKDE: RL-informed differential evolution** (proved). C77_string_grid, C77_encoded_twice and C77_best_lost are defects.
  - `Verif/Props/Informed.lean`: `C77_mix` (pcq), `C77_ackde` (pcq), `C77_total` (pcq), `C77_refused` (pcq), `C77_string_grid` (pcq), `C77_encoded_twice` (pcq), `C77_learn_evolute` (pcq), `C77_best_lost` (pcq)
* **C78 PPO-ES: RL-informed evolution strategies** (proved). C78_too_many, C78_mismatch and C78_start_lost are defects.
  - `Verif/Props/Informed.lean`: `C78_ppoes` (pcq), `C78_total` (pcq), `C78_too_many` (pcq), `C78_mismatch` (pcq), `C78_start_lost` (pcq), `C78_alpha_ignored` (pcq)
* **C79 The classical benchmark functions have their documented minima** (proved). Real arithmetic; shubert, ridge and alpine are not modelled.
  - `Verif/Props/Classic.lean`: `C79_minima` (pcq), `C79_minima_one` (pcq), `C79_lists` (pcq), `C79_yang` (pcq), `C79_decimals` (pcq)
* **C80 What goes wrong in the classical benchmark functions** (proved). C80_quartic, C80_flat and C80_cigar are defects.
  - `Verif/Props/Classic.lean`: `C80_quartic` (pcq), `C80_flat` (pcq), `C80_refused` (pcq), `C80_cigar` (pcq)
* **C81 CEC'2017 simple functions: optimum at the shift vector** (proved). C81_levy, C81_schwefel and C81_f8_writes are defects.
  - `Verif/Props/CEC17.lean`: `C81_minima` (pcq), `C81_unique` (pcq), `C81_levy` (pcq), `C81_schwefel` (pcq), `C81_f8_writes` (pcq), `C81_tables` (pcq)
* **C82 CEC'2017 hybrid functions** (proved). C82_dimensions is a defect.
  - `Verif/Props/CEC17.lean`: `C82_parts` (pcq), `C82_minima` (pcq), `C82_near` (pcq), `C82_dimensions` (pcq), `C82_tables` (pcq)
* **C83 CEC'2017 composition functions never return their optimum** (proved). C83_nan, C83_nan_hybrids, C83_never and C83_dimensions are defects.
  - `Verif/Props/CEC17.lean`: `C83_nan` (pcq), `C83_nan_hybrids` (pcq), `C83_never` (pcq), `C83_tables` (pcq), `C83_dimensions` (pcq)
* **C84 CEC'2008 functions** (proved). C84_oversize and C84_F7_reseeds are defects.
  - `Verif/Props/CEC08.lean`: `C84_minima` (pcq), `C84_global` (pcq), `C84_oversize` (pcq), `C84_F7_pure` (pcq), `C84_F7_reseeds` (pcq), `C84_F7_outside` (pcq)
* **C85 DTLZ2: the sphere and the Pareto front** (proved). C85_cached, C85_nadir_fails and C85_k_ignored are defects.
  - `Verif/Props/DTLZ.lean`: `C85_sphere` (pcq), `C85_wrong_dimension` (pcq), `C85_rows` (pcq), `C85_pareto` (pcq), `C85_front` (pcq), `C85_front_complete` (pcq), `C85_cached` (pcq), `C85_nadir_fails` (pcq), `C85_nadir` (pcq), `C85_k_ignored` (pcq), `C85_k` (pcq)
* **C86 RNEAT/FNEAT: the returned point is the best one evaluated** (proved). For rneat.py and fneat.py; the neat-python library is an arbitrary function from past fitness values to genomes.
  - `Verif/Props/Neat.lean`: `C86_best` (pcq), `C86_history` (pcq), `C86_monotone` (pcq), `C86_total` (pcq), `C86_fitness` (pcq)
* **C87 RNEAT/FNEAT: points proposed per genome** (proved). C87_start and C87_start_again are defects.
  - `Verif/Props/Neat.lean`: `C87_steps` (pcq), `C87_start` (pcq), `C87_start_again` (pcq)
* **C88 RNEAT/FNEAT with several processes** (proved). C88_misses is a defect.
  - `Verif/Props/Neat.lean`: `C88_best` (pcq), `C88_steps` (pcq), `C88_same` (pcq), `C88_misses` (pcq)
* **C89 RNEAT/FNEAT: the configuration given to the library** (proved). The documented default of weight_mutate_rate is 0.5, the code has 0.8.
  - `Verif/Props/Neat.lean`: `C89_config` (pcq), `C89_defaults` (p)
* **C90 Conjugate gradients (TRPO) solve the system** (proved). Exact arithmetic. C90_zero and C90_exact_lost are defects.
  - `Verif/Props/CG.lean`: `C90_solves` (pcq), `C90_optimal` (pcq), `C90_ascent` (pcq), `C90_unique` (pcq), `C90_zero` (pcq), `C90_exact_lost` (pcq)
* **C91 Vectorised environments: every environment behaves as if alone** (proved). The processes interleave arbitrarily, pipes are reliable queues; crashes of workers are not modelled. C91_hangs and part of C91_seeds are defects.
  - `Verif/Props/VecEnv.lean`: `C91_rows` (pcq), `C91_short` (pcq), `C91_processes` (pcq), `C91_terminates` (pcq), `C91_hangs` (pcq), `C91_seeds` (pcq)
* **C92 VecNormalize: statistics and outputs** (proved). One component of the observations (numpy acts componentwise); square root is a parameter. C92_reset_uncounted, C92_terminal_raw, C92_sync_order, C92_sync_unvec and part of C92_load are defects.
  - `Verif/Props/VecNorm.lean`: `C92_statistics` (pq), `C92_step` (pcq), `C92_bounds` (pcq), `C92_faithful` (pcq), `C92_frozen` (pq), `C92_reset_uncounted` (pq), `C92_terminal_raw` (pq), `C92_original` (pq), `C92_load` (pq), `C92_sync` (pq), `C92_sync_short` (pcq), `C92_sync_order` (0), `C92_sync_unvec` (0)
* **C93 VecFrameStack: stacked frames** (proved). Observations with one axis. C93_reset_overwrites and C93_space_wrong are defects.
  - `Verif/Props/VecStack.lean`: `C93_window` (pcq), `C93_terminal` (pcq), `C93_steps_keep` (pq), `C93_reset_overwrites` (pcq), `C93_space` (pcq), `C93_space_wrong` (pq)
* **C94 VecCheckNan: nothing bad goes unnoticed** (proved). 
  - `Verif/Props/VecStack.lean`: `C94_raise` (pcq), `C94_warn` (pcq), `C94_message` (pcq)
* **C95 Callbacks: when they act and when they stop a training** (proved). Saving and evaluating are recorded as events. C95_stop_lost, C95_checkpoint_zero, C95_every_again and C95_stop_nested are defects.
  - `Verif/Props/Callbacks.lean`: `C95_train` (p), `C95_list` (pcq), `C95_list_error` (pq), `C95_list_stop` (pq), `C95_stop_lost` (p), `C95_checkpoint` (pcq), `C95_checkpoint_distinct` (pcq), `C95_checkpoint_zero` (0), `C95_every` (pq), `C95_every_uniform` (pcq), `C95_every_again` (pcq), `C95_eval` (pcq), `C95_eval_child` (pcq), `C95_stop` (pcq), `C95_stop_nested` (pq)
* **C96 PPO2, A2C, ACER: rollouts are one continuous interaction** (proved). Environments, policy and learning update are arbitrary functions; all environments together are one value (the vector of environments is C91). C96_stale and C96_nothing are defects.
  - `Verif/Props/Rollout.lean`: `C96_rollouts` (pcq), `C96_stopped` (pcq), `C96_stale` (pcq), `C96_updates` (pq), `C96_nothing` (pq), `C96_frac` (pcq)
* **C97 PPO2: every sample is used exactly noptepochs times** (proved). Shuffles are arbitrary permutations.
  - `Verif/Props/Rollout.lean`: `C97_minibatches` (pcq), `C97_refused` (pq), `C97_recurrent` (pcq), `C97_flatten` (pcq)
* **C98 DQN: interaction, training times and target updates** (proved). Uniform replay; environment, Q network and gradient step are arbitrary functions; parameter noise and observation normalisation are not in this model. C98_short, C98_never and C98_freq_zero are defects.
  - `Verif/Props/DQN.lean`: `C98_learn` (pcq), `C98_stopped` (pcq), `C98_short` (pcq), `C98_never` (pcq), `C98_again` (pcq), `C98_freq_zero` (p)
* **C99 Monitor and evaluate_policy: every reported episode is a real one** (proved). Environment and policy are arbitrary functions; the CSV file is the list of its rows; wall-clock times are left out. C99_reset_missing, C99_vec_monitor and C99_threshold are defects.
  - `Verif/Props/Monitor.lean`: `C99_monitor` (pq), `C99_info` (p), `C99_keywords` (pcq), `C99_reset_missing` (p), `C99_evaluate` (pcq), `C99_monitored` (pcq), `C99_vec_monitor` (pcq), `C99_threshold` (pq)
* **C100 PESAX returns the best of everything ES, DE and PSO evaluated** (proved). Serial and parallel runs differ in the model by the weight only; a seed is modelled for DE and for the memory, the draws of ES and PSO are arbitrary. C100_second_call, C100_timew, C100_seeded, C100_refused, C100_swarm_best, C100_loses and the equal samples in C100_next are defects.
  - `Verif/Props/PESAX.lean`: `C100_best` (pcq), `C100_default_memory` (pcq), `C100_attained` (pcq), `C100_second_call` (pcq), `C100_next` (pcq), `C100_velocity` (pcq), `C100_populations` (pcq), `C100_alpha` (pcq), `C100_timew` (pcq), `C100_seeded` (pcq), `C100_refused` (pcq), `C100_total` (pcq), `C100_swarm_best` (pcq), `C100_loses` (pcq)
* **C101 NSGA-III normalisation and association** (proved). np.linalg.solve is any function whose answers solve the system, the square root any function with the defining property; in C101_constant and the other cases with a zero denominator the nan rows go to reference 0, as np.argmin does. C101_shift, C101_flipped, C101_translated and C101_constant are defects.
  - `Verif/Props/Assoc.lean`: `C101_extreme` (pcq), `C101_intercepts` (pcq), `C101_unit` (pcq), `C101_nearest` (pcq), `C101_units` (pcq), `C101_shift` (pcq), `C101_flipped` (pcq), `C101_constant` (pcq), `C101_associate` (pcq), `C101_select` (pcq), `C101_translated` (pcq)
* **C102 Action distributions of the RL policies** (proved). Over the real numbers. C102_cat_sample, C102_bernoulli_sample and C102_gauss_sample are statements about measures: uniform noise on the unit cube, standard normal noise. C102_cat_invalid is a defect.
  - `Verif/Props/Dist.lean`: `C102_cat_prob` (pcq), `C102_cat_invalid` (pcq), `C102_cat_entropy` (pcq), `C102_cat_kl` (pcq), `C102_cat_mode` (pcq), `C102_cat_sample` (pcq), `C102_multi_split` (pcq), `C102_multi` (pcq), `C102_multi_mode` (pcq), `C102_bernoulli` (pcq), `C102_bernoulli_sample` (pcq), `C102_bernoulli_mode` (pcq), `C102_gauss_density` (pcq), `C102_gauss_sample` (pcq), `C102_gauss_entropy_kl` (pcq), `C102_gauss_kl` (pcq), `C102_gauss_mode` (pcq)
* **C103 Scaling of actions, explained variance, flattening, and exploration noise** (proved). Exact arithmetic over any ordered field. C103_explained_2d, C103_scalar and C103_ou_float are defects.
  - `Verif/Props/MathUtil.lean`: `C103_scale` (pcq), `C103_explained` (pcq), `C103_explained_2d` (pcq), `C103_explained_one` (pcq), `C103_flatten` (pq), `C103_unflatten` (pcq), `C103_scalar` (0), `C103_adapt` (pcq), `C103_adapt_converges` (pcq), `C103_ou` (pcq), `C103_ou_float` (pq)
* **C104 Atari wrappers** (proved). The wrapped game is an arbitrary deterministic transition function. C104_fire_skipped, C104_fire_stale, C104_life_over, C104_skip_stale, C104_skip_small and C104_warp are defects.
  - `Verif/Props/Atari.lean`: `C104_noop` (pq), `C104_noop_exact` (pq), `C104_fire` (p), `C104_fire_skipped` (p), `C104_fire_stale` (p), `C104_life_reset` (0), `C104_life_step` (p), `C104_life_over` (p), `C104_skip` (pcq), `C104_skip_stale` (pcq), `C104_skip_small` (pcq), `C104_clip` (pcq), `C104_warp` (p), `C104_stack` (pcq)
* **C105 Table of the evolutionary hyperparameter search** (proved). Exact arithmetic. The evolution strategy is the model of C13/C14, the encoding that of C05. C105_grid and C105_single are defects; the call count in C105_table differs from the documentation.
  - `Verif/Props/ESTune.lean`: `C105_table` (pcq), `C105_plain` (pq), `C105_grid` (pcq), `C105_single` (pcq), `C105_total` (pcq)
* **C106 Loss of PPO2** (proved). Exact real arithmetic; the outputs of the network (log probabilities, values, entropy) are arbitrary numbers. Optimiser and gradient clipping are not modelled.
  - `Verif/Props/PPOLoss.lean`: `C106_ratio` (pcq), `C106_surrogate` (pcq), `C106_pessimistic` (pcq), `C106_gradient` (pcq), `C106_advantages` (pcq), `C106_constant` (pcq), `C106_first` (pcq), `C106_clipfrac` (pcq), `C106_range` (pcq), `C106_value` (pcq), `C106_value_floor` (pcq), `C106_value_flat` (pcq), `C106_total` (pcq)
* **C107 Action choice and Bellman error of DQN** (proved). Exact real arithmetic; the outputs of the networks are arbitrary numbers. Gradient clipping and the optimiser are not modelled.
  - `Verif/Props/QLoss.lean`: `C107_greedy` (pcq), `C107_act` (pcq), `C107_update` (pcq), `C107_threshold` (pcq), `C107_scale` (pcq), `C107_error` (pcq), `C107_target` (pcq), `C107_double` (pcq), `C107_contraction` (pcq), `C107_huber` (pcq), `C107_loss` (pcq), `C107_pull` (pcq), `C107_dueling` (pcq)
* **C108 Policy update of ACER** (proved). Discrete actions, exact real arithmetic; the outputs of the networks are arbitrary numbers. C108_policy states a defect: the entropy bonus is without effect when the trust region is on.
  - `Verif/Props/ACERLoss.lean`: `C108_strip` (pq), `C108_index` (pq), `C108_stats` (pq), `C108_stats_init` (pq), `C108_cut` (pq), `C108_stats_mean` (pcq), `C108_weights` (pcq), `C108_weights_exact` (pcq), `C108_gain` (pcq), `C108_bounded` (pcq), `C108_klgrad` (pcq), `C108_policy` (pcq), `C108_trust_inside` (pcq), `C108_trust` (pcq), `C108_trust_eps` (pcq), `C108_value` (pcq), `C108_gradient` (p)
* **C109 Input files** (proved). White space and letters of Python are two predicates on characters, eval of env_data and the number syntax are oracles. C109_equals, C109_hang, C109_tune_bool and parts of C109_accept and C109_values state defects.
  - `Verif/Props/InputFile.lean`: `C109_card` (pcq), `C109_last` (pq), `C109_equals` (pcq), `C109_noeq` (pcq), `C109_env` (pcq), `C109_hang` (pcq), `C109_accept` (pcq), `C109_general` (pcq), `C109_blocks` (pcq), `C109_conv` (pcq), `C109_freq` (pcq), `C109_values` (pcq), `C109_cores` (pcq), `C109_tune` (pcq), `C109_tune_bool` (pcq), `C109_lines` (pcq), `C109_file` (pcq), `C109_rounds` (p)
* **C110 Control drum reactivity model** (proved). Exact real arithmetic; reading the CSV files is not modelled (the tables are arguments), interp1d and searchsorted are modelled by their documented behaviour. C110_node, C110_nom and C110_far state defects.
  - `Verif/Props/Reactivity.lean`: `C110_integral` (pcq), `C110_lookup` (pcq), `C110_node` (pcq), `C110_turns` (pcq), `C110_eval` (pcq), `C110_rest` (pcq), `C110_nom` (pcq), `C110_derivative` (pcq), `C110_gradient` (pcq), `C110_far` (pcq), `C110_table` (pcq)
* **C111 Bit flipping and identity environments** (proved). Exact arithmetic; gym spaces modelled by their documented membership test; samples are arguments. C111_space and part of C111_start state defects.
  - `Verif/Props/ToyEnvs.lean`: `C111_step` (pcq), `C111_code` (pq), `C111_space` (pcq), `C111_optimal` (pcq), `C111_start` (pcq), `C111_identity` (pq), `C111_box` (pcq), `C111_reset` (p)
* **C112 Trajectory segments** (proved). Policy, environment, reward giver and callback are arbitrary functions. C112_stop states a defect. Exact arithmetic instead of float32.
  - `Verif/Props/Traj.lean`: `C112_segments` (pcq), `C112_trace` (0), `C112_stop` (pcq), `C112_episodes` (pq)
* **C113 Recurrent layer: batches by environment, resets and consistency of acting and training** (proved). Exact arithmetic; sigmoid, tanh and the layer normalisation are arbitrary functions (bounded ones in C113_bounds). TensorFlow placeholders and variable scopes are not modelled.
  - `Verif/Props/Lstm.lean`: `C113_unroll` (pcq), `C113_consistent` (pcq), `C113_reset` (pcq), `C113_bounds` (pcq), `C113_cell` (pcq), `C113_norm` (pcq), `C113_cell_norm` (pcq)
* **C114 Predicted actions and reported action probabilities** (proved). Over the real numbers; the network output is arbitrary. C114_box, C114_box_wrong, C114_box_sizes, C114_all_lossy and C114_discrete_invalid state defects: for Box action spaces the reported density is never that of the policy.
  - `Verif/Props/ActProb.lean`: `C114_shape` (pcq), `C114_predict` (pcq), `C114_refused` (pcq), `C114_discrete` (pcq), `C114_discrete_invalid` (pcq), `C114_multi` (pcq), `C114_binary` (pcq), `C114_box` (pcq), `C114_box_wrong` (pcq), `C114_box_sizes` (pcq), `C114_all` (pcq), `C114_all_batch` (pcq), `C114_all_lossy` (pcq), `C114_softmax` (pcq)
* **C115 Saved models are loaded unchanged** (proved). json is modelled on trees, cloudpickle as a function with an inverse, np.savez as a table, the file system as a table. C115_changed, C115_kwargs, C115_keys, C115_marker, C115_stale, C115_pickle and part of C115_list state defects.
  - `Verif/Props/Save.lean`: `C115_json` (pcq), `C115_data` (pcq), `C115_changed` (pcq), `C115_kwargs` (pcq), `C115_keys` (pcq), `C115_marker` (pcq), `C115_params` (pq), `C115_load` (pcq), `C115_transfer` (pcq), `C115_list` (pcq), `C115_file` (pcq), `C115_stale` (pcq), `C115_pickle` (pcq)
* **C116 Run directories of TensorBoard logs** (proved). The log directory is the list of names in it; ASCII names without characters special to glob; no concurrent sessions.
  - `Verif/Props/RunId.lean`: `C116_latest` (pcq), `C116_fresh` (pcq), `C116_sequence` (pcq), `C116_continue` (pcq)
* **C117 What is logged during training can be read back** (proved). Printing of numbers, the order of sets and float() of texts are parameters. C117_mixed, C117_none, C117_commas, C117_empty, C117_lossy, C117_json_shape, C117_two_runs, C117_repeat and C117_converted state defects.
  - `Verif/Props/TextLog.lean`: `C117_last` (pq), `C117_mean` (pcq), `C117_mixed` (pcq), `C117_none` (pq), `C117_csv` (pcq), `C117_columns` (pq), `C117_commas` (pcq), `C117_empty` (pcq), `C117_table` (pcq), `C117_short` (pcq), `C117_cut` (pcq), `C117_lossy` (pcq), `C117_json` (pcq), `C117_json_shape` (pcq), `C117_tensorboard` (pcq), `C117_version` (pcq), `C117_two_runs` (pcq), `C117_dump` (pcq), `C117_converted` (pcq), `C117_repeat` (pcq), `C117_session` (pcq)
* **C118 A model always works on the environment it was last given** (proved). Networks, runners and spaces are abstract; the number of steps a rollout takes is that of the runner. C118_without, C118_wrap, C118_lost, C118_stale, C118_dropped and C118_unset state defects.
  - `Verif/Props/Attach.lean`: `C118_construct` (pq), `C118_name` (pq), `C118_accept` (p), `C118_refused` (p), `C118_session` (pq), `C118_fixed` (pcq), `C118_without` (p), `C118_wrap` (p), `C118_lost` (p), `C118_budget` (pq), `C118_acktr` (pq), `C118_stale` (pq), `C118_dropped` (pcq), `C118_samples` (pcq), `C118_verbosity` (pcq), `C118_silent` (pcq), `C118_nested` (pcq), `C118_unset` (pcq)
* **C119 Annealing from an input file is a Metropolis chain within the bounds** (proved). Temperatures in the chain are a parameter (formulas in C119_cooling over the reals); plotting and printing are left out. C119_steps, C119_last, C119_lost, C119_none, C119_start, C119_quad, C119_stuck, C119_small and C119_trunc state defects.
  - `Verif/Props/Anneal.lean`: `C119_single` (pcq), `C119_dual` (pcq), `C119_chain` (pcq), `C119_reports` (pcq), `C119_rates` (pcq), `C119_steps` (pcq), `C119_last` (pcq), `C119_range` (pcq), `C119_length` (pcq), `C119_rows` (pcq), `C119_none` (pq), `C119_start` (pq), `C119_quad` (pcq), `C119_stuck` (pcq), `C119_small` (pq), `C119_cooling` (pcq), `C119_schedules` (pcq), `C119_full` (pcq), `C119_kbs` (pcq), `C119_lost` (pcq), `C119_trunc` (pcq)
* **C120 The optimiser of ACKTR solves the damped Fisher system and stays in its trust region** (proved). Over the reals; the eigenvalue decomposition is a parameter with orthogonal eigenvectors; convolutions, asynchronous queues, full_stats_init and the search of the graph are left out. That an operation made outside the branches of tf.cond runs at every step is a fact about TensorFlow taken from its documentation. C120_both and C120_bare state defects.
  - `Verif/Props/Kfac.lean`: `C120_solves` (pcq), `C120_descent` (pcq), `C120_threshold` (pcq), `C120_size` (pcq), `C120_trust` (pcq), `C120_scaling` (pcq), `C120_blocks` (pcq), `C120_covariance` (pcq), `C120_counters` (pcq), `C120_average` (pcq), `C120_within` (pcq), `C120_factors` (pcq), `C120_moves` (pcq), `C120_both` (pcq), `C120_bare` (pcq), `C120_momentum` (pcq), `C120_clip` (pcq)
* **C121 The genetic algorithm of the input-file runner: children, survivors, reports** (proved). env.fit is a parameter; plots, the printed strategy statistics and the process pool are left out. C121_single, C121_grid, C121_kbs, C121_foreign, C121_lost, C121_wild and C121_stale state defects.
  - `Verif/Props/GARun.lean`: `C121_construct` (pcq), `C121_inside` (pcq), `C121_count` (pcq), `C121_generation` (pcq), `C121_reports` (pcq), `C121_steps` (pcq), `C121_total` (pcq), `C121_single` (pq), `C121_grid` (pcq), `C121_kbs` (pcq), `C121_foreign` (pcq), `C121_lost` (pcq), `C121_wild` (pcq), `C121_stale` (pcq)
* **C122 Grid and random tuning from an input file: templates, cases and the ranking** (proved). Number syntax and the runs of the case files (their *_out.csv) are oracles, the order in which the pool writes lines is arbitrary. C122_template_mention, C122_nested, C122_no_keyword and C122_shift state defects.
  - `Verif/Props/TuneFile.lean`: `C122_template` (pcq), `C122_template_mention` (pcq), `C122_template_none` (pcq), `C122_fill` (pcq), `C122_layout` (pcq), `C122_fill_short` (pcq), `C122_nested` (pcq), `C122_files` (pcq), `C122_params` (p), `C122_element` (pq), `C122_trunc` (pcq), `C122_grid` (pcq), `C122_random` (pcq), `C122_reach` (pcq), `C122_no_keyword` (pcq), `C122_order` (pcq), `C122_shift` (pcq), `C122_row` (pq), `C122_results` (pcq), `C122_run` (pcq)
* **C123 Bayesian and evolutionary tuning from an input file: cards, cases, numbering, operators and the table** (proved). The surrogate of the Bayesian search (gp_minimize) is an arbitrary function of the values and answers so far; number syntax, the logs a case leaves, all draws, the order in which the pool writes rows and the order of ten failed members are arbitrary. C123_mean, C123_mean_none, C123_reused, C123_reported, C123_no_keyword, C123_normal, C123_es_single, C123_es_const, C123_es_first, C123_es_failed and part of C123_es_tune state defects.
  - `Verif/Props/TuneRun.lean`: `C123_card` (pcq), `C123_mean` (pq), `C123_mean_none` (pq), `C123_finish` (pq), `C123_search` (pcq), `C123_rows` (pcq), `C123_reused` (pq), `C123_serial` (pcq), `C123_parallel` (pcq), `C123_reported` (pcq), `C123_order` (pcq), `C123_types` (pcq), `C123_answer` (pcq), `C123_start` (pcq), `C123_no_keyword` (pcq), `C123_es` (pcq), `C123_es_total` (pcq), `C123_es_single` (pcq), `C123_es_const` (pcq), `C123_es_first` (pcq), `C123_es_failed` (pcq), `C123_es_tune` (pcq), `C123_normal` (pcq)
* **C124 A2C and ACKTR: the losses, their gradients, clipping, the optimiser step and the learning rate** (proved). Network outputs and the gradient of the loss with respect to the network parameters are arbitrary functions; tf.clip_by_global_norm and RMSProp are the documented formulas; the optimiser of ACKTR is C120.
  - `Verif/Props/PGLoss.lean`: `C124_gradient` (pcq), `C124_gaussian` (pcq), `C124_same_loss` (pcq), `C124_baseline` (pcq), `C124_direction` (pcq), `C124_bonus` (pcq), `C124_value` (pcq), `C124_shift` (pcq), `C124_fisher` (pcq), `C124_advantages` (pcq), `C124_clip` (pcq), `C124_step` (pcq), `C124_rate` (pcq), `C124_learn` (pcq), `C124_linear` (pcq)
* **C125 A run from an input file: command line, log directory, header files, processes and modes** (proved). The file system is a function from paths to directories and contents; os and shutil calls are the documented operations on it; the parsed input is that of C109.
  - `Verif/Props/RunFiles.lean`: `C125_stem` (pcq), `C125_start` (pcq), `C125_subdir` (pcq), `C125_blank` (pcq), `C125_refused` (pcq), `C125_header` (p), `C125_columns` (pcq), `C125_found` (pcq), `C125_procs` (p), `C125_mode` (pcq), `C125_command` (p), `C125_tune` (pcq)
* **C126 Training from an input file: checks, best and last model, figures, end of the process, evaluation** (proved). The csv file written by the environment and the weights after each update are oracles; a figure is the data handed to the plotting library; the loops of learn are the times at which they call the callback.
  - `Verif/Props/SavePlot.lean`: `C126_blocks` (pcq), `C126_point` (pcq), `C126_cumavg` (pcq), `C126_layout` (pcq), `C126_color` (pq), `C126_plot` (pcq), `C126_window` (pq), `C126_mean` (pcq), `C126_rollouts` (pcq), `C126_call` (pcq), `C126_times` (pq), `C126_best` (pcq), `C126_exit` (pcq), `C126_last` (pcq), `C126_short` (pcq), `C126_zero` (pcq), `C126_freq` (pcq), `C126_eval` (pcq)
* **C127 The networks of the policies: encoding of observations, layers, heads, recurrent policies, initial weights and registry** (proved). Numbers form an ordered field; activation, convolutional features and recurrent layer are arbitrary functions; the singular value decomposition is given by its orthonormality. Variables are a function of the scope, so the graph is read as the function it computes.
  - `Verif/Props/Nets.lean`: `C127_onehot` (pcq), `C127_scaled` (pq), `C127_box` (pcq), `C127_inject` (pcq), `C127_encode` (pcq), `C127_linear` (pcq), `C127_mlp` (pq), `C127_sizes` (pq), `C127_ignored` (pq), `C127_separate` (pq), `C127_names` (pcq), `C127_heads` (pq), `C127_feedforward` (pq), `C127_lstm` (pq), `C127_lstm_legacy` (pq), `C127_step` (pq), `C127_nature` (pq), `C127_ortho` (pcq), `C127_gain` (pcq), `C127_register` (p), `C127_refused` (pq)
* **C128 Pretraining from an expert: every batch once per epoch, the loss, the reports, and what it forgets** (proved). One step of the optimiser is an arbitrary function of parameters, optimiser state and batch; the loader is an arbitrary stream of batches; losses over the reals.
  - `Verif/Props/Pretrain.lean`: `C128_entropy` (pcq), `C128_clone` (pcq), `C128_shift` (pcq), `C128_best` (pcq), `C128_square` (pcq), `C128_mean` (pcq), `C128_mean_square` (pcq), `C128_clone_batch` (pcq), `C128_train` (pcq), `C128_fails` (pcq), `C128_forgets` (pcq), `C128_none` (pcq), `C128_quiet` (pcq), `C128_reports` (pcq)
* **C129 The network of DQN: values, dueling head, layer normalisation, predictions and probabilities** (proved). Over the reals. fully_connected and layer_norm are the formulas of their documentation; the features of the CNN and the activation function are arbitrary functions; a draw of np.random.choice is one uniform number. The written-out formula is for two hidden layers; the statements on dueling, layer normalisation and acting are for any layers.
  - `Verif/Props/DQNNet.lean`: `C129_two_layers` (pcq), `C129_cnn` (pcq), `C129_build` (p), `C129_refused` (p), `C129_dueling_ignored` (pq), `C129_state` (pcq), `C129_mean` (pcq), `C129_ln_cnn` (pcq), `C129_layer_norm` (pcq), `C129_ln_bias` (pcq), `C129_ln_one` (pcq), `C129_no_action` (pcq), `C129_choice` (pcq), `C129_predict` (pcq), `C129_proba` (pcq), `C129_action_probability` (pcq), `C129_logp_ignored` (pcq), `C129_invalid` (pcq)
* **C130 Vectors of environments: attributes and methods, structured observations, wrapped attributes, tiled images, construction** (proved). A call on an environment is an arbitrary function of its state that does not raise; processes and main program interleave in any order over FIFO pipes. Arrays of tile_images are functions of indices.
  - `Verif/Props/VecAttr.lean`: `C130_targets` (pcq), `C130_same` (pcq), `C130_call` (pq), `C130_get` (pcq), `C130_pending` (pcq), `C130_structured` (pq), `C130_missing` (pq), `C130_attribute` (pcq), `C130_unvec_set` (p), `C130_grid` (pcq), `C130_tiles` (pcq), `C130_make` (pcq), `C130_make_id` (0)
* **C131 EPSDE's parameter pool: combinations, growth of the pool, the rate of reuse, and what is removed** (proved). Random integers are arbitrary numbers below their bound; which members are successful is an arbitrary rule (the trials and the selection are in the model of EDEV, C44).
  - `Verif/Props/EPSPool.lean`: `C131_delete` (pq), `C131_reuse` (pq), `C131_generation` (pcq), `C131_run` (pcq), `C131_kept` (pcq), `C131_rate` (pcq), `C131_stale` (pq), `C131_removed` (pcq), `C131_converged` (pq)
* **C132 Alpine, Shubert and ridge functions, power splits, and the plotted surface** (proved). Over the real numbers; the network of the power model is an arbitrary function; the drawing itself is not modelled.
  - `Verif/Props/BenchMore.lean`: `C132_alpine1` (pcq), `C132_alpine1_other` (pcq), `C132_alpine2` (pcq), `C132_shubert_min` (pcq), `C132_shubert_repeats` (pcq), `C132_shubert_perm` (pcq), `C132_shubert_size` (pcq), `C132_ridge` (pcq), `C132_ridge_min` (pcq), `C132_ridge_unbounded` (pcq), `C132_power` (pcq), `C132_surface` (pcq), `C132_surface_error` (pcq)
* **C133 Logs of several environments read together** (proved). A file is what its parsing gives; sorting by time is any function that sorts; rounding of times and the listing of directories are left out.
  - `Verif/Props/MonLoad.lean`: `C133_found` (pcq), `C133_hidden` (pcq), `C133_once` (pcq), `C133_load` (pcq), `C133_clock` (pcq), `C133_single` (pcq), `C133_refused` (pq), `C133_unfinished` (pcq)
* **C134 Seeds, and which runs can be repeated** (proved). What a seed makes of a generator and what programs draw are arbitrary functions; the generator of TensorFlow and the mode of PESA with one process per method are left out.
  - `Verif/Props/Seeds.lean`: `C134_seed` (0), `C134_repeat` (p), `C134_anytime` (p), `C134_which` (p), `C134_twice` (p), `C134_overwritten` (pcq), `C134_goes_on` (p), `C134_chains` (pcq), `C134_same_draws` (pcq), `C134_neighbours` (pcq), `C134_pesa` (0), `C134_pesa_repeat` (0), `C134_prior` (0), `C134_environments` (pq)
* **C135 Only comparisons of the fitness matter** (proved). The sort of MFO and the argsort of XNES are parameters, assumed to compare only (shown for the stable sort). HCLPSO, EPSO, EDEV, NHHO, NGA, the PESA family and AEO are not covered.
  - `Verif/Props/Compare.lean`: `C135_keeps` (pq), `C135_affine` (pcq), `C135_negate` (pcq), `C135_de` (pcq), `C135_jaya` (pcq), `C135_gwo` (pcq), `C135_woa` (pcq), `C135_ssa` (pcq), `C135_cs` (pcq), `C135_aco` (pcq), `C135_hho` (pcq), `C135_bat` (pcq), `C135_mfo` (pcq), `C135_es` (pcq), `C135_pso` (pcq), `C135_xnes` (pcq), `C135_sa_negate` (pq), `C135_ts_negate` (pq), `C135_pso_negate` (pcq), `C135_sa_shift` (pcq), `C135_pso_ratio` (pcq), `C135_ts_scale` (pcq), `C135_sa_scale` (pcq)
* **C136 Units of the objectives do not matter to NSGA-II** (proved). The reported y_opt is covered in mode max only: in mode min it is stale in any units (C59). NSGA-III is not covered: C101 shows that its association depends on the offset.
  - `Verif/Props/Units.lean`: `C136_fronts` (pcq), `C136_crowding` (pcq), `C136_select` (pcq), `C136_run` (pcq), `C136_negate` (pcq), `C136_nonlinear` (pcq)
* **C137 Where the search starts** (proved). The Latin designs of NHHO and NGA are treated with those algorithms and not repeated here. Defects: SA overwrites the list of guesses it is given (a second run with the same list starts elsewhere or fails); ACO and XNES accept guesses outside the space; JAYA and ACO skip variables of unknown type; DE, ES and PSO accept guesses with surplus entries; tabu search in swap mode ignores the bounds.
  - `Verif/Props/InitPop.lean`: `C137_random` (pcq), `C137_reaches` (pcq), `C137_given` (pcq), `C137_refuses` (pcq), `C137_wrong_number` (pq), `C137_unusable` (pq), `C137_skipped_variable` (pq), `C137_strategies` (pcq), `C137_speeds` (pcq), `C137_end_to_end` (pcq), `C137_chains` (pcq), `C137_guesses_overwritten` (pq), `C137_tabu_last` (pcq), `C137_tabu_tour` (pq), `C137_unchecked` (pq), `C137_second_run` (pcq), `C137_surplus_entry` (pcq), `C137_tour_infeasible` (pcq), `C137_tabu_single` (pcq)
  - `Verif/Props/InitRuns.lean`: `C137_space` (pcq), `C137_end_to_end_more` (pcq)
  - `Verif/Props/InitRunsMore.lean`: `C137_end_to_end_rest` (pcq)
* **C138 Units of the variables** (proved). Continuous variables only (a grid variable has no change of units). Affine changes: DE, MFO, cuckoo search, ACO, SA (with the built-in move, or any move that is rewritten with the points). Scaling only: GWO, WOA, SSA, JAYA, PSO. Shifts only: BAT. Defects: the five scaling-only optimizers, the first PSO speeds and HHO depend on where the zero of a variable lies; BAT and HHO contain jumps of a fixed absolute size.
  - `Verif/Props/Rescale.lean`: `C138_same_problem` (pcq), `C138_affine` (pcq), `C138_scale` (pcq), `C138_shift` (pcq), `C138_start` (pcq), `C138_origin` (pcq), `C138_step_size` (pcq)
  - `Verif/Props/RescaleACO.lean`: `C138_ants` (pcq)
  - `Verif/Props/SAMap.lean`: `C138_move` (pcq), `C138_annealing` (pcq), `C138_annealing_default` (pcq)
* **C139 Statistics and gradient steps shared by processes** (proved). Real numbers instead of float32/float64; only axis 0; Allreduce and Bcast are taken to do what MPI specifies. mpi_adam.py and mpi_running_mean_std.py import shared.tf_util, which does not exist under that name. Defects: the running standard deviation has an absolute floor of 1/10; parameters that differ between processes go unnoticed for up to a hundred updates and stay different.
  - `Verif/Props/Mpi.lean`: `C139_moments` (pcq), `C139_distribution` (pcq), `C139_zero_spread` (pcq), `C139_running` (pcq), `C139_running_order` (pcq), `C139_floor` (pcq), `C139_adam` (pcq), `C139_bias_corrected` (pcq), `C139_sync` (pcq), `C139_drift` (pcq), `C139_checked` (pcq)
* **C140 Which environments pass check_env** (proved). Python types are names, contains is a function, rendering leaves the state alone. Defects: only the first step is compared with the spaces, nan and inf refuse nothing, the environment is stepped after the end of an episode, numpy scalars are refused.
  - `Verif/Props/EnvCheck.lean`: `C140_accepted` (pcq), `C140_good_accepted` (pcq), `C140_warn` (pcq), `C140_nan_accepted` (pcq), `C140_stepped_after_end` (pcq), `C140_numpy_refused` (pcq), `C140_first_step_only` (pcq), `C140_warnings` (pcq), `C140_silent` (pcq)
* **C141 Order of the variables, variables without influence** (proved). Every variable keeps its random draws (in the program a seeded generator hands them out in listing order, so equality is in distribution). Integer variables only with int_transform=nearest_int (PSO: continuous only; SA: any). ACO: for runs that complete. Defect: with minmax and sigmoid the repair of an integer depends on the other variables and on their order.
  - `Verif/Props/Reorder.lean`: `C141_same_problem` (pcq), `C141_listing` (pcq), `C141_rounding` (pcq), `C141_minmax` (pcq)
  - `Verif/Props/ReorderACO.lean`: `C141_ants` (pcq)
  - `Verif/Props/SAMap.lean`: `C141_move` (pcq), `C141_annealing` (pcq)
* **C142 More generations, and runs continued from the last population** (proved). Same random draws in both runs. DE, JAYA and CS: integers only with int_transform=nearest_int (the annealing parameter of the other transforms depends on ngen). PSO: speed_mech constric or globw. DE better: without RL-informed individuals. Defects with witnesses: C142_lost (JAYA, PSO, GWO, WOA, SSA, MFO continued from last_pop), C142_worse (PSO timew, GWO, WOA, SSA, MFO with one more generation).
  - `Verif/Props/Longer.lean`: `C142_longer_de` (pq), `C142_better_de` (pcq), `C142_longer_jaya` (pcq), `C142_longer_cs` (pcq), `C142_longer_pso` (pcq), `C142_longer_es` (pcq), `C142_continue_de` (pq), `C142_continue_cs` (pcq), `C142_longer_aco` (pcq), `C142_longer_xnes` (pcq), `C142_lost` (pcq), `C142_worse` (pcq)
* **C143 A run depends on the fitness only through the evaluations it makes** (proved). The fitness is a function (deterministic). The recorded points are the ghost log of each model (HHO: early ++ lastDives; BAT: log0 ++ log; ES: the initial population and log). SA: bounds in order. Only for runs that complete.
  - `Verif/Props/Local.lean`: `C143_reads` (pq), `C143_reads` (pq), `C143_reads` (pq), `C143_reads` (pq), `C143_reads` (pq), `C143_reads` (pq), `C143_reads` (pq), `C143_reads` (pcq), `C143_reads` (pcq), `C143_reads` (pcq), `C143_reads` (pq), `C143_reads` (pq), `C143_reads` (pcq), `C143_reads` (pq), `C143_reads` (pcq), `C143_replay` (p), `C143_adversary` (0), `C143_no_certificate` (pcq)
  - `Verif/Props/LocalMore.lean`: `C143_reads` (pq), `C143_reads` (pq), `C143_reads` (pcq), `C143_reads` (pcq)
* **C144 The number of processes does not change a run** (proved). joblib.Parallel is an external library: its documented behaviour (at most n_jobs calls at a time, started in the order of the list, results in that order, an exception of a call is raised) is modelled as a transition system, not its implementation. The fitness is a function of its argument: a fitness with state, or one that changes its argument, is not covered, since workers get copies. The random draws of the SA chains are given per chain; how worker processes are seeded is not modelled. DE: generation loop; PSO: generation loop, not the evaluation of the initial swarm; SA: the chains of one generation.
  - `Verif/Props/Parallel.lean`: `C144_same` (pcq), `C144_error` (pcq), `C144_fails` (pcq), `C144_once` (pcq), `C144_no_deadlock` (0), `C144_ends` (pq), `C144_eval` (pcq), `C144_de` (pcq), `C144_pso` (pcq), `C144_sa` (pcq)
* **C145 Which steps the video recorder shows** (proved). A picture is represented by the step at which it is taken; the gym recorder that writes the file is not modelled. C145_zero_length, C145_reset_cuts, C145_same_name and C145_every_other are defects.
  - `Verif/Props/VideoRec.lean`: `C145_files` (pcq), `C145_covered` (pcq), `C145_order` (pcq), `C145_close` (p), `C145_complete` (pcq), `C145_no_overlap` (pcq), `C145_zero_length` (pcq), `C145_reset_cuts` (p), `C145_same_name` (p), `C145_every_other` (pcq)
* **C146 Parameter noise of DQN** (proved). A session run has no order between outputs and updates: every reading may come before or after the assignment and the theorems hold for all choices. The online network, the greedy action, the divergence and the ends of episodes are arbitrary. C146_first and C146_no_exploration state defects.
  - `Verif/Props/ParamNoise.lean`: `C146_filter` (pcq), `C146_layers` (pcq), `C146_episode` (pq), `C146_first` (pq), `C146_greedy` (pq), `C146_scale` (pcq), `C146_threshold` (pq), `C146_adapts` (pcq), `C146_no_exploration` (pq)
* **C147 Products of tensors and matrices in ACKTR** (proved). Tensors of any number of dimensions with transposition and reshaping in row-major order. C147_matrices records that reduce_dim is ignored for two matrices, C147_square that non-square matrices fail.
  - `Verif/Props/Gmatmul.lean`: `C147_left` (pcq), `C147_right` (pcq), `C147_back_left` (pcq), `C147_back_right` (pcq), `C147_matrices` (pcq), `C147_refused` (pcq), `C147_square` (pcq), `C147_eigenvalues` (pcq)
* **C148 Statistics of convolutions in ACKTR** (proved). Convolutions without padding in the format NHWC; kernels with a bias, without blockdiag_bias and channel_fac as ACKTR uses them. C148_exact states the assumptions under which the approximation is the Fisher matrix.
  - `Verif/Props/ConvStats.lean`: `C148_convolution` (pcq), `C148_inside` (pcq), `C148_gradient` (pcq), `C148_factors` (pcq), `C148_product` (pcq), `C148_exact` (pcq), `C148_t2` (pcq), `C148_dense` (pcq), `C148_positive` (pcq)
* **C149 The pipeline of wrap_deepmind** (proved). The wrappers of wrap_deepmind on top of each other over an arbitrary game, all sixteen settings. Frames are grey (the conversion in WarpFrame is commented out), memory sharing of LazyFrames is left out. C149_dark is a defect.
  - `Verif/Props/DeepMind.lean`: `C149_reset` (pcq), `C149_episode` (pcq), `C149_restart` (pq), `C149_force` (pq), `C149_input` (pcq), `C149_dark` (pcq), `C149_commute` (pq)
* **C150 Trajectory segments** (proved). A yielded dictionary is modelled by its values at the yield; in the code the arrays are reused for the next segment. Environment, policy, reward giver and callback are parameters.
  - `Verif/Props/TrajSeg.lean`: `C150_segments` (pcq), `C150_cover` (pcq), `C150_horizon` (pcq), `C150_episode` (pcq), `C150_stop` (pcq), `C150_errors` (pcq)
* **C151 Mutation in the genetic tuner** (proved). The powers of the polynomial step are parameters except in C151_direction. The class GATUNE is not reached from scripts.py. C151_int, C151_frozen and C151_grid_float are defects.
  - `Verif/Props/GATune.lean`: `C151_int` (pq), `C151_int_ok` (pq), `C151_float` (pcq), `C151_grid` (pq), `C151_grid_reach` (pq), `C151_grid_float` (pcq), `C151_each` (pcq), `C151_frozen` (pcq), `C151_direction` (pcq)
* **C152 The start of the animorphic ensemble** (proved). The sizes of the optimizers and the sampled positions are parameters; how the populations evolve and exchange individuals is in C40-C42.
  - `Verif/Props/AEOStart.lean`: `C152_sizes` (pcq), `C152_given` (pq), `C152_dropped` (pcq), `C152_run` (pcq), `C152_names` (pcq)
* **C153 Which logger is current, and where it writes** (proved). Opening a file for writing empties it; what the formats write is in C117.
  - `Verif/Props/LogConf.lean`: `C153_open` (pcq), `C153_scope` (pq), `C153_closed` (pq), `C153_reset` (pq), `C153_unknown` (pq), `C153_ranks` (pcq), `C153_shared` (pq), `C153_default` (pcq), `C153_files` (pcq), `C153_leak` (pq)
* **C154 Seeds and log files of the environments made** (proved). The environments are arbitrary; what seeding does to the environments of this package is in C134.
  - `Verif/Props/MakeEnv.lean`: `C154_vec` (pcq), `C154_distinct` (pcq), `C154_atari` (pcq), `C154_mujoco` (pcq)
* **C155 Orthogonal initial weights** (proved). Exact arithmetic; numpy's reduced singular value decomposition is assumed to give factors of the documented shapes with orthonormal columns and rows. The conversion to float32 is left out.
  - `Verif/Props/Ortho.lean`: `C155_dense` (pcq), `C155_conv` (pcq), `C155_signal` (pcq), `C155_shapes` (pq)
* **C156 Formats and bias of convolutional layers** (proved). tf.nn.conv2d is a parameter promised to give four dimensions with the filters as channels (its values are in the model ConvStats); broadcasting is modelled.
  - `Verif/Props/ConvLayer.lean`: `C156_bias` (pcq), `C156_width` (pcq), `C156_refused` (p), `C156_filters` (pcq)

## 7. How the theorems were tested

`seeded/LOG.jsonl` has one line per wrong program: a definition of the model was edited in a scratch copy the way a programmer might get it wrong (boundary, sign, swapped argument, missing
update, wrong index), the property files were rebuilt, and the theorems that no longer check were recorded. Edits that every theorem survived although the English claim had become
false led to the theorems listed under `tightened`.

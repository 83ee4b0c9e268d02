{"id": "C01", "title": "Bound repair puts every vector inside the box", "statement": "Whatever vector an optimiser proposes, the bound-repair step every NEORL optimiser applies returns a vector of the same length whose i-th entry lies in [lb_i, ub_i], leaves entries already inside untouched, moves no entry further than necessary (nearest point of the box) and is idempotent.", "quantifier": "all vectors and all boxes with lb_i <= ub_i", "why_tests_cant": "The claim is about every vector of every length and every box, including coordinates exactly on a bound, which random tests almost never generate; minimality of the correction cannot be observed from outputs alone.", "anchors": ["neorl/evolu/de.py:DE.ensure_bounds", "neorl/evolu/gwo.py:GWO.ensure_bounds", "neorl/rl/make_env.py:BaseEnvironment.ensure_bounds"]}
{"id": "C02", "title": "Discrete repair returns an integer inside the bounds", "statement": "For every int_transform method, every real value, every random draw and every anneal factor, if the discrete repair returns at all then it returns an integer with lb <= value <= ub.", "quantifier": "all x, x_min, x_max, lb <= ub, alpha, methods and draws", "why_tests_cant": "Out-of-range integers come only from rare combinations of a flip draw, a value at a bound and the method; a sample of draws does not exclude them.", "anchors": ["neorl/evolu/discrete.py:mutate_discrete"]}
{"id": "C03", "title": "Discrete repair never crashes on repaired input, except on a degenerate range", "statement": "Given an input inside [lb, ub] the discrete repair raises only when the method is sigmoid/minmax, a flip is requested and lb = ub; out-of-range input with a requested flip raises as well. nearest_int never raises.", "quantifier": "all inputs, methods, draws", "why_tests_cant": "Whether the function raises depends on a draw that requests a flip together with a one-point range; tests rarely hit both, and an 'only when' claim needs every input.", "anchors": ["neorl/evolu/discrete.py:mutate_discrete"]}
{"id": "C04", "title": "nearest_int is truncation, not rounding", "statement": "The method called nearest_int maps x to the integer obtained by dropping the fractional part, so the result can be almost 1 away from x and is the nearest integer only when the fractional part is at most one half; the upper bound of a range is produced only from values that reach it.", "quantifier": "all real inputs", "why_tests_cant": "A test on integer-valued or small-fraction inputs passes for rounding and truncation alike.", "anchors": ["neorl/evolu/discrete.py:mutate_discrete"]}
{"id": "C05", "title": "Grid encoding round-trips", "statement": "Encoding a valid individual with categorical (grid) variables to integers and decoding gives back the same individual; decoding any in-range integer vector and encoding gives back the vector when grid values are pairwise different; the encoded bounds contain exactly the indices of the grid values.", "quantifier": "all search spaces and all individuals accepted by the validity check", "why_tests_cant": "There are unboundedly many spaces and individuals, and duplicates inside a grid break the round trip only for the later copies.", "anchors": ["neorl/evolu/discrete.py:encode_grid_to_discrete", "neorl/evolu/discrete.py:decode_discrete_to_grid", "neorl/evolu/discrete.py:encode_grid_indv_to_discrete"]}
{"id": "C06", "title": "Initial-guess check accepts exactly the members of the space", "statement": "The check applied to user supplied individuals accepts x iff every categorical entry is one of the listed values, every int entry is an integer inside its closed range and every float entry is inside its closed range.", "quantifier": "all individuals and spaces", "why_tests_cant": "An iff over all individuals and spaces: tests of accepted and rejected samples cannot show that nothing else is accepted or rejected.", "anchors": ["neorl/utils/tools.py:check_mixed_individual"]}
{"id": "C07", "title": "DE evaluates only feasible points", "statement": "Every point DE hands to the fitness function lies in the box, with integer values in the int dimensions when int_transform is nearest_int, whatever F, CR and the draws.", "quantifier": "all draws, F, CR, populations, generations", "why_tests_cant": "Infeasible points arise only for particular draws of F, CR and donors; a run that stays inside the box says nothing about other seeds, bounds or fitness landscapes.", "anchors": ["neorl/evolu/de.py:DE.evolute", "neorl/evolu/de.py:DE.fit_worker"]}
{"id": "C08", "title": "DE selection is greedy and its best-so-far history never gets worse", "statement": "In every generation each slot of the population keeps the better of target and trial; with nearest_int the stored score of every slot never decreases from one generation to the next, so the recorded per-generation best never gets worse and the returned best is at least every score ever recorded for a survivor.", "quantifier": "all generations and draws", "why_tests_cant": "Monotonicity over all generations is an invariant of every run; a seeded run can be monotone by luck, and the sigmoid methods break it only for rare draws.", "anchors": ["neorl/evolu/de.py:DE.evolute"]}
{"id": "C09", "title": "DE returned individual matches the returned fitness", "statement": "The returned fitness is the user fitness of the returned individual (min and max mode).", "quantifier": "all runs", "why_tests_cant": "A value attached to the wrong individual is usually close to the right one at the end of a run, so comparing one result with a tolerance misses it.", "anchors": ["neorl/evolu/de.py:DE.evolute"]}
{"id": "C10", "title": "ES selection keeps the k best in order", "statement": "The survivor selection returns min(k, n) individuals in non-increasing fitness order, a sub-multiset of the population, and no discarded individual is strictly better than a kept one; ties keep the earlier one.", "quantifier": "all populations and k", "why_tests_cant": "Stability and optimality of the selection matter only with ties and for every k; a test fixes a few populations.", "anchors": ["neorl/evolu/es.py:ES.select", "neorl/evolu/crossover.py:select"]}
{"id": "C11", "title": "Two-point crossover is a positional exchange", "statement": "Two-point crossover returns offspring of the same length such that at every position the offspring hold the two parents' values in one of the two orders, with the same positions exchanged in the strategy vector; position 0 is never exchanged and at least one position is exchanged.", "quantifier": "all parents of length >= 2 and all cut points the draws can give", "why_tests_cant": "The two cut points are random and must be handled for every pair, in every length, in two vectors at once.", "anchors": ["neorl/evolu/crossover.py:cxES2point", "neorl/evolu/es.py:ES.GenOffspring"]}
{"id": "C12", "title": "Blend crossover conserves the sum of the parents", "statement": "Blend crossover keeps, at each position, the sum of individuals and of strategies, for every alpha and draw; with alpha = 0 children lie between the parents.", "quantifier": "all parents, draws, alpha", "why_tests_cant": "An algebraic identity over all real parents, alphas and draws; a test compares a few floating point sums.", "anchors": ["neorl/evolu/crossover.py:cxESBlend"]}
{"id": "C13", "title": "ES strategy vectors and individuals stay in range", "statement": "After every generation each ES strategy entry lies in [smin, smax]; every offspring produced by mutation lies inside the box. A mutation displaces every continuous coordinate by its new strategy times a Gaussian number, multiplies the odds of the strategy of every integer coordinate by a positive factor and mirrors it into [smin, smax], and gives the coordinate another value of its range exactly when a uniform number is below the new strategy; these rules determine the result up to the choice of that value. From every feasible point every other one can be reached by one mutation. Defect: the step is taken before the strategy is limited, so smax does not bound it.", "quantifier": "all draws and generations", "why_tests_cant": "Leaving the range needs an extreme Gaussian draw, which a seeded run does not contain.", "anchors": ["neorl/evolu/es.py:ES.mutES", "neorl/evolu/es.py:ES.GenOffspring"]}
{"id": "C14", "title": "ES returns the best offspring ever evaluated", "statement": "The fitness ES returns is the best over all offspring evaluated in all generations and belongs to the returned individual; the initial population is not counted (a run can return something worse than a user-supplied start).", "quantifier": "all runs", "why_tests_cant": "That no better offspring was ever dropped is a statement about all evaluated points of all runs; the lost start shows only when the first offspring are all worse.", "anchors": ["neorl/evolu/es.py:ES.evolute"]}
{"id": "C15", "title": "PSO global best dominates everything evaluated", "statement": "The fitness PSO returns is the best of all positions ever evaluated (initial swarm included), equals the fitness of the returned position, and each particle memory is its best; the recorded history never gets worse.", "quantifier": "all swarms, draws, generations", "why_tests_cant": "A best memory that lags by one evaluation returns the same result in almost every run; only an invariant over all evaluations separates the two.", "anchors": ["neorl/evolu/pso.py:PSO.evolute"]}
{"id": "C16", "title": "GWO keeps the three best in order", "statement": "At every time alpha <= beta <= delta (minimisation), alpha is the minimum of everything evaluated, its position has that fitness, and the recorded history never gets worse.", "quantifier": "all packs, draws, generations", "why_tests_cant": "The order of the three leaders must survive every sequence of evaluations, ties included; tests look only at the first leader.", "anchors": ["neorl/evolu/gwo.py:GWO.evolute"]}
{"id": "C17", "title": "WOA returns the best whale ever evaluated", "statement": "The returned fitness is the minimum over the initial and all later evaluations and the fitness of the returned position; evaluation count is nwhales*(ngen+1); history never gets worse.", "quantifier": "all runs", "why_tests_cant": "The history and the result agree in most runs even when an evaluation is skipped; the claim is about every fitness function and draw.", "anchors": ["neorl/evolu/woa.py:WOA.evolute"]}
{"id": "C18", "title": "SSA returns the best salp ever evaluated", "statement": "As C17 for SSA, and every evaluated position lies in the box.", "quantifier": "all runs", "why_tests_cant": "The history and the result agree in most runs even when an evaluation is skipped; leaving the box needs particular draws of the leader update.", "anchors": ["neorl/evolu/ssa.py:SSA.evolute"]}
{"id": "C19", "title": "BAT best is the best evaluation after initialisation", "statement": "The BAT best fitness is the minimum of all three per-generation evaluation stages over all generations, monotone, and matches the returned bat; the initial evaluation is not counted.", "quantifier": "all runs", "why_tests_cant": "Three evaluation stages update one incumbent; skipping one of them changes the result only when exactly that stage found the best point.", "anchors": ["neorl/evolu/bat.py:BAT.evolute"]}
{"id": "C20", "title": "HHO returned best versus evaluated points", "statement": "The HHO result is the minimum over start-of-generation evaluations and matches its position, but rapid-dive evaluations of the last generation are never recorded, so a strictly better evaluated point can be lost.", "quantifier": "all runs", "why_tests_cant": "The lost point must be found by a dive of the very last generation, which a test run contains by chance only.", "anchors": ["neorl/evolu/hho.py:HHO.evolute"]}
{"id": "C21", "title": "JAYA is greedy per row and returns the best evaluated", "statement": "Every JAYA row never gets worse, the result is the best of all evaluations and matches the returned position; but the individual treated as the worst is the initial worst slot forever.", "quantifier": "all runs", "why_tests_cant": "The frozen worst index gives plausible runs; that it never changes is a statement about every run.", "anchors": ["neorl/evolu/jaya.py:JAYA.evolute"]}
{"id": "C22", "title": "MFO flames are the sorted best of previous moths and flames", "statement": "Flames are always sorted, flame count is between 1 and nmoths and decreases with the generation, indexing is safe and the returned best is the minimum of all evaluated moths.", "quantifier": "all runs", "why_tests_cant": "Flame count, order and index safety must hold for every number of moths and generations, including those where rounding makes the count jump.", "anchors": ["neorl/evolu/mfo.py:MFO.evolute"]}
{"id": "C23", "title": "Cuckoo search result", "statement": "Cuckoo search best is monotone; but a returned nest can lie outside the box although its reported fitness is that of the repaired nest.", "quantifier": "all runs", "why_tests_cant": "A nest outside the box is returned only when a clamped evaluation wins; the reported fitness looks right.", "anchors": ["neorl/evolu/cs.py:CS.evolute"]}
{"id": "C24", "title": "ACO archive stays sorted, bounded and elitist", "statement": "The archive keeps its size, stays sorted, keeps the best solution found and never loses a better one to a worse one.", "quantifier": "all runs", "why_tests_cant": "Elitism and order are invariants over all generations, archive sizes and ties.", "anchors": ["neorl/evolu/aco.py:ACO.evolute"]}
{"id": "C25", "title": "SA chain accounting and best tracking", "statement": "Each chain makes exactly the requested number of evaluations on consecutive step indices, accepted + rejected equals the number of steps, improved <= accepted, an improving move is always accepted, the chain best is the best of its evaluated states and never lost; parallel chains cover the step range without gap or overlap.", "quantifier": "all chains, draws, temperatures", "why_tests_cant": "The step ranges of the cores must tile the total for every number of cores and steps; the counters agree in simple runs even if a branch is miscounted.", "anchors": ["neorl/evolu/sa.py:SA.chain_object", "neorl/evolu/sa.py:SA.chain"]}
{"id": "C26", "title": "Tabu search swaps keep a permutation and each iteration terminates", "statement": "Every swap move applied to a permutation yields a permutation, applying it twice restores the tour, all candidate moves are enumerated exactly once and the inner candidate loop ends after at most as many rounds as there are candidates.", "quantifier": "all tours and tabu states", "why_tests_cant": "Termination of the candidate loop depends on the tabu list and the aspiration test for every tour length; a hanging run is not a failing test.", "anchors": ["neorl/evolu/ts.py:TS"]}
{"id": "C27", "title": "XNES utilities are a zero-sum ranking", "statement": "The XNES utility weights sum to zero, the best-ranked sample never gets a smaller weight than a worse-ranked one; every sample evaluated is inside the box; the best is monotone.", "quantifier": "all population sizes and draws", "why_tests_cant": "Zero sum and order of the weights hold for every population size; a test compares a few floats.", "anchors": ["neorl/evolu/xnes.py:XNES"]}
{"id": "C28", "title": "Non-dominated sorting partitions the population by rank", "statement": "The standard multi-objective sort puts every individual in exactly one front; the index of the front of an individual is the length of the longest chain of individuals dominating it; nobody in a front dominates a member of the same front and each member of front i+1 is dominated by a member of front i.", "quantifier": "all populations, any number of objectives, duplicates included", "why_tests_cant": "Ranks by dominance chains must be right for every population, including duplicates and ties in some objectives.", "anchors": ["neorl/multi/tools.py:sortNondominated", "neorl/multi/tools.py:isDominated"]}
{"id": "C29", "title": "The divide-and-conquer sort gives the same fronts", "statement": "For two or more objectives the log-complexity sort returns the same fronts as the standard sort.", "quantifier": "all populations and objective counts >= 2", "why_tests_cant": "The recursion explores combinatorially many split patterns; tests sample few.", "anchors": ["neorl/multi/tools.py:sortLogNondominated", "neorl/multi/tools.py:sortNDHelperA", "neorl/multi/tools.py:sortNDHelperB", "neorl/multi/tools.py:splitA", "neorl/multi/tools.py:splitB", "neorl/multi/tools.py:sweepA", "neorl/multi/tools.py:sweepB"]}
{"id": "C30", "title": "NSGA-II survivor selection is elitist", "statement": "NSGA-II selection returns exactly min(k, n) survivors, takes whole fronts in order and cuts the last one by crowding distance; nobody kept is dominated by somebody dropped; when k is at least twice the number of objectives a best individual of every objective survives.", "quantifier": "all populations and k", "why_tests_cant": "Elitism fails only for particular crowding ties at the cut; the condition on k relative to the number of objectives is invisible in a sample.", "anchors": ["neorl/multi/nsgaII.py:NSGAII.select"]}
{"id": "C31", "title": "Crowding distance", "statement": "Crowding distances are non-negative, extremes of every objective get infinite distance, and interior distances are the sum of normalised neighbour gaps.", "quantifier": "all fronts", "why_tests_cant": "Extremes with ties, zero ranges and fronts of one or two members have to be right for every front.", "anchors": ["neorl/multi/tools.py:assignCrowdingDist"]}
{"id": "C32", "title": "Reference points lie on the unit simplex", "statement": "The uniform reference points for NSGA-III have non-negative coordinates summing to 1, their number is C(p+m-1, m-1), and they are pairwise different.", "quantifier": "all objective counts m >= 1 and divisions p >= 1", "why_tests_cant": "The count is a binomial identity over all p and m, and distinctness a statement about all pairs.", "anchors": ["neorl/multi/tools.py:uniform_reference_points"]}
{"id": "C33", "title": "NSGA-III niching picks exactly k distinct individuals", "statement": "Niching returns exactly k distinct members of the last front whenever the front has at least k, and terminates.", "quantifier": "all niche counts, distances and draws", "why_tests_cant": "Termination and the exact number depend on random niche choices; a test sees one sequence of shuffles.", "anchors": ["neorl/multi/tools.py:niching"]}
{"id": "C34", "title": "Replay buffer is a FIFO ring", "statement": "After any sequence of adds and extends the buffer holds exactly the last min(n, capacity) transitions, overwriting the oldest first.", "quantifier": "all capacities > 0 and operation sequences", "why_tests_cant": "The ring has to be right for every history of adds and extends across every wrap-around.", "anchors": ["neorl/rl/baselines/shared/buffers.py:ReplayBuffer"]}
{"id": "C35", "title": "Segment tree range reduction", "statement": "After any sequence of writes, reading returns the last written value and reducing [start, end) returns the fold of the operation over that slice in order, for any associative operation with neutral element.", "quantifier": "all power-of-two capacities, write sequences and ranges", "why_tests_cant": "The reduction must equal a fold for every capacity, slice and operation, commutative or not; tests use sums of small arrays.", "anchors": ["neorl/rl/baselines/shared/segment_tree.py:SegmentTree"]}
{"id": "C36", "title": "Prefix-sum search finds the right slot", "statement": "For non-negative stored values and a query 0 <= s < total the returned index i satisfies sum_{j<i} a_j <= s < sum_{j<=i} a_j, so an index with zero priority is never returned.", "quantifier": "all trees and queries", "why_tests_cant": "The right slot must be found for every priority vector and every real query, also at the exact boundaries between slots.", "anchors": ["neorl/rl/baselines/shared/segment_tree.py:SumSegmentTree.find_prefixsum_idx"]}
{"id": "C37", "title": "Prioritised replay", "statement": "In every history of adds, updates and extends (batches smaller than the buffer) the priority trees agree with the stored transitions. A new transition gets (largest priority ever given, at least 1)^alpha in the slot it is written to, and extend gives that to exactly the slots of its batch. update_priorities succeeds exactly when some index is given, all priorities are positive and all indices are stored; a slot then holds its last given priority^alpha and the other slots keep theirs. Stored slot i other than the last is sampled exactly by the draws of an interval of length p_i/(p_0+...+p_{len-2}); only stored transitions are returned, and slot i gets the importance weight (p_i/sum*len)^-beta divided by that of the least stored priority, which lies in (0,1]. Defects: the last stored slot is never sampled, a buffer with a single element cannot be sampled (endless recursion), and extending by a multiple of the capacity sets no priority.", "quantifier": "all buffer sizes, histories of operations, priorities, batches, draws, and positive power functions", "why_tests_cant": "The agreement of two trees with a ring buffer is an invariant over histories with wrap-around; the sampling law is a statement about every draw, of which a test can only estimate frequencies.", "anchors": ["neorl/rl/baselines/shared/buffers.py:PrioritizedReplayBuffer (146-264)", "neorl/rl/baselines/shared/segment_tree.py:SumSegmentTree, MinSegmentTree"]}
{"id": "C38", "title": "Hindsight replay relabelling", "statement": "Relabelled transitions use an achieved goal of the same episode (future strategy: of a strictly later step) and recompute the reward for it; the originals are stored unchanged.", "quantifier": "all episodes and draws", "why_tests_cant": "Future goals depend on random indices inside every episode; an off-by-one shows only when the last step is drawn.", "anchors": ["neorl/rl/baselines/deepq/replay_buffer.py"]}
{"id": "C39", "title": "Experience memory of PESA", "statement": "The memory never exceeds its size, never stores an identical sample twice, greedy sampling returns the best stored samples in order, rank priorities are positive, decreasing and sum to one, and a uniform number u draws rank k exactly when u lies between the sums of the first k and the first k+1 priorities, always an existing rank. Defects: after greedy sampling the overwrite order is no longer oldest-first, so a best sample can be overwritten; every draw reseeds numpy with 1, so a smaller sample is a prefix of a larger one and the ranks drawn depend only on the number of stored samples.", "quantifier": "all operation histories", "why_tests_cant": "The overwrite order after a sort only matters when the ring is full; the invariants range over every history of operations.", "anchors": ["neorl/hybrid/pesacore/er.py:ExperienceReplay (26-143)"]}
{"id": "C40", "title": "AEO binomial coefficient and migration matrix", "statement": "The AEO combination function is the binomial coefficient for 0 <= r <= n; every column of the migration matrix sums to one and its entries have the closed form kd + (scale - kd)*h; schedules run between their end values; strengths lie in [0,1] and the export weights are valid probabilities for legal options.", "quantifier": "all population counts, strengths, parameters", "why_tests_cant": "The closed form of the binomial mean holds for every population size and probability; a test compares a handful of floating point sums and would not notice a schedule leaving [0,1] for one cycle count.", "anchors": ["neorl/hybrid/aeo.py"]}
{"id": "C41", "title": "AEO migration conserves individuals", "statement": "A migration step neither loses nor duplicates individuals: the multiset of members over all populations is unchanged; over whole runs the head count never changes, the bookkeeping of every population matches its members, and the returned pair is the best of everything evaluated by any algorithm in any cycle. With weights the emigrants are drawn from a ranking with strictly increasing probabilities summing to one, in which the best members are the likeliest to leave for order 'wb', the first half of 'awb' and the second half of 'abw', and the worst otherwise.", "quantifier": "all populations, allotments and draws", "why_tests_cant": "Needs an invariant over every sequence of binomial, choice, shuffle and multinomial draws, every order option and every number of cycles, for all nine algorithms.", "anchors": ["neorl/hybrid/aeo.py:Population"]}
{"id": "C42", "title": "AEO annealing schedules join up", "statement": "The annealed parameter lists used in consecutive cycles concatenate to one uniform ramp from the first to the last value over the whole run.", "quantifier": "all cycle and generation counts", "why_tests_cant": "The pieces join for every number of cycles and generations per cycle; a test fixes both and compares floats.", "anchors": ["neorl/hybrid/aeo.py:get_algo_annealed_kwargs"]}
{"id": "C43", "title": "AEO evaluation budget formula", "statement": "The formula AEO uses to convert generations to evaluations equals the number of fitness calls made by each ensemble algorithm (false for WOA; upper bound false for HHO).", "quantifier": "all population sizes and generation counts", "why_tests_cant": "Counting calls in one run cannot show that a formula is exact for every size, generation count and fitness function, nor that a claimed upper bound holds.", "anchors": ["neorl/hybrid/aeo.py:get_algo_ngtonevals"]}
{"id": "C44", "title": "EDEV: sub-populations partition the population, individuals never get worse, the result is the best evaluated point", "statement": "In every generation the three index lists contain every individual exactly once, two of them with slice = npop//10 members and the rewarded one with the rest. Stored values belong to the stored individuals, no individual gets worse, the returned point is the best one evaluated in the generations (and of all evaluations with nearest_int), each history entry is the best so far, only feasible points are evaluated, and the number of evaluations lies between stated bounds. The archive never exceeds its capacity and holds no vector twice. In every generation the record of each variant grows by the total improvement of exactly the individuals it was given, restarting every ng generations, and the variant with the largest record per evaluation gets the large group. The vector EPSDE's first strategy starts from is always an evaluated point with its own value, never gets worse, and is at least as good as every individual EPSDE improved. Defects: JADE's adaptive means never move, archived values belong to the offspring, the forced crossover component is misplaced, a better point found by the second evaluation of the third group is lost, and EPSDE always gets the large share in the first period.", "quantifier": "all fitness functions, both modes, all starts of the right shape, all populations >= 70, ng < ngen and all draws", "why_tests_cant": "A random regrouping happens in every generation; a lost or doubled individual or a value attached to the wrong row would only show up as slightly worse optimisation, which no assertion on one seeded run can distinguish from bad luck.", "anchors": ["neorl/hybrid/edev.py:evolute (205-663)", "neorl/hybrid/edevcore/helpers.py:ARCHIVE (201-225)"]}
{"id": "C45", "title": "EDEV mutation index generator returns distinct valid indices", "statement": "The donor indices drawn for individual i are inside the population, pairwise different and different from i; the first member other than i is never drawn and every other one can be. The bound on the size is sharp: with one member fewer the last draw always raises. gnR1R2 returns valid indices that differ from each other and from i (member 0 never), randFCR returns rates in [0, 1] and scale factors in (0, 1]: each member gets its first positive draw, capped at one.", "quantifier": "all sizes, individuals and draws", "why_tests_cant": "Index clashes have probability of order 1/size per draw and the excluded first member has no visible effect in one run; only a statement over all draws shows that a donor can never repeat and that one member can never be picked.", "anchors": ["neorl/hybrid/edevcore/helpers.py:generator (45-133)", "neorl/hybrid/edevcore/helpers.py:gnR1R2 (139-169)", "neorl/hybrid/edevcore/helpers.py:randFCR (171-192)"]}
{"id": "C46", "title": "RL environment only evaluates feasible actions", "statement": "For any action the RL environment passes to the user's fitness a point inside the box with integers in int dimensions and listed values in grid dimensions; the reward is the fitness (negated in min mode) of the reported x; an episode ends exactly every episode_length steps.", "quantifier": "all actions, spaces, step/reset histories", "why_tests_cant": "Feasibility must hold for every action an untrained agent may emit, in every mixed space; tests step a few sampled actions.", "anchors": ["neorl/rl/make_env.py:BaseEnvironment"]}
{"id": "C47", "title": "Normalised action map is an affine bijection", "statement": "The action map sends [lb_norm, ub_norm] onto [lb, ub] monotonically, end points to end points; multidiscrete decode is a bijection onto the integer box.", "quantifier": "all actions and ranges", "why_tests_cant": "Bijectivity is a statement about all actions and all boxes.", "anchors": ["neorl/rl/make_env.py:action_map", "neorl/rl/make_env.py:convert_multidiscrete_actions"]}
{"id": "C48", "title": "Running mean and variance equal batch statistics", "statement": "Folding batches through the running statistics gives the same mean, variance and count as the pooled data (initial pseudo-count treated as data), independent of how the stream is split.", "quantifier": "all streams and splits", "why_tests_cant": "Equality of the streamed and the pooled statistics is an algebraic identity over every stream and every way of cutting it; a test checks a handful of streams up to a tolerance.", "anchors": ["neorl/rl/baselines/shared/running_mean_std.py"]}
{"id": "C49", "title": "Generalised advantage estimation", "statement": "The PPO backward recursion computes the discounted sum of TD errors truncated at episode ends; with lambda = 1 the return is the discounted reward plus bootstrap exactly when the record stops inside the episode, with lambda = 0 the one-step target; nothing after an episode end influences it; flattening keeps the columns aligned.", "quantifier": "all trajectories, done flags, gamma, lambda", "why_tests_cant": "The off-by-one between the done flag on entry and on exit of a step only matters for particular patterns of episode ends; the claim ranges over all of them and over all n_steps.", "anchors": ["neorl/rl/baselines/ppo2/ppo2.py:Runner._run"]}
{"id": "C50", "title": "Discounting utilities", "statement": "discount and discount_with_dones compute the truncated discounted sums; A2C bootstraps with the last value exactly when the last step is not terminal.", "quantifier": "all reward/done lists", "why_tests_cant": "The claim compares a backward loop with a closed sum for every length and every pattern of done flags.", "anchors": ["neorl/rl/baselines/shared/math_util.py:discount", "neorl/rl/baselines/a2c/a2c.py:A2CRunner._run"]}
{"id": "C51", "title": "Schedules", "statement": "LinearSchedule and PiecewiseSchedule interpolate their end points, stay between them, and return the end value afterwards, except that the piecewise schedule returns the outside value at its last end point; the legacy curves start at 1 and do not increase, except double_middle_drop.", "quantifier": "all times and end points", "why_tests_cant": "Continuity, monotonicity and range are statements about every time and every list of end points.", "anchors": ["neorl/rl/baselines/shared/schedules.py"]}
{"id": "C52", "title": "ACER episode buffer", "statement": "ACER buffer keeps the last `size` rollouts and each read returns for every environment one whole rollout stored for that environment.", "quantifier": "all put/get histories", "why_tests_cant": "Alignment of environments and time steps must hold for every number of rollouts and draws; a shuffled dimension still gives arrays of the right shape.", "anchors": ["neorl/rl/baselines/acer/buffer.py:Buffer"]}
{"id": "C53", "title": "Minibatch iteration covers every sample once", "statement": "Iterating a dataset once yields disjoint batches covering the first floor(n/b)*b samples of a permutation of the data, all columns permuted alike. A new dataset and a subset of the first k samples start at the first sample and hold exactly these samples, reordered by one permutation if shuffling is on; at the end of the data the next batch starts over with the first samples, after a reshuffle if shuffling is on.", "quantifier": "all datasets, batch sizes and permutations", "why_tests_cant": "Coverage without repetition and alignment of the columns is a statement about every permutation, size and batch size, including those that do not divide evenly.", "anchors": ["neorl/rl/baselines/shared/dataset.py:Dataset"]}
{"id": "C54", "title": "Latin hypercube design", "statement": "Each column of the Latin design has exactly one sample in each of the n strata, and samples are inside the bounds.", "quantifier": "all sizes and draws", "why_tests_cant": "The stratification is a statement about every shuffle and every draw; a test sees a few random designs.", "anchors": ["neorl/hybrid/ngacore/Latin.py:latin"]}
{"id": "C55", "title": "EPSO: one strategy per draw, learned probabilities stay positive, results are the best evaluated point, aliasing is harmless", "statement": "Every number in [0,1) selects exactly one of the five velocity strategies; the recorded probabilities sum to one, none falls below 1/505, the first two rows are uniform, a higher success rate gets a higher probability and the counters count every moved particle once. A finished run evaluates g1+g2 feasible points per generation, returns the best evaluated point with its own fitness, keeps best-so-far histories, and every personal best is the best of that particle's own evaluations, although the global best is sometimes a view into the table of personal bests that is overwritten later. In serial runs a generation exploits exactly when more than 90% of the evaluation budget was used; in parallel runs none does. Velocities stay within half the width. Each particle moves by exactly the velocity rule of its strategy (PSO, FDR-PSO with the first neighbour offering most fitness per distance, HPSO with restarted zero velocities, LIPS, CLPSO) with linearly changing coefficients, limited and repaired. Defects: the CLPSO failure counter never resets, HPSO's cap reverses velocities when the upper bound is negative, LP = 0, g2 = 0 and ngen = 0 never return.", "quantifier": "all fitness functions, both modes, all group sizes, learning periods, starts and draws", "why_tests_cant": "The probability of each strategy depends on the whole history of successes, so a gap or overlap between the roulette intervals, or a global best read through an overwritten row, shows only for rare draws; one seeded run cannot tell a starved strategy or a stale position from ordinary search noise.", "anchors": ["neorl/hybrid/epso.py:EPSO.evolute (238-757)", "neorl/hybrid/epso.py:EPSO.UpdateParticles (207-236)"]}
{"id": "C56", "title": "HCLPSO: personal and global bests belong to their positions, exemplars come from friends' personal bests", "statement": "A finished run evaluates g1+g2 feasible points at the start and in every generation; the returned point is the best of those evaluated in the loop with its own fitness, while the internal global best is the best of all, start included, and personal best i is the best of particle i's own evaluations and never gets worse; histories are the best so far and the best of each generation, and velocities stay within 20% of the width. Each coordinate of a rebuilt exemplar is the same coordinate of the particle's own personal best or of a tournament winner among the friends, and at least one comes from a friend. Each velocity is the damped old one plus random pulls towards the exemplar (group 1) or the exemplar and the global best (group 2) with linearly changing coefficients, a particle that improves keeps its exemplar and forgets its failures, and the sixth failure in a row brings a new exemplar. Defects: a better start point is lost, the given start is ignored, in the loop the last particle can never be a friend, a velocity exactly on the limit becomes zero, and ngen = 0 never returns.", "quantifier": "all fitness functions, both modes, all group sizes, starts and draws", "why_tests_cant": "A personal best whose value and position come from different evaluations gives plausible results in any single run; that it cannot happen needs an invariant over all generations and draws.", "anchors": ["neorl/evolu/hclpso.py:HCLPSO.evolute (226-420)", "neorl/evolu/hclpso.py:HCLPSO.UpdateParticles (195-224)"]}
{"id": "C57", "title": "Tuners run the cases they promise and put every score beside the parameters that produced it", "statement": "Grid search: a tuple is run exactly when each entry is a listed value, each once, in mixed-radix order with the last parameter fastest, and their number is the product of the list lengths. Row i of the table carries number i+1, case i and the score of case i (or the failure text with its own number), a raising fitness neither stops the search nor shifts other scores, and the CSV file holds exactly the successful cases in order. Random search: every sampled value lies in its declared range, every integer in the range and every listed value can occur, and usable descriptions never raise. Bayesian search: every row has its own score in both modes and ncores*max(11,ncases) points are reported, if the grid lists parameters in the order of the fitness's arguments. Defects: otherwise its columns are mislabelled; parameters called id or score are overwritten; the documented description format of the random tuner always raises.", "quantifier": "all grids, fitness functions (raising or not), descriptions, draws, core counts", "why_tests_cant": "A misaligned score shows up only for particular failure positions or argument orders, and completeness over every grid shape is a statement about an unbounded product; a test looks at a handful of grids.", "anchors": ["neorl/tune/gridtune.py:GRIDTUNE (30-139)", "neorl/tune/randtune.py:RANDTUNE (32-171)", "neorl/tune/bayestune.py:BAYESTUNE (34-200)"]}
{"id": "C58", "title": "Travelling-salesman and knapsack environments only build valid solutions and report their value", "statement": "TSP: whatever the actions (too large ones are replaced by random valid ones), a call with one action per city reports every city exactly once, its reward is minus the length of a closed tour through all cities built by inserting each city at a cheapest position, best_tour is the maximum of all rewards, and done is reported exactly every episode_length-th call; with one city per call the same holds along the open tour. Knapsack: the reported objects are different, their weight is within the capacity, some further chosen object no longer fits, and the reward is their total value. Exact conditions for not raising are proved for both. Defects: the reported order is not the tour that was scored, the observation of whole-tour calls is always blank, its rows mix cities, tours of length 10**6 raise, partial tours are rewarded for being long, reset in mid-tour corrupts both environments (a knapsack over capacity is accepted), and a knapsack problem in which all but one object fit always raises.", "quantifier": "all maps, objects, capacities, action sequences, draws and numbers of calls", "why_tests_cant": "Validity has to hold for every action sequence of an untrained agent, including invalid actions replaced at random; tests replay a few sequences and cannot see that an over-capacity knapsack or a doubled city is impossible.", "anchors": ["neorl/benchmarks/tsp.py:TSP.step (100-217)", "neorl/benchmarks/tsp.py:TSP.Compute_tour_cost (230-249)", "neorl/benchmarks/kp.py:KP.step (83-172)", "neorl/benchmarks/kp.py:KP._check_weight_cap (195-206)"]}
{"id": "C59", "title": "NSGA-II/III runs and what they report", "statement": "The reported population has lambda_ feasible, evaluated members with their own fitness; the reported front is exactly its non-dominated part; with lambda_ >= 2*objectives NSGA-II never loses the record of an objective. The reported per-objective optimum x, y is the worst of the front instead of the best (maximin over generations in 'max' mode, the last front's in 'min' mode with positive objectives, frozen after the first generation when they are not positive), and right only for one objective in 'max' mode or one positive objective in 'min' mode.", "quantifier": "all spaces, objective functions, draws, population sizes and generations", "why_tests_cant": "The reported optimum has the right shape and plausible values; that it is the worst instead of the best of a front needs the meaning of every comparison over all runs.", "anchors": ["neorl/multi/nsgaII.py:NSGAII.evolute"]}
{"id": "C60", "title": "Population converters", "statement": "Converting a population dict or list to rows keeps every individual with its own fitness, one row each.", "quantifier": "all populations", "why_tests_cant": "Alignment of rows and fitness values must hold for every population size and type mixture.", "anchors": ["neorl/utils/tools.py:get_population", "neorl/utils/tools.py:get_population_nsga"]}
{"id": "C61", "title": "SA cooling schedules behave as schedules", "statement": "The fast schedule starts at Tmax, ends exactly at Tmin after the planned number of steps and is geometric in between; cauchy and boltzmann are positive and strictly decreasing (boltzmann starts above Tmax); the equilibrium update never raises the temperature nor goes below Tmin; the acceptance number is in (0,1] for non-improving moves and grows with temperature.", "quantifier": "all temperatures, steps, rates", "why_tests_cant": "The claims are inequalities over real parameters and all step indices; a test samples a few.", "anchors": ["neorl/evolu/sa.py:SA.temp", "neorl/evolu/sa.py:SA.chain_object"]}
{"id": "C62", "title": "Q-retrace targets of ACER", "statement": "The target of step t is Q(t) plus the discounted sum of temporal difference errors of its episode, each weighted by the product of importance weights truncated at one of the later steps only; a consistent critic is a fixed point.", "quantifier": "all trajectories, weights, done flags, discounts", "why_tests_cant": "The product of truncated weights and the off-by-one between a step and its successor only show on long random trajectories with several episode ends; an example-based test fixes one of them.", "anchors": ["neorl/rl/baselines/acer/acer_simple.py:q_retrace"]}
{"id": "C63", "title": "Grey wolves, whales and hawks encircle the incumbent with a shrinking radius", "statement": "The control parameter falls linearly from its start to (not including) zero. A grey wolf is put, coordinate by coordinate, at the (clipped) mean of three leader positions displaced by at most a(l) times their distance term, and every displacement in that range is attained; a whale moves around the best whale, around another whale only while the parameter exceeds one, or on the spiral, and from half time on no whale follows a random one; a hawk explores only while its escape energy is at least one and otherwise contracts towards the rabbit by the documented formulas. Defect: with a constant objective the second and third grey wolf leaders stay at the origin and pull the pack towards it, wherever the box is.", "quantifier": "all objectives, boxes, pack sizes, numbers of generations and draws", "why_tests_cant": "The shrinking radius is a statement about every generation of every run and every draw; a test with a seed sees one path and accepts a wrong slope or a missing leader because the run still finds a good value.", "anchors": ["neorl/evolu/gwo.py:GWO.evolute (255-320)", "neorl/evolu/woa.py:WOA.UpdateWhales (194-224)", "neorl/evolu/woa.py:WOA.evolute (225-330)", "neorl/evolu/hho.py:HHO.update_hawks (283-324)", "neorl/evolu/hho.py:HHO.exploration (325-347)", "neorl/evolu/hho.py:HHO.surprise_pounce (348-376)", "neorl/evolu/hho.py:HHO.team_rapid_dives (377-446)"]}
{"id": "C64", "title": "Particles, salps and solutions move only by attraction to the best and the documented terms", "statement": "The velocity of a particle is inertia times the old velocity plus bounded nonnegative multiples of the differences to its own best and to the swarm best, the inertia weight is the documented one in every generation, and the position is the old one plus the velocity; a salp of the first half is put at the best one plus or minus c1 times a point of the box, a follower at the middle of itself and its predecessor; a JAYA solution moves by at most its distances to the best and away from the worst. Defects: the keyword w of PSO is used one generation late and its last entry never; the speed mechanism globw has no bounded weight when maximising; the step of the salps is measured from the origin, so in a box far from it every leader is thrown on the border; JAYA uses the modulus, so a solution equal to the best may still move.", "quantifier": "all objectives, boxes, swarm sizes, generations and draws", "why_tests_cant": "An off-by-one in a weight schedule or a lost attraction term still gives plausible histories; only a statement about every generation and draw separates it from the documented update.", "anchors": ["neorl/evolu/pso.py:PSO.UpdateParticle (230-305)", "neorl/evolu/pso.py:PSO.evolute (358-470)", "neorl/evolu/ssa.py:SSA.UpdateSalps (193-219)", "neorl/evolu/jaya.py:JAYA.evolute (190-260)"]}
{"id": "C65", "title": "Cuckoos, bats and ants sample where the documentation says", "statement": "A cuckoo flies from its nest by a Levy step proportional to its distance to the best (the best nest itself stays), then each coordinate of a nest is perturbed by the difference of two nests when its draw exceeds pa. A bat is put at the incumbent plus frequency times the difference of two bats, with frequency between zero and a value falling linearly from fmax to fmin, then near the incumbent with loudness, then with pulse rate. An ant samples each coordinate around the archived ant in whose slice of the weight wheel the draw falls, with deviation Z times the mean distance of that ant to the archive; once the archive agrees in a coordinate all later ants do. Defects: pa is the probability of keeping a coordinate, not of discovery; the Levy jump of a bat is overwritten, so unless the bat samples itself the option levy has no effect on it.", "quantifier": "all objectives, boxes, populations (feasible or reached), generations and draws", "why_tests_cant": "Distributions are not visible in a single run: a swapped probability or an ignored jump gives a run just as plausible. The statements hold for every draw, hence for every distribution.", "anchors": ["neorl/evolu/cs.py:CS.UpdateCuckoos (189-212)", "neorl/evolu/cs.py:CS.evolute (213-330)", "neorl/evolu/bat.py:BAT.evolute (227-390)", "neorl/evolu/aco.py:ACO.evolute (114-226)", "neorl/evolu/aco.py:ACO.__rouletteWheelSelection (89-97)"]}
{"id": "C66", "title": "PESA returns the best point it ever evaluated, if its memory can hold the run", "statement": "If the replay memory is large enough for the warmup and the 2*NCORES+2*mu samples each generation stores, the point PESA returns is the best of all evaluated points (warmup included) with its own fitness, and entry g of the history is the best of everything evaluated up to generation g. With memory_size=None this holds whenever the warmup is at most what 3*npop*ngen+1 leaves free. Whatever the memory, the returned point was evaluated, is feasible and comes with its own fitness, every history entry is an attained fitness, the last one is the returned one, and warmup+3*npop*ngen points are evaluated, all feasible. Defects: with a large warmup the default memory overwrites the best point, the history gets worse and a worse point is returned; evolute overwrites the attribute holding memory_size, so a second call runs with the number of samples the first one stored. Exactly npop warmup samples, allowed by the documentation, are refused.", "quantifier": "all objectives, both modes, spaces, population sizes, numbers of cores and generations, memory sizes, warmups and draws", "why_tests_cant": "Whether the best point is overwritten depends on the position of the ring pointer after earlier sorts, so runs with a moderate warmup never show it; the positive part ranges over all interleavings of three methods and the memory.", "anchors": ["neorl/hybrid/pesa.py:PESA.evolute (197-412)", "neorl/hybrid/pesa.py:PESA.memory_update (427-437)", "neorl/hybrid/pesa.py:PESA.init_guess (476-524)", "neorl/hybrid/pesacore/er.py:ExperienceReplay (26-143)"]}
{"id": "C67", "title": "The three methods of PESA do what they document and share the memory correctly", "statement": "Each annealing chain replays the best sample of the memory when its draw is below the backdoor rate and moves randomly otherwise, accepts exactly by the Metropolis rule at the temperature of the step, counts its decisions, and keeps the best of its start and all proposals; over a run the chains use the steps 1..ngen*npop exactly once each in order. The prioritisation coefficient starts at alpha_init, never decreases and is alpha_end after the last generation. After each generation the evolution strategy holds 2*mu individuals, the swarm npop particles and there is one start per chain, everything feasible and evaluated. If the number of chains divides npop and there are two or more variables PESA always returns. Defects: if it does not divide, the annealing assertion fires; with more than three cores the weight of timew never decreases. Particles move by the rule of their speed mechanism with two separate draws per coordinate, the best mu survive with the better of their old and new point, and the others restart at stored points with a tenth of the position as speed.", "quantifier": "all objectives, spaces, population sizes, numbers of cores and generations, schedules and draws", "why_tests_cant": "Tests run one seed with one core; the acceptance rule, the step bookkeeping over generations and chains and the sizes are invariants over all runs, and the parallel defects do not show with ncores=1.", "anchors": ["neorl/hybrid/pesacore/sa.py:SAMod.chain_object (144-212)", "neorl/hybrid/pesacore/sa.py:SAMod.anneal (214-293)", "neorl/hybrid/pesacore/pso.py:PSOMod.evolute (252-420)", "neorl/hybrid/pesacore/es.py:ESMod.GenOffspring (329-385)", "neorl/hybrid/pesa.py:PESA.evolute (197-412)", "neorl/hybrid/pesa.py:PESA.linear_anneal (414-425)", "neorl/hybrid/pesa.py:PESA.resample (439-474)"]}
{"id": "C68", "title": "PESA2 returns the best of what its three methods report", "statement": "If the memory is large enough for the warmup and the survivors of every generation, the point PESA2 returns is the best of the warmup and of everything the wolves, the differential evolution and the whales report (the last population of each, and all of DE's), with its own fitness, and entry g of the history is the best of what was reported up to generation g. If wolves move at most twice and whales once per generation and someone survives of each method, it is the best of everything ever evaluated. The default memory is large enough when the warmup fits into what the survivors leave free. Whatever the memory, the returned point was evaluated, is feasible and comes with its own fitness, and the number of evaluations is exact. With accepted arguments and enough warmup samples PESA2 returns. Defects: points visited inside a wolf or whale run are lost, so PESA2 can return a point worse than one it evaluated; with R_frac so small that nobody survives it returns the best warmup sample whatever the search finds; evolute overwrites memory_size for the next call; more wolves than warmup samples raise an assertion; replay_every > ngen raises AttributeError. With several cores the numbers of wolves and whales are at most npop and divide it; with one core they are as given.", "quantifier": "all objectives, both modes, spaces, population sizes, generations, replay periods, memory sizes, warmups and draws", "why_tests_cant": "The lost points are better than the returned one only for particular objectives and draws, and nothing in the result shows it; the positive part ranges over all interleavings of three methods and the memory over all generations.", "anchors": ["neorl/hybrid/pesa2.py:PESA2.evolute (225-410)", "neorl/hybrid/pesa2.py:PESA2.__init__ (81-165)", "neorl/hybrid/pesa2.py:PESA2.memory_update (450-461)", "neorl/hybrid/pesacore/gwo.py:GWOmod.evolute", "neorl/hybrid/pesacore/de.py:DEmod.evolute (152-290)", "neorl/hybrid/pesacore/woa.py:WOAmod.evolute (214-308)"]}
{"id": "C69", "title": "How PESA2 passes individuals between its methods", "statement": "Each next population is the mu best of the last population of its method, best first, followed by samples of the memory; every starting point of every generation is a warmup sample or was reported earlier, and populations have the sizes the methods ask for. The prioritisation coefficient starts at alpha_init, never decreases and ends at alpha_end. With nearest_int the in-place repair of DE's targets never changes an object the memory shares. Defects: the memory samples given to the three methods are prefixes of one and the same list, because each draw reseeds the generator; with replay_every=1 and npop < 2*nwolves the wolves never evaluate a new point; with sigmoid or minmax the in-place repair changes stored points, so the memory pairs a point with the fitness of another.", "quantifier": "all objectives, spaces, population sizes, generations, replay periods and draws", "why_tests_cant": "Aliasing between the memory and a population, identical samples and an idle method leave plausible results behind; only a statement about every generation of every run excludes or exhibits them.", "anchors": ["neorl/hybrid/pesa2.py:PESA2.resample (463-501)", "neorl/hybrid/pesa2.py:PESA2.select (425-448)", "neorl/hybrid/pesa2.py:PESA2.linear_anneal (412-423)", "neorl/hybrid/pesacore/er.py:ExperienceReplay.sample (120-143)", "neorl/hybrid/pesacore/de.py:DEmod.ensure_discrete (128-150)"]}
{"id": "C70", "title": "What NHHO returns and how its surrogates are made", "statement": "For minimisation NHHO returns one hawk and one value per generation: a feasible hawk of that generation whose predicted fitness is the lowest among that generation's hawks, with exactly that prediction. The prediction of a generation is the mean of three models; model i is trained on the i-th third of the warmup samples with their true fitness, plus one hawk on which the two other warmup models agree most, labelled with the mean of their predictions. The real fitness is evaluated at the warmup samples and at most twice per hawk and generation, always at feasible points. NHHO returns whenever both keys are given in nn_params and every third keeps a training sample after the validation split.", "quantifier": "all learners, objectives, spaces, hawks, warmups, generations, splits, starting points and draws", "why_tests_cant": "The predictions come from trained networks, so no expected value can be written down in a test; the statement is about the wiring of samples, labels and models in every generation for any learner.", "anchors": ["neorl/hybrid/nhho.py:NHHO.evolute (149-286)", "neorl/hybrid/nhho.py:NHHO.neural_worker (347-359)", "neorl/hybrid/nhho.py:NHHO.update_model (361-409)", "neorl/hybrid/nhho.py:NHHO.eval_hawksNN (307-323)", "neorl/hybrid/nhhocore/hho.py:HHO.update_hawks (249-289)", "neorl/hybrid/nhhocore/nnmodel.py:NNmodel.fit (49-104)"]}
{"id": "C71", "title": "NHHO reports scaled predictions and maximises in the wrong direction", "statement": "Defects. For maximisation the hawk returned for a generation is the one with the lowest prediction, and the value returned is minus that prediction (witness: a hawk of real fitness 104 is returned, 125 is in the same generation). In both modes a rapid dive replaces a hawk only if the real fitness of the new point is below the prediction for the old one. Training labels are scaled to [0, 1] and predictions never scaled back: with any learner that stays between its labels every returned value lies in [0, 1] in absolute value, whatever the fitness, while dives compare that prediction with unscaled fitness. The documented default nn_params={} raises KeyError; num_warmups=None gives as many samples as hawks, not 20 per dimension.", "quantifier": "all learners, objectives, spaces, hawks, warmups, generations and draws", "why_tests_cant": "A run ends with plausible hawks and numbers; that the scale or the direction is wrong shows only against the real fitness of all hawks of all generations, for every learner.", "anchors": ["neorl/hybrid/nhho.py:NHHO.evolute (149-286)", "neorl/hybrid/nhho.py:NHHO.__init__ (70-147)", "neorl/hybrid/nhhocore/nnmodel.py:NNmodel.fit (49-104)", "neorl/hybrid/nhhocore/hho.py:HHO.team_rapid_dives (343-411)"]}
{"id": "C72", "title": "What NGA returns and how its surrogates are made", "statement": "NGA returns one individual and one value per generation: the individual lies in the bounds, is the best for the user's mode among that generation's pool according to that generation's prediction, and comes with its prediction; the pool contains the population the generation started from and the individual returned before. The prediction is the mean of three models trained on disjoint thirds of the freshly shuffled warmup samples with their true fitness, each plus one individual on which the other two agree most, labelled with their mean. The fitness function is called exactly num_warmups times, in the bounds. Every population has npop pairwise different individuals, the best predicted of the pool before. With two or more individuals, two or more hidden units and a third of the warmups no smaller than the hidden units NGA returns; the defaults satisfy this.", "quantifier": "all clusterings, kernels, objectives, modes, bounds, population sizes, generations, warmups and draws", "why_tests_cant": "The predictions come from trained models and random operators; that the pool never loses the previous best, that no sample trains two models, and that individuals stay distinct is a statement about every generation of every run.", "anchors": ["neorl/hybrid/nga.py:NGA.evolute (78-142)", "neorl/hybrid/nga.py:NGA.resetmodel (187-210)", "neorl/hybrid/nga.py:NGA.updatemodel (212-236)", "neorl/hybrid/nga.py:NGA.eval_samples (158-179)", "neorl/hybrid/ngacore/RBFN.py:RBFN (26-85)", "neorl/hybrid/ngacore/GA.py:GA.selection (44-49)", "neorl/hybrid/ngacore/GA.py:GA.mutation (101-116)"]}
{"id": "C73", "title": "NGA crossover and mutation stay in the bounds", "statement": "Each coordinate of the first child lies between the smaller parent minus the room to the nearer bound and the middle of the parents, that of the second between the middle and the larger parent plus that room, so both are in the bounds and clipping changes nothing; where the parents agree the children agree with them. A mutated gene moves down for draws up to one half and up for larger ones, never further than the nearer bound.", "quantifier": "all parents and genes in the bounds, all draws in [0, 1), all distribution indices", "why_tests_cant": "The bound is reached only for extreme draws, which sampling does not hit, and the formulas have a different branch on each side of it.", "anchors": ["neorl/hybrid/ngacore/GA.py:GA.crossover (51-99)", "neorl/hybrid/ngacore/GA.py:GA.mutation (101-116)"]}
{"id": "C74", "title": "NGA ignores variable types and fails for small settings", "statement": "Defects. The types of the variables are never read: if an integer variable has fewer values than there are warmup samples, the fitness function is called with a value that is not an integer. With one hidden unit, which is the default for 3 to 11 warmup samples, NGA divides by zero. A population of one individual raises in the first generation.", "quantifier": "all objectives, modes, bounds, generations and draws", "why_tests_cant": "That a non-integer must appear for every design is a counting argument over all designs; a test sees one design.", "anchors": ["neorl/hybrid/nga.py:NGA.__init__ (48-76)", "neorl/hybrid/ngacore/RBFN.py:RBFN.calsigma (58-69)", "neorl/hybrid/ngacore/Latin.py:latin (24-40)", "neorl/hybrid/ngacore/GA.py:GA.crossover (51-99)"]}
{"id": "C75", "title": "RLLogger keeps the exact history and the best", "statement": "After any number of callback calls the logger's histories hold exactly what the first environment reported at every check_freq-th call, in order and with the sign of the user's fitness; the best value and individual it keeps are the first recorded ones with the best recorded fitness in its mode. Without save_model nothing is written; without save_best_only a network is written at exactly the recorded calls; with it the last network written is that of the best individual. With a positive frequency and at least one environment it never raises. For an environment made by this library every recorded individual is in the user's space with its own fitness. Defect: with several parallel environments only the first one is recorded, so the best individual found can be missing.", "quantifier": "all sequences of callback calls, modes, frequencies and saving options", "why_tests_cant": "The claim is an invariant over all call sequences; a test sees one sequence, and the defect needs several environments of which a later one is best.", "anchors": ["neorl/utils/neorlcalls.py:RLLogger (210-330)", "neorl/rl/baselines/shared/callbacks.py:BaseCallback.on_step", "neorl/rl/make_env.py"]}
{"id": "C76", "title": "What the RL phase of ACKDE and PPO-ES hands to evolution", "statement": "learn refuses an environment whose mode differs from that of the hybrid. Otherwise the table it returns is the agent's history sorted best first, and the stored data are its first rl_filter rows (all, if fewer), none worse than a row left out, each encoded: a grid value becomes its position in the grid, everything else stays. The encoded rows are feasible points of the space that is searched and decode back to the individuals the agent visited. learn always succeeds when the agent visited members of the space.", "quantifier": "all histories, filters, modes, mixed spaces and tie breaks of the sort", "why_tests_cant": "Sorting, truncation and encoding interact; that none of the kept rows is worse than a dropped one and that decoding is an exact inverse holds for every history only by proof.", "anchors": ["neorl/hybrid/ackde.py:ACKDE.learn (117-191)", "neorl/hybrid/ppoes.py:PPOES.learn (125-203)", "neorl/hybrid/ackde.py:encode_grid_individual_to_discrete (40-50)"]}
{"id": "C77", "title": "ACKDE: RL-informed differential evolution", "statement": "After learn, evolute returns the best of all points it evaluated, with its own fitness and feasible; mixing RL individuals into the population after each generation replaces exactly npop_rl individuals, none better than one that stays, so the best fitness never gets worse from one generation to the next; with init_pop_rl every RL individual drawn for the start is evaluated and the result is at least as good as each of them. evolute always returns after a successful learn that recorded npop_rl individuals, and raises before learn or with fewer. Defects: with init_pop_rl and grid variables the rows are encoded twice - a grid of strings always raises, a grid of numbers can silently start from other values than the agent found; the agent's best individual need not be drawn and can be lost.", "quantifier": "all histories, objectives, modes, spaces, sizes, draws and tie breaks of argsort", "why_tests_cant": "Whether the best survives depends on which individuals the replacement hits, for every score list and tie break; the double encoding is silent for some grids.", "anchors": ["neorl/hybrid/ackde.py:ACKDE.evolute (193-228)", "neorl/evolu/de.py:DE.mix_population (204-213)", "neorl/evolu/de.py:DE.evolute (215-378)", "neorl/evolu/de.py:DE.InitPopulation (140-165)"]}
{"id": "C78", "title": "PPO-ES: RL-informed evolution strategies", "statement": "After learn and with fewer RL individuals per generation than survivors (npop_rl < mu), evolute returns the best of all offspring evaluated, feasible, with its own fitness, npop evaluations a generation and exact histories; it always returns when 2 <= mu <= npop, npop_rl <= mu and npop_rl individuals were recorded. Defects: the constructor only asks for npop_rl < npop although mu is npop // 2 by default; with npop_rl > mu every run raises, with npop_rl = mu the returned individual can be one that was never evaluated, paired with the fitness of another; the start population is not counted, so the result can be worse than every individual the agent handed over. The hyperparameter alpha is read but never used.", "quantifier": "all histories, objectives, modes, spaces, sizes and draws", "why_tests_cant": "The mismatch shows only for particular sizes and is invisible without recomputing the fitness of the returned individual.", "anchors": ["neorl/hybrid/ppoes.py:PPOES.evolute (205-242)", "neorl/hybrid/ppoes.py:PPOES.__init__ (69-120)", "neorl/evolu/es.py:ES.mix_population (408-424)", "neorl/evolu/es.py:ES.evolute (426-533)"]}
{"id": "C79", "title": "The classical benchmark functions have their documented minima", "statement": "For every dimension the points listed in all_minima_x are global minimisers of the classical functions (sphere, cigar, rosenbrock, bohachevsky, griewank, rastrigin and its variants, ackley, schaffer, schwefel2, brown, expo, yang2-4, zakharov, salomon, powell, qing, happycat, dixonprice, levy), over all real individuals and not only inside the bounds; from two dimensions on they are the only ones (qing: exactly the sign choices of the square roots). yang is zero at the origin and nowhere negative whatever is drawn. The two minimisers given as decimals, those of st and schwefel, are within 1e-7 and 3.1e-6 per coordinate of optimal.", "quantifier": "all dimensions and all real individuals, all draws of the noisy functions", "why_tests_cant": "A global minimum is a statement about all points of all dimensions; sampling finds counterexamples only with luck, and uniqueness not at all.", "anchors": ["neorl/benchmarks/classic.py (27-189)", "neorl/benchmarks/classic.py:all_minima_x (327-359)"]}
{"id": "C80", "title": "What goes wrong in the classical benchmark functions", "statement": "Defects: the minimisers listed for quartic (-1 and 2) are worse than the origin in every dimension and for every draw; rosenbrock, bohachevsky, schaffer and brown are the constant zero in one dimension although every dimension is allowed; cigar adds a million times the square of the first coordinate to the cigar function. Exceptions: exactly the empty individual is refused by cigar, dixonprice, levy (index) and ackley, happycat (division), exactly a one-coordinate individual by rastrigin_scaled.", "quantifier": "all dimensions, individuals and draws", "why_tests_cant": "That a listed minimiser is wrong for every noise draw, and that nothing else is refused, are universal statements.", "anchors": ["neorl/benchmarks/classic.py:quartic (157-158)", "neorl/benchmarks/classic.py:cigar (32-35)", "neorl/benchmarks/classic.py:all_minima_x, all_bounds, all_ndim (250-359)"]}
{"id": "C81", "title": "CEC'2017 simple functions: optimum at the shift vector", "statement": "For every dimension, shift vector and square matrix f1-f8 have their global minimum at the shift vector with value 100 times their number, and with a one-to-one matrix (every rotation) nowhere else; without arguments the tables of the benchmark are used in the dimensions they have, and other dimensions raise a key error. Defects: f9 is more than 900.5 at its shift vector, its minimum 900 is where the rotated difference is one in every coordinate; f10 stays at least 1.1e-5 per coordinate above 1000 everywhere; f8 overwrites the caller's array, rounding every coordinate that is more than a half away from the shift.", "quantifier": "all dimensions, individuals, matrices and shifts", "why_tests_cant": "The optimum is a statement about all points and all matrices; the error of f10 is in the sixth decimal and the misplaced optimum of f9 needs knowing where to look.", "anchors": ["neorl/benchmarks/cec17.py:f1-f10 (22-214)", "neorl/benchmarks/tools/basic.py"]}
{"id": "C82", "title": "CEC'2017 hybrid functions", "statement": "The parts a hybrid function splits a vector into contain every coordinate exactly once, in shuffled order, in as many parts as there are percentages, for every permutation. For every dimension that is a multiple of ten, every square matrix, shift and permutation: f11, f13, f14, f15, f18, f19 have their global minimum at the shift vector with value 100 times their number; f12, f16, f17, f20 are within 4.2e-6 per coordinate of it there and nowhere below it. Defect: without a shuffle argument dimensions 2 and 20, which the documentation allows, raise a key error.", "quantifier": "all multiples of ten as dimension, all individuals, matrices, shifts and permutations", "why_tests_cant": "Losing or duplicating a coordinate depends on the permutation and the rounding of the percentages; the optimum is a statement about all points.", "anchors": ["neorl/benchmarks/cec17.py:_shuffle_and_partition (216-242)", "neorl/benchmarks/cec17.py:f11-f20 (244-544)", "neorl/benchmarks/tools/transforms.py (58-72)", "docs/source/examples/ex4.rst (36)"]}
{"id": "C83", "title": "CEC'2017 composition functions never return their optimum", "statement": "Defect: for every dimension, every choice of square matrices and shifts f21-f30 return nan at each component's shift vector, in particular at the documented optimum, because an infinite weight is divided by an infinite sum; at every other point they return a number strictly above the documented optimal value. So the documented optimum is never returned. f29 and f30 without shuffles raise a key error in dimensions 2 and 20.", "quantifier": "all dimensions from two on (multiples of ten for f29, f30), all individuals, matrices, shifts and permutations", "why_tests_cant": "The failure is at isolated points no random test hits; that the value is above the optimum everywhere else is a statement about all points.", "anchors": ["neorl/benchmarks/cec17.py:_calc_w (546-555)", "neorl/benchmarks/cec17.py:f21-f30 (557-970)"]}
{"id": "C84", "title": "CEC'2008 functions", "statement": "For every dimension from 2 to 1000 F1-F6 have their only global minimum at the shift data with the documented bias as value, and return_global returns exactly that point and value. F7 is a function of the individual alone; outside the bowl of its fractal terms it is the last coordinate plus the twist of the first. Defects: more than 1000 coordinates are not refused but score 1, for F3 better than its global minimum; every evaluation of F7 resets numpy's global generator to one fixed state depending on the dimension only, so an optimiser drawing from it between evaluations draws the same numbers each time.", "quantifier": "all dimensions, individuals, shift data, generators and generator states", "why_tests_cant": "The minimum is a statement about all points; the reset is invisible in the returned values and holds for every state only by following the state through the loops.", "anchors": ["neorl/benchmarks/cec08.py:F1-F6 (45-173)", "neorl/benchmarks/cec08.py:F7.fit (180-211)"]}
{"id": "C85", "title": "DTLZ2: the sphere and the Pareto front", "statement": "For every number of variables and objectives the objectives of any point lie on the sphere of radius 1 + g and in the box are not negative; a point of the box is Pareto-optimal exactly if its last variables are all one half. Every point pareto_front returns is the objective vector of a Pareto-optimal point in the direction of its reference direction, and every Pareto-optimal objective vector can be had that way. Evaluating several rows is evaluating each; a wrong number of variables raises. nadir_point and ideal_point bound the front once it is computed. Defects: a later pareto_front with other directions returns the first points again; nadir_point and ideal_point raise a type error on a fresh problem; k is ignored unless n_var=None is given.", "quantifier": "all numbers of variables and objectives, all points of the box, all reference directions", "why_tests_cant": "Pareto optimality compares with every point of the box; no finite set of evaluations settles it.", "anchors": ["neorl/benchmarks/dtlz.py:DTLZ.obj_func (376-388)", "neorl/benchmarks/dtlz.py:DTLZ2 (390-400)", "neorl/benchmarks/dtlz.py:Problem.pareto_front (132-143)", "neorl/benchmarks/dtlz.py:Problem.evaluate (157-301)"]}
{"id": "C86", "title": "RNEAT/FNEAT: the returned point is the best one evaluated", "statement": "With one process evolute returns a point that was evaluated, with its own fitness, and no evaluated point is better in the user's mode; all evaluated points are members of the user's space. The k-th entry of the global history is the best fitness up to genome k, the k-th local entry the best of genome k, and the global history never gets worse. A run with at least one generation always succeeds unless the start has the wrong length, which is refused. The library is told the signed fitness of the last point of each genome.", "quantifier": "all spaces, fitness functions, networks, evolutions of the library, numbers of generations, start points", "why_tests_cant": "The library may evolve any networks and stop at any time; the claim is about every such run.", "anchors": ["neorl/hybrid/rneat.py:eval_genomes (62-106)", "neorl/hybrid/rneat.py:evolute (114-212)", "neorl/hybrid/fneat.py"]}
{"id": "C87", "title": "RNEAT/FNEAT: points proposed per genome", "statement": "Without a start point every genome proposes exactly episode_length points. Defect: with a start point the environment is never reset, so the first genome proposes episode_length points and every later genome of the run only one; in a second call on the same object all of them only one.", "quantifier": "all spaces, fitness functions, networks, evolutions of the library, numbers of generations, start points", "why_tests_cant": "The flag left behind by one genome affects all later ones; only an invariant over the whole run shows that it never clears.", "anchors": ["neorl/hybrid/rneat.py:eval_genomes (62-106)", "neorl/rl/make_env.py"]}
{"id": "C88", "title": "RNEAT/FNEAT with several processes", "statement": "Each genome works on a copy of the environment and proposes exactly episode_length points, the same points as with one process. The returned pair is the best of the last points of the genomes, with its own fitness. Defect: better points proposed earlier by a genome are lost, so the result is never better and can be worse than with one process, and the local history can report a better value than the global history and the result.", "quantifier": "all spaces, fitness functions, networks, evolutions of the library, numbers of generations", "why_tests_cant": "Comparing the serial and the parallel run for every evolution of the networks is a refinement statement.", "anchors": ["neorl/hybrid/rneat.py:NEATWorker.work (342-372)", "neorl/hybrid/rneat.py:ParallelEvaluator.evaluate (396-417)"]}
{"id": "C89", "title": "RNEAT/FNEAT: the configuration given to the library", "statement": "Whatever the user's dictionary says, the fitness criterion is max and the numbers of inputs and outputs are the number of variables. Every other default key has the user's value if given, else its default. Keys that are not defaults are ignored without a message. No key occurs in two sections, and the documented hyperparameters all exist.", "quantifier": "all user dictionaries and all default configurations", "why_tests_cant": "Dictionaries are arbitrary; that nothing else changes is a statement about all keys.", "anchors": ["neorl/hybrid/rneat.py:modify_config (214-232)", "neorl/hybrid/rneat.py:basic_config (234-322)", "neorl/hybrid/rneat.py:__init__ (30-60)"]}
{"id": "C90", "title": "Conjugate gradients (TRPO) solve the system", "statement": "For every symmetric positive definite system with nonzero right side conjugate_gradient never divides by zero, and with at least as many iterations as unknowns the squared residual of the result is below the tolerance. After any number of passes the result minimises the energy over the Krylov space, and it is a direction of ascent for the right side. Defects: the right side 0 gives nan instead of 0; with tolerance 0 a run that reaches the exact solution loses it in the next pass.", "quantifier": "all dimensions, all symmetric positive definite matrices, right sides, tolerances, numbers of iterations", "why_tests_cant": "Termination after n passes and optimality hold by orthogonality of all earlier residuals, for every matrix.", "anchors": ["neorl/rl/baselines/shared/cg.py:conjugate_gradient (4-39)"]}
{"id": "C91", "title": "Vectorised environments: every environment behaves as if alone", "statement": "DummyVecEnv: for every sequence of steps and resets, the results of environment i are those of running it alone on its own actions, with a reset whenever it ends (the returned observation is then that of the reset and the last one is in the info), rewards rounded to 32 bits. SubprocVecEnv gives, under every interleaving of its processes, the same results without the rounding, and every execution ends. Seeds given to the environments are pairwise distinct. Defects: with too few actions DummyVecEnv raises after it has moved the first environments, SubprocVecEnv waits for ever; SubprocVecEnv.seed(None), which is the documented default, is a type error.", "quantifier": "all environments, numbers of environments, sequences of commands, schedules of the worker processes", "why_tests_cant": "Tests see one schedule; independence of the interleaving needs an invariant over all of them.", "anchors": ["neorl/rl/baselines/shared/vec_env/dummy_vec_env.py:DummyVecEnv", "neorl/rl/baselines/shared/vec_env/subproc_vec_env.py:_worker", "neorl/rl/baselines/shared/vec_env/subproc_vec_env.py:SubprocVecEnv"]}
{"id": "C92", "title": "VecNormalize: statistics and outputs", "statement": "After any sequence of resets, steps and changes of training, the sum kept for each environment is the discounted sum of the rewards of its current episode, and the running statistics are those of the observations of all training steps and of the discounted sums. Observations are returned centred and divided by the deviation (this step included) and cut to the clipping range, rewards divided by the deviation of the sums; uncut observations can be recovered. Without training the statistics never change. Saving and loading keeps the statistics; sync_envs_normalization copies them to an environment wrapped alike. Defects: observations returned by reset are never counted; terminal observations are passed on raw; a load with the wrong shape leaves the wrong environments set; sync compares positions only, so with another order of wrappers it silently copies nothing useful.", "quantifier": "all sequences of calls, observations, rewards, episode ends, clipping ranges, discount factors, numbers of environments", "why_tests_cant": "The statistics depend on the whole history; only an invariant over all runs relates them to what was received.", "anchors": ["neorl/rl/baselines/shared/vec_env/vec_normalize.py:VecNormalize", "neorl/rl/baselines/shared/vec_env/__init__.py:sync_envs_normalization", "neorl/rl/baselines/shared/running_mean_std.py"]}
{"id": "C93", "title": "VecFrameStack: stacked frames", "statement": "After any sequence of resets and steps the returned array holds for every environment the last n_stack frames of its current episode, oldest first, preceded by zeros; the terminal observation of an ended episode is replaced by the window ending in it. Steps never change an array returned before. If all entries have the same bounds and these contain zero, the rows are in the declared space. Defects: reset writes into the array returned last; with different bounds per entry the declared space is wrong (np.repeat repeats each entry) and a correct stack can lie outside it.", "quantifier": "all numbers of environments, stack depths, frame sizes, sequences of frames and episode ends", "why_tests_cant": "Frames of an earlier episode must never show up, whatever the pattern of episode ends.", "anchors": ["neorl/rl/baselines/shared/vec_env/vec_frame_stack.py:VecFrameStack"]}
{"id": "C94", "title": "VecCheckNan: nothing bad goes unnoticed", "statement": "With raise_exception a call raises exactly if one of its arrays has a nan (or an infinity, if checked), and bad actions never reach the environments. Otherwise nothing raises and everything is passed on; with warn_once exactly the first bad call of a run warns, without it every bad call. The message names the arrays correctly and the origin: the policy with its last observations, the reset, or the environment with the actions passed last.", "quantifier": "all sequences of calls and arrays", "why_tests_cant": "The warned flag is history dependent; the claim is about every sequence.", "anchors": ["neorl/rl/baselines/shared/vec_env/vec_check_nan.py:VecCheckNan"]}
{"id": "C95", "title": "Callbacks: when they act and when they stop a training", "statement": "A training ends at the first step whose callback returns False, and not otherwise. CallbackList calls every callback at every step in order; CheckpointCallback saves exactly at the multiples of save_freq, under pairwise different names while the count grows; EveryNTimesteps calls its callback exactly when at least n steps have passed since the last time, for steps of one environment at every n-th; EvalCallback evaluates exactly at the multiples of eval_freq, the best mean reward is the maximum of all means so far and the callback on a new best is called exactly at strict records; StopTrainingOnRewardThreshold stops exactly when the best mean reward reaches the threshold. Defects: CallbackList loses a False that is followed by a callback returning None; save_freq = 0 raises; EveryNTimesteps does not start anew in a second learn, so it stays silent until the old count is passed; StopTrainingOnRewardThreshold inside CallbackList or EveryNTimesteps raises although EvalCallback is its grandparent.", "quantifier": "all lists of callbacks (arbitrary state machines), all training lengths, frequencies, thresholds and sequences of evaluation results", "why_tests_cant": "The claims are about every step of every training and any nesting of user-defined callbacks.", "anchors": ["neorl/rl/baselines/shared/callbacks.py:BaseCallback", "neorl/rl/baselines/shared/callbacks.py:CallbackList", "neorl/rl/baselines/shared/callbacks.py:CheckpointCallback", "neorl/rl/baselines/shared/callbacks.py:EveryNTimesteps", "neorl/rl/baselines/shared/callbacks.py:EvalCallback", "neorl/rl/baselines/shared/callbacks.py:StopTrainingOnRewardThreshold"]}
{"id": "C96", "title": "PPO2, A2C, ACER: rollouts are one continuous interaction", "statement": "A training that is not stopped makes the planned number of rollouts, each of n_steps steps; all together they are one continuous walk through the environments, every update uses the rollout just made and the next one acts with its parameters; num_timesteps counts all steps of all environments. PPO2 and A2C make the largest number of rollouts within total_timesteps, ACER the smallest number reaching it; the progress given to the schedules falls in equal steps from 1 and stays positive. After a stop by the callback, the unfinished rollout is discarded and PPO2's runner stands where the environments stand. Defects: A2C and ACER keep the observation, dones and state of before the last step, so the next learn acts on an observation the environments have left; PPO2 and A2C silently do nothing if total_timesteps is less than one rollout.", "quantifier": "all environments, policies, learning updates, rollout lengths, numbers of updates and stopping times", "why_tests_cant": "Continuity across rollouts, updates and repeated trainings is a statement about all executions.", "anchors": ["neorl/rl/baselines/ppo2/ppo2.py:Runner._run", "neorl/rl/baselines/ppo2/ppo2.py:PPO2.learn", "neorl/rl/baselines/a2c/a2c.py:A2CRunner._run", "neorl/rl/baselines/a2c/a2c.py:A2C.learn", "neorl/rl/baselines/acer/acer_simple.py:_Runner._run", "neorl/rl/baselines/acer/acer_simple.py:ACER.learn"]}
{"id": "C97", "title": "PPO2: every sample is used exactly noptepochs times", "statement": "However the indices are shuffled, every epoch splits the batch into nminibatches minibatches of equal size with every sample in exactly one of them, so every sample is used exactly noptepochs times per update; a number of minibatches that does not divide the batch is refused and zero is a division by zero. With recurrent policies the minibatches hold whole rollouts of the same number of environments each, in order of time, every environment in exactly one minibatch per epoch. swap_and_flatten puts step t of environment e at e*n_steps+t, where these look for it.", "quantifier": "all batch sizes, numbers of minibatches and epochs, all shuffles", "why_tests_cant": "Off-by-one slices lose samples only for some sizes; the claim is for every size and every permutation.", "anchors": ["neorl/rl/baselines/ppo2/ppo2.py:PPO2.learn", "neorl/rl/baselines/ppo2/ppo2.py:swap_and_flatten"]}
{"id": "C98", "title": "DQN: interaction, training times and target updates", "statement": "learn takes exactly total_timesteps steps unless stopped. The stored transitions are one continuous interaction, going on from a reset after every end of an episode; the replay buffer holds the latest buffer_size of them; exploration falls linearly with num_timesteps to its final rate; a step trains exactly when num_timesteps is beyond learning_starts, a multiple of train_freq, and batch_size transitions are stored, on batch_size transitions of the buffer; the target parameters are copied from the online ones exactly at the multiples of target_network_update_freq, after the training of the same step; episode_rewards are the returns of the episodes. When the callback stops it, the last step is taken and counted but not stored. Defects: int(exploration_fraction*total_timesteps) = 0 is a division by zero; a batch larger than the buffer silently never trains; train_freq = 0 fails only late; a further learn starts with an empty buffer, and without resetting the count it may not explore at all.", "quantifier": "all environments, Q networks, gradient steps, sampling, training lengths and parameters", "why_tests_cant": "When training happens depends on counters, buffer fill and parameters together; the claim covers every step of every run.", "anchors": ["neorl/rl/baselines/deepq/dqn.py:DQN.learn", "neorl/rl/baselines/shared/buffers.py:ReplayBuffer", "neorl/rl/baselines/shared/schedules.py:LinearSchedule"]}
{"id": "C99", "title": "Monitor and evaluate_policy: every reported episode is a real one", "statement": "Monitor records, for each finished episode, its undiscounted sum of rewards and its length, and the keywords asked for; it refuses to step a finished episode and, unless early resets are allowed, to reset an unfinished one. evaluate_policy reports exactly n_eval_episodes episodes, which are consecutive episodes of the environment under the policy, with their sums and lengths, and the mean is that of the sums. Defects: a reset refused for a missing keyword still counts as a reset; a Monitor that forbids early resets inside a DummyVecEnv makes evaluate_policy raise at the second episode; a mean equal to the threshold is reported as below it.", "quantifier": "all environments, policies, episode lengths, numbers of episodes and sequences of calls", "why_tests_cant": "The bookkeeping must be right for every interleaving of step and reset and every length of episode.", "anchors": ["neorl/rl/baselines/shared/monitor.py:Monitor.reset", "neorl/rl/baselines/shared/monitor.py:Monitor.step", "neorl/rl/baselines/shared/evaluation.py:evaluate_policy"]}
{"id": "C100", "title": "PESAX returns the best of everything ES, DE and PSO evaluated", "statement": "If the memory can hold the warmup samples and the 3*mu samples added per generation, the point PESAX returns is the best of all evaluated points and entry g of the history is the best up to generation g; the default memory is large enough iff there are at most 3*ngen*(npop-mu)+1 warmup samples. With any memory the returned point is feasible, evaluated and has the returned fitness. The populations keep the mu best of each method and are filled from the memory; alpha rises from alpha_init to alpha_end. With at least five members it never raises. Defects: the best point can be overwritten in the default memory; a second call reuses the number of stored samples as memory size; DE and the swarm are filled with the very same samples; the swarm best ignores better particles taken from the memory; with a seed DE repeats its draws in every generation; with more than three cores the time weight is lost; npop of at most 4 and exactly npop warmup samples are refused.", "quantifier": "all spaces, fitness functions, population sizes, generations, memory sizes and draws", "why_tests_cant": "Whether the best is lost depends on the order of all insertions over the whole run.", "anchors": ["neorl/hybrid/pesax.py:PESAX.evolute", "neorl/hybrid/pesax.py:PESAX.memory_update", "neorl/hybrid/pesax.py:PESAX.resample", "neorl/hybrid/pesax.py:PESAX.init_guess", "neorl/hybrid/pesacore/de.py:DEmod.evolute", "neorl/hybrid/pesacore/es.py:ESMod.evolute", "neorl/hybrid/pesacore/pso.py:PSOMod.evolute", "neorl/hybrid/pesacore/er.py:ExperienceReplay"]}
{"id": "C101", "title": "NSGA-III normalisation and association", "statement": "The extreme point of an axis is an individual that minimises the achievement function of that axis; the intercepts are either the worst values or the distances from the best point at which the hyperplane through the extreme points meets the axes. With the worst values, normalised objectives lie in [0,1] and do not depend on units and offsets of the objectives. Every individual is associated with the first reference point whose line through the origin is nearest to the normalised objectives, and the distance reported is the distance to that line; with this association the selection is complete, elitist and niche preserving. Defects: with the hyperplane the best point is subtracted from the intercepts a second time, so that the normalisation is right only where the best value is 0, can be inverted or divide by zero, and adding a constant to an objective changes the niches; if an objective is the same for everybody, everybody is associated with reference point 0.", "quantifier": "all numbers of objectives, populations, reference points, linear solvers and draws", "why_tests_cant": "Optimality of the associated reference line is a statement about all points of all lines, and the scale invariance about all units.", "anchors": ["neorl/multi/tools.py:find_extreme_points", "neorl/multi/tools.py:find_intercepts", "neorl/multi/tools.py:associate_to_niche", "neorl/multi/nsgaIII.py:NSGAIII.select"]}
{"id": "C102", "title": "Action distributions of the RL policies", "statement": "For every vector of logits the categorical probabilities are the softmax (positive, summing to one), neglogp is minus their logarithm, the entropy and the KL divergence are the defining sums (non-negative, the latter zero exactly for equal probabilities), mode is the first most probable action, and sample (the Gumbel trick) returns action i with exactly its probability. The multi-categorical distribution is the product of the categorical ones over consecutive slices of the logits; the Bernoulli distribution has success probability sigmoid, samples with it and its mode is a most probable vector. The diagonal Gaussian has exp(-neglogp) equal to the product of normal densities, samples with that law, and its entropy and KL divergence are those of the law; KL is zero only for equal parameters. Defect: an action outside the categories has neglogp 0, that is probability one.", "quantifier": "all logits, all numbers of categories and dimensions, all actions", "why_tests_cant": "Statements about probability laws and integrals; sampling tests only estimate them.", "anchors": ["neorl/rl/baselines/shared/distributions.py:CategoricalProbabilityDistribution", "neorl/rl/baselines/shared/distributions.py:MultiCategoricalProbabilityDistribution", "neorl/rl/baselines/shared/distributions.py:BernoulliProbabilityDistribution", "neorl/rl/baselines/shared/distributions.py:DiagGaussianProbabilityDistribution"]}
{"id": "C103", "title": "Scaling of actions, explained variance, flattening, and exploration noise", "statement": "scale_action and unscale_action are inverse bijections between the box and the cube [-1,1]^n. explained_variance is 1 for perfect predictions up to a constant, 0 for constant predictions, never above 1, and undefined exactly for constant targets. flatten_arrays followed by unflatten_vector gives the arrays back, and the other way round. The adaptive parameter noise stays positive, shrinks exactly when the measured distance is above the desired one, and with a monotone distance it reaches the neighbourhood of the desired distance and stays there. The Ornstein-Uhlenbeck process is the stated linear recursion with mean reversion and starts again at the initial noise after reset. Defects: explained_variance for two-dimensional arrays divides the total by the columns' variances; scalars (shape ()) cannot be unflattened; a plain float mean makes the Ornstein-Uhlenbeck process fail.", "quantifier": "all boxes, vectors, array shapes, histories and noise draws", "why_tests_cant": "Round trips and limits range over all boxes, shapes and histories.", "anchors": ["neorl/rl/baselines/shared/math_util.py:scale_action", "neorl/rl/baselines/shared/math_util.py:explained_variance", "neorl/rl/baselines/shared/math_util.py:unflatten_vector", "neorl/rl/baselines/shared/noise.py:AdaptiveParamNoiseSpec", "neorl/rl/baselines/shared/noise.py:OrnsteinUhlenbeckActionNoise"]}
{"id": "C104", "title": "Atari wrappers", "statement": "NoopResetEnv ends in a running episode with at most the drawn number of no-ops and exactly that number if none ends the episode. EpisodicLifeEnv resets the game exactly when it was over at the latest step and reports done exactly when the game is over or a life but not the last was lost. MaxAndSkipEnv repeats the action until the end of the episode, at most skip times, sums the rewards, and shows the maximum of the last two frames if all steps were made. ClipRewardEnv gives the sign. FrameStack always shows the last n frames, the first one repeated, whatever it held before the reset. Defects: FireResetEnv returns the final observation of a finished episode as the first one of the next; EpisodicLifeEnv ignores that its no-op may end the game; MaxAndSkipEnv shows old frames when the episode ends early and fails for skip=0; WarpFrame does not resize, so the announced shape is right only for 84 x 84 frames without colours.", "quantifier": "all games (arbitrary transition functions), all action sequences, all skip and stack sizes", "why_tests_cant": "The claims quantify over all games and all points at which an episode may end.", "anchors": ["neorl/rl/baselines/shared/atari_wrappers.py:NoopResetEnv", "neorl/rl/baselines/shared/atari_wrappers.py:FireResetEnv", "neorl/rl/baselines/shared/atari_wrappers.py:EpisodicLifeEnv", "neorl/rl/baselines/shared/atari_wrappers.py:MaxAndSkipEnv", "neorl/rl/baselines/shared/atari_wrappers.py:FrameStack"]}
{"id": "C105", "title": "Table of the evolutionary hyperparameter search", "statement": "The table has one row per generation, numbered from 1. The parameters of a row decode to a case of that generation, the score is the user's function at it, and no other case of the generation is better. All cases tried are members of the hyperparameter space; there are ten more calls than the documented 10*ngen, and the first ten are in no row. Without grid parameters a row shows exactly the values of the call. With two or more hyperparameters the search always returns. Defects: a grid parameter is shown as its position in the grid; with one hyperparameter the search fails as soon as one draw selects crossover (probability 0.7 for each case).", "quantifier": "all hyperparameter spaces, user functions, numbers of generations, draws and starting populations, both modes", "why_tests_cant": "The claim ranges over all spaces and all random draws; a table looks plausible whether its rows are values or positions.", "anchors": ["neorl/tune/estune.py:ESTUNE.tune", "neorl/evolu/es.py:ES.evolute"]}
{"id": "C106", "title": "Loss of PPO2", "statement": "The probability ratio is the new over the old probability of the taken action. The clipped surrogate by cases: a good action earns nothing for a ratio above 1 + eps, a bad one nothing for a ratio below 1 - eps, and the gradient vanishes exactly there; everywhere else loss and gradient are those of the plain ratio. The surrogate is never below the unclipped loss. Normalised advantages have mean zero, keep their order, and a minibatch of equal advantages (for instance of one sample) gives no policy gradient. At the first step policy loss, approxkl and clipfrac are zero. The value loss is never below the squared error, equal to it inside the range, flat outside; with the default range values the best attainable loss is the distance of the return from the range around the old value.", "quantifier": "all probabilities, advantages, returns, old values, clip ranges and minibatch sizes, over the reals", "why_tests_cant": "The loss is a sum of piecewise functions of unbounded reals; a sign or a swapped max/min still trains and shows up only as slower learning.", "anchors": ["neorl/rl/baselines/ppo2/ppo2.py:setup_model", "neorl/rl/baselines/ppo2/ppo2.py:_train_step"]}
{"id": "C107", "title": "Action choice and Bellman error of DQN", "statement": "Epsilon-greedy action choice has the documented probabilities (1 - eps + eps/m for the first greatest value, eps/m for the others). The threshold of the parameter noise is the divergence between greedy and epsilon-greedy policy, and the noise scale adapts towards it. The Bellman error is the value of the taken action minus reward plus discounted value of the best next action by the target network (chosen by the online network for double Q), without the next state at the end of an episode; the target is a gamma-contraction in the target network, and the double target never exceeds the plain one. The derivative of the Huber loss is the clipped error, so no sample pulls harder than its weight over the batch size. The dueling head keeps the ranking of the advantages and averages to the state value.", "quantifier": "all Q values, rewards, weights, discounts in [0,1], numbers of actions and batch sizes, over the reals", "why_tests_cant": "The probabilities and inequalities range over all real inputs and all network outputs; a test sees single numbers.", "anchors": ["neorl/rl/baselines/deepq/build_graph.py:build_act", "neorl/rl/baselines/deepq/build_graph.py:build_act_with_param_noise", "neorl/rl/baselines/deepq/build_graph.py:build_train", "neorl/rl/baselines/shared/tf_util.py:huber_loss", "neorl/rl/baselines/deepq/policies.py"]}
{"id": "C108", "title": "Policy update of ACER", "statement": "Truncated importance sampling with bias correction is unbiased: averaged over the behaviour policy the two gains weigh every action by its probability under the current policy, up to c*eps, and no single weight exceeds c. The trust region step leaves a gradient alone that respects the constraint and otherwise is the nearest gradient that does (up to the share of eps); the constraint direction is the derivative of the divergence from the average policy. The value is the policy's mean of the Q values. strip drops the last step of every environment and keeps the others aligned, get_by_index picks the taken action, and the episode statistics are those of the last 40 finished episodes however the rewards are cut into batches. Defect: with the trust region the entropy coefficient has no effect.", "quantifier": "all policies, behaviours, advantages, gradients, numbers of actions, environments, steps and batches, over the reals", "why_tests_cant": "Unbiasedness is an identity over all distributions and the projection an optimisation over all vectors; runs only show that training goes on.", "anchors": ["neorl/rl/baselines/acer/acer_simple.py:get_by_index", "neorl/rl/baselines/acer/acer_simple.py:strip", "neorl/rl/baselines/acer/acer_simple.py:EpisodeStats", "neorl/rl/baselines/acer/acer_simple.py:setup_model", "neorl/rl/baselines/shared/tf_util.py:gradient_add"]}
{"id": "C109", "title": "Input files", "statement": "A file of well-formed lines gives back exactly the entries of every card: comments, blank lines and padding do not matter, and the last of several entries of one name wins. A value containing '=' is cut at the second '=' (defect); a line without '=' aborts the run; env_data spread over several lines is joined; with unmatched braces the reader never ends (defect). A card is accepted exactly if all names are known, all values convert and the required parameters are given; the rules that ask for a model in test or continue mode never fire (defect). Values are the user's if given, else the documented defaults; check_freq is rounded up to the least multiple of the number of cores; the cores of all cards stay within maxcores. A TUNE card needs a method and exactly one algorithm card, and its external files must exist; any text given for a bool of it, even False, means True (defect).", "quantifier": "all files (any number of lines of any text), all cards and parameter tables, all core counts", "why_tests_cant": "The input is unbounded text; tests try a few files, not every mixture of comments, blanks, order and missing entries.", "anchors": ["neorl/parsers/PARSER.py:InputParser", "neorl/parsers/PARSER.py:InputChecker", "neorl/parsers/TuneChecker.py", "neorl/parsers/ParamList.py"]}
{"id": "C110", "title": "Control drum reactivity model", "statement": "integrate and integrate_sq return the exact integrals of the piecewise linear current and of its square between two angles of the table. The table holds every row of the file at its shifted angle and all whole turns of it in [-3 pi, 3 pi), increasing, and its curve has period 2 pi. eval is the weighted sum of the changes of the absorbed squared current; whole turns do not change it and the drums at rest have none. evald is the partial derivative of eval by the angle of a drum and evalg the gradient. Defects: a lower bound on a table angle with no other angle inside prolongs the wrong line; eval with a starting position always raises; evalg raises for angles beyond the table that eval accepts.", "quantifier": "all increasing tables of any length, all angles, coating widths and coefficients, over the reals", "why_tests_cant": "Exactness of an integral and of a derivative are statements about all reals; a test compares a few numbers within a tolerance.", "anchors": ["neorl/benchmarks/reactivity_model.py:integrate", "neorl/benchmarks/reactivity_model.py:integrate_sq", "neorl/benchmarks/reactivity_model.py:int_bounds", "neorl/benchmarks/reactivity_model.py:adj_coords", "neorl/benchmarks/reactivity_model.py:get_jminus", "neorl/benchmarks/reactivity_model.py:ReactivityModel"]}
{"id": "C111", "title": "Bit flipping and identity environments", "statement": "A step of the bit flipping environment flips exactly the chosen bit (continuous variant: the bits with positive components); reward 0 and is_success come exactly at all ones, with either kind of observation; the episode ends at the goal or at max_steps. The discrete observation tells all states apart. An episode of bit flips needs at least as many steps as there are zeros and can do with that many. An identity episode lasts ep_length steps and its return is ep_length exactly for policies that repeat every state shown. Defects: the goal observation is outside the declared Discrete(2**n - 1); an episode that starts at the goal is not noticed and with one bit cannot succeed. A reset forgets the episode before it.", "quantifier": "all numbers of bits, states, actions, step limits and episode lengths", "why_tests_cant": "The claims are about every policy and every episode; a test plays one.", "anchors": ["neorl/rl/baselines/shared/bit_flipping_env.py:BitFlippingEnv", "neorl/rl/baselines/shared/identity_env.py:IdentityEnv", "neorl/rl/baselines/shared/identity_env.py:IdentityEnvBox"]}
{"id": "C112", "title": "Trajectory segments", "statement": "While the callback lets it go on, traj_segment_generator cuts the interaction of policy and environment into consecutive pieces of exactly horizon steps without loss or repetition: segment j shows observations, actions, rewards, values, ends and starts of episodes of the steps jH ... jH+H-1, the value to bootstrap from (0 after the end of an episode), and returns and lengths of exactly the episodes that ended in it. Defect: if the callback stops at step t, the last segment shows observation, value and action of step t but reward and end of episode of step t-horizon (or zeros).", "quantifier": "all policies (with memory), environments, reward givers, horizons, numbers of segments and stopping times", "why_tests_cant": "The claim relates an unbounded stream of steps to the contents of buffers that are overwritten; a test looks at some segments of one environment.", "anchors": ["neorl/rl/baselines/shared/runners.py:traj_segment_generator"]}
{"id": "C113", "title": "Recurrent layer: batches by environment, resets and consistency of acting and training", "statement": "The LSTM layers treat every environment alone: from a flat batch ordered by environment the layer computes for each sample what this environment's own features, masks and first state lead to, and returns the state after the last step. On any minibatch of whole environments cut as PPO2 cuts it, with the states stored at the start of the rollout, the training network computes for every sample the output it had while acting. After a step with mask 1 nothing earlier has influence. Outputs stay strictly between -1 and 1, cells grow by less than one per step. Within an episode the cell is what the forget gate keeps plus what the input gate lets in, the output what the output gate lets out of the new cell; layer normalisation centres and scales over all four gates at once.", "quantifier": "all weights, widths, numbers of environments, lengths, features, masks, states and minibatches", "why_tests_cant": "The order of reshapes and transpositions between acting and training matters for every batch shape; a test checks one.", "anchors": ["neorl/rl/baselines/shared/tf_layers.py:lstm", "neorl/rl/baselines/shared/tf_layers.py:_ln", "neorl/rl/baselines/shared/tf_layers.py:lnlstm", "neorl/rl/baselines/shared/tf_util.py:batch_to_seq", "neorl/rl/baselines/shared/tf_util.py:seq_to_batch", "neorl/rl/baselines/shared/policies.py:LstmPolicy"]}
{"id": "C114", "title": "Predicted actions and reported action probabilities", "statement": "An observation is taken as a single one or as a batch exactly according to its shape, never ambiguously. predict answers every observation in order with an action inside the Box, the nearest one to the sampled action. action_probability reports for Discrete, MultiDiscrete and MultiBinary exactly exp(-neglogp) of the distribution that is sampled from and trained with (or its logarithm), and all categories sum to 1. Defects: for Box it reports the density of Gaussians with variance exp(sigma) instead of sigma**2, wrong for every policy (at the mean at most 2/e of the density per dimension); batch sizes are not checked for Box; negative numbers are answered as actions; without actions a single observation gets only the mean (Box) or the first category (MultiDiscrete).", "quantifier": "all network outputs, action dimensions, numbers of categories, batches and actions", "why_tests_cant": "The agreement of two formulas for all real logits and actions, and the claim that one of them is wrong for every policy, cannot be settled by examples; densities are rarely compared in tests.", "anchors": ["neorl/rl/baselines/shared/base_class.py:BaseRLModel._softmax", "neorl/rl/baselines/shared/base_class.py:BaseRLModel._is_vectorized_observation", "neorl/rl/baselines/shared/base_class.py:ActorCriticRLModel.predict", "neorl/rl/baselines/shared/base_class.py:ActorCriticRLModel.action_probability", "neorl/rl/baselines/shared/policies.py:ActorCriticPolicy._setup_init"]}
{"id": "C115", "title": "Saved models are loaded unchanged", "statement": "Attributes survive saving and loading, in order, if each is exactly representable in JSON (no tuples, only string keys) or not accepted by JSON at all (then pickled); custom_objects replace exactly the attributes they name. Parameters come back complete and in order whatever the order in the archive. load_parameters sets exactly the variables named; unknown names and, with exact_match, missing ones are errors and then nothing is loaded. A file saved is the file loaded. Defects: values that JSON accepts but cannot represent come back silently changed (a model saved with policy_kwargs containing a tuple refuses to load with the same policy_kwargs); dictionaries with other keys make saving fail; an entry called :serialized: is taken for a pickle; an old file of the bare name is loaded instead of the new archive; models saved with cloudpickle=True are not found again by the same name; surplus entries of a parameter list are ignored.", "quantifier": "all attribute values of any nesting, all sets of variables, parameter dictionaries and lists, archives, paths and file systems", "why_tests_cant": "The round trip must hold for every nested value and every order; tests save and load a few models.", "anchors": ["neorl/rl/baselines/shared/save_util.py:is_json_serializable", "neorl/rl/baselines/shared/save_util.py:data_to_json", "neorl/rl/baselines/shared/save_util.py:json_to_data", "neorl/rl/baselines/shared/save_util.py:params_to_bytes", "neorl/rl/baselines/shared/save_util.py:bytes_to_params", "neorl/rl/baselines/shared/base_class.py:BaseRLModel._save_to_file_zip", "neorl/rl/baselines/shared/base_class.py:BaseRLModel._save_to_file_cloudpickle", "neorl/rl/baselines/shared/base_class.py:BaseRLModel._load_from_file", "neorl/rl/baselines/shared/base_class.py:BaseRLModel.load_parameters", "neorl/rl/baselines/shared/base_class.py:BaseRLModel.get_parameters", "neorl/rl/baselines/shared/base_class.py:ActorCriticRLModel.load"]}
{"id": "C116", "title": "Run directories of TensorBoard logs", "statement": "The latest run id is the greatest number of a directory called name_number, 0 if there is none; other names do not count. A new run never writes into a directory that is there and gets a number greater than all earlier runs; consecutive runs are numbered consecutively; a continued run writes where the latest run of its name wrote.", "quantifier": "all log names, directory contents and numbers of sessions", "why_tests_cant": "The contents of the log directory are unbounded; numerals of different lengths, names that are prefixes of others and underscores in names all matter.", "anchors": ["neorl/rl/baselines/shared/base_class.py:TensorboardWriter"]}
{"id": "C117", "title": "What is logged during training can be read back", "statement": "The value reported for a key is the last one logged, or the mean of all those given to logkv_mean since the last dump, whatever happens under other keys. The CSV file of any run is a table: every key ever logged is one column, never moved, every dump one row, and each cell holds what that dump logged, also when columns appear late and the file is rewritten in place. read_tb returns the table of the dumps of a run. JSON lines hold every key with its value. The console table shows every key of at most 23 characters, sorted, in lines of equal length. A successful dump hands the same values to all formats and forgets them. Defects: values with commas are not quoted; two empty first dumps give a row that is too long; long keys that agree in 20 characters share a line; mixing logkv and logkv_mean gives wrong weights; None makes later averaging fail; batches of one vector cannot be written as JSON; a text makes TensorBoard fail and the same values are then written again; two runs in one directory are mixed by read_tb.", "quantifier": "all sequences of calls, keys, values, numbers of dumps and late columns, all orders of sets", "why_tests_cant": "The file is rewritten in place each time a column appears, so its contents depend on the whole history of keys; tests look at a few fixed dumps.", "anchors": ["neorl/rl/baselines/shared/logger.py:HumanOutputFormat", "neorl/rl/baselines/shared/logger.py:JSONOutputFormat", "neorl/rl/baselines/shared/logger.py:CSVOutputFormat", "neorl/rl/baselines/shared/logger.py:TensorBoardOutputFormat", "neorl/rl/baselines/shared/logger.py:Logger", "neorl/rl/baselines/shared/logger.py:read_tb"]}
{"id": "C118", "title": "A model always works on the environment it was last given", "statement": "A model constructed with an environment, or with the name of one, is coherent: its spaces, number of environments, wrapper and normaliser are those of the environment. set_env accepts exactly the environments whose spaces agree and that are vectorised (or single) as the model needs; a refused one changes nothing but the runner. However often environments are attached and learning is started, the model stays coherent, and with a recurrent policy or ACER the number of environments never changes. If the network was set up for the present environments, and with ACKTR always, learning takes no more steps than asked for and falls short by less than a rollout, and each epoch of PPO2 uses every sample once. Code in a region of reduced verbosity cannot change the levels of the loggers outside. Defects: A2C and PPO2 keep the old batch size when the number of environments changes, so learning takes a wrong number of steps and PPO2 fails or drops samples; a model constructed without environment never accepts one; a plain environment accepted by the constructor is refused by set_env; a refused environment throws the runner away; the TensorFlow variable is set to 0 if it was unset.", "quantifier": "all sequences of set_env and learn calls, all environments, numbers of environments and of steps, all shuffles, all nestings of verbosity regions", "why_tests_cant": "Tests attach one matching environment; what goes wrong depends on the history of environments and on ratios of sizes.", "anchors": ["neorl/rl/baselines/shared/base_class.py:BaseRLModel.__init__", "neorl/rl/baselines/shared/base_class.py:BaseRLModel.set_env", "neorl/rl/baselines/shared/base_class.py:BaseRLModel._setup_learn", "neorl/rl/baselines/shared/base_class.py:ActorCriticRLModel.set_env", "neorl/rl/baselines/shared/base_class.py:SetVerbosity", "neorl/rl/baselines/shared/base_class.py:_UnvecWrapper", "neorl/rl/baselines/acer/acer_simple.py:ACER.set_env", "neorl/rl/baselines/a2c/a2c.py:A2C.learn", "neorl/rl/baselines/ppo2/ppo2.py:PPO2.learn", "neorl/rl/baselines/acktr/acktr.py:ACKTR.learn"]}
{"id": "C119", "title": "Annealing from an input file is a Metropolis chain within the bounds", "statement": "Every run of SAAgent.build that ends is a Metropolis chain: each candidate is one move away from the position reached before, kept exactly if it is not worse or the draw is at most the acceptance number of that step's temperature. singleswap changes exactly one coordinate and dualswap exactly two, each to a different value within its bounds; with integer bounds every evaluated vector consists of integers within them, and all have the same length. Reports come exactly at the multiples of check_freq and at step steps, each gives the best of all vectors evaluated so far and the exact counts of trials, acceptances and improvements since the report before. Rows of a data set are tried in rounds, each row once per round. All cooling schedules fall strictly; the fast one reaches Tmin at step steps. Defects: one step too many is made, colder than Tmin, and never reported; nothing is returned; without bounds (the default) the agent cannot be constructed; a start vector of several entries is refused; quadswap fails or never moves; a coordinate with equal bounds makes swaps loop forever; bounds are truncated towards zero. Full swaps redraw exactly the coordinates drawn below indpb; data moves take rows exactly when drawn below indpb_kbs, each row once per round.", "quantifier": "all cards, fitness functions, draws, acceptance numbers, temperatures, numbers of steps and data sets", "why_tests_cant": "The runs are random and long; whether counters, best-so-far and rounds are right depends on the whole history.", "anchors": ["neorl/evolu/runners/sa.py:SAAgent.__init__", "neorl/evolu/runners/sa.py:SAAgent.singleswap", "neorl/evolu/runners/sa.py:SAAgent.dualswap", "neorl/evolu/runners/sa.py:SAAgent.quadswap", "neorl/evolu/runners/sa.py:SAAgent.fullswap", "neorl/evolu/runners/sa.py:SAAgent.kbs", "neorl/evolu/runners/sa.py:SAAgent.build"]}
{"id": "C120", "title": "The optimiser of ACKTR solves the damped Fisher system and stays in its trust region", "statement": "For orthogonal eigenvectors and positive damping the update of a dense layer (bias as last row) is the one matrix that the damped Fisher block, with plain or factored damping, maps to the gradient; it is a descent direction; the threshold on the eigenvalues changes a factor's quadratic form by at most 1e-6 of the squared length. All updates are multiplied by one number in (0, 1], which is 1 exactly when v_g is at most clip_kl; the quadratic form of the Fisher matrix at lr times the updates is the smaller of v_g and clip_kl. The statistics are the mean of the covariances after cold_iter steps and then their running average with weights that sum to one. After t steps every step has updated the statistics, min(t, cold_iter + 1) steps were cold, factors were computed at the multiples of kfac_update from cold_iter on, and the factors in use are those of the last such step. The move of every step is spelled out. Defects: in step cold_iter both optimisers move the parameters (in the step before, too, depending on a race); with a large kfac_update the steps after the cold phase use the bare gradient without clipping or trust region.", "quantifier": "all shapes, gradients, covariances, learning rates, settings, orders of the unordered read and numbers of steps", "why_tests_cant": "The claims are about exact algebra of matrices and about which of several conditional operations ran over a whole training; no run can show them for all states.", "anchors": ["neorl/rl/baselines/acktr/kfac.py:KfacOptimizer.get_kfac_precond_updates", "neorl/rl/baselines/acktr/kfac.py:KfacOptimizer.compute_stats", "neorl/rl/baselines/acktr/kfac.py:KfacOptimizer._apply_stats", "neorl/rl/baselines/acktr/kfac.py:KfacOptimizer.apply_stats", "neorl/rl/baselines/acktr/kfac.py:KfacOptimizer.apply_stats_eigen", "neorl/rl/baselines/acktr/kfac.py:KfacOptimizer.apply_gradients_kfac", "neorl/rl/baselines/acktr/kfac.py:KfacOptimizer.apply_gradients", "neorl/rl/baselines/acktr/kfac_utils.py:clipout_neg"]}
{"id": "C121", "title": "The genetic algorithm of the input-file runner: children, survivors, reports", "statement": "The agent is made exactly when both bounds and the types are given with equal lengths; lambda is pop unless a positive number was given. A run of n generations makes lambda (n + 1) evaluations, every one at a vector within the bounds with integers for int parameters (in KBS mode: if the data set has such rows). In each generation child k is, as its draw says, a two-point crossover of two different members, a mutation of one member (int: strategy updated and reflected into [smin, smax], value changed exactly when the draw is below it; float: strategy multiplied, value moved and clamped) or a copy; exactly the pop best children survive, best first; in KBS mode the worst survivors get rows of the data set, keeping fitness and strategy. There is one report for each multiple of check_freq and for the last generation, giving the greatest fitness among that generation's evaluations. Strategies stay positive, those of int parameters in [smin, smax]. With two parameters, two survivors and sensible settings no run fails. Defects: the reported best can fall since nothing remembers it; float strategies exceed every bound; one survivor or one parameter makes crossover fail; grid parameters fail; KBS mode fails with more replacements than survivors, with values off an int range, and leaves stale fitness.", "quantifier": "all cards, bounds, fitness functions, draws and numbers of generations", "why_tests_cant": "Which vectors are evaluated and which survive depends on all random draws of a whole run.", "anchors": ["neorl/evolu/runners/ga.py:GAAgent.__init__", "neorl/evolu/runners/ga.py:GAAgent.GenES", "neorl/evolu/runners/ga.py:GAAgent.init_pop", "neorl/evolu/runners/ga.py:GAAgent.GenOffspring", "neorl/evolu/runners/ga.py:GAAgent.evolute", "neorl/evolu/runners/ga.py:GAAgent.build", "neorl/evolu/crossover.py:mutES", "neorl/evolu/crossover.py:cxES2point", "neorl/evolu/crossover.py:select"]}
{"id": "C122", "title": "Grid and random tuning from an input file: templates, cases and the ranking", "statement": "The template is the input file without the TUNE card, all other lines unchanged; a later line that mentions READ TUNE keeps the card in it (defect). The case files are the template with every value in all holes of its own placeholder and nothing else changed, though the placeholders are replaced one after the other; a value that forms a placeholder with braces around it is replaced twice (defect). Grid search: it stops exactly when a tuned name is not in the template; the cases are all combinations, first name slowest, as many as the product of the list lengths. Random search: with value lists written as documented exactly ncases cases are made, every value within its range or choices, and every value can be drawn; a list without a keyword shifts all later values to the wrong names (defect). A case gives a row exactly if its run left one log with a reward; mean over the last n episodes and maximum are right; the table ends with exactly the successful cases in order, failed plus successful is the number of cases, and the rankings hold the best 20.", "quantifier": "all input files, cards, templates, values, random draws, run outcomes and orders of completion", "why_tests_cant": "Templates, placeholders and values are unbounded text, and the table depends on the order in which parallel runs finish.", "anchors": ["neorl/tune/runners/gridtune.py:GRIDTUNE.tune_count", "neorl/tune/runners/gridtune.py:GRIDTUNE.gen_cases", "neorl/tune/runners/gridtune.py:GRIDTUNE.case_object", "neorl/tune/runners/gridtune.py:GRIDTUNE.run_cases", "neorl/tune/runners/randtune.py:RANDTUNE.tune_count", "neorl/tune/runners/randtune.py:RANDTUNE.gen_cases", "neorl/tune/runners/randtune.py:RANDTUNE.run_cases"]}
{"id": "C123", "title": "Bayesian and evolutionary tuning from an input file: cards, cases, numbering, operators and the table", "statement": "Names, ranges and types are those of the TUNE card in its order; a tuned name that is not in the template stops the search. Bayesian search: the evaluations are exactly those the surrogate proposes from the values and answers so far, at least eleven; rows are numbered without gaps and no two cores share a number; a failed case leaves its number to the next one, whose file overwrites it (defect); on several cores the reported number of cases is wrong unless it is a multiple of the cores with eleven each, and failures are never counted (defects). Evolutionary search: ten cases per generation, numbered 1, 2, 3, ..., every value in its range or choices, every child a two-point crossover, a mutation or a copy of members of the population before, the five best of ten survive; it never raises with two or more hyperparameters, integer ranges of two values or more and cases that all succeed. Defects: with one hyperparameter every crossover raises, with an integer range of one value every mutation, a generation in which only some cases fail stops the search, the first ten results are not used at all, the summary always says that no case failed and reports the requested number. In both, tune.csv ends with exactly the successful cases in order and the rankings hold the best 20; the reported mean is that of the fourth column after the number, the mean reward only for exactly three hyperparameters, and one hyperparameter gives no summary (defects).", "quantifier": "all cards, templates, values, surrogates, random draws, numbers of cases and cores, run outcomes and orders of completion", "why_tests_cant": "The course of a search depends on all random draws, on which cases fail and on the order in which parallel runs finish.", "anchors": ["neorl/tune/runners/bayestune.py:BAYESTUNE.tune_count", "neorl/tune/runners/bayestune.py:BAYESTUNE.case_object", "neorl/tune/runners/bayestune.py:BAYESTUNE.run_gp_minimize", "neorl/tune/runners/bayestune.py:BAYESTUNE.run_cases", "neorl/tune/runners/estune.py:ESTUNE.tune_count", "neorl/tune/runners/estune.py:ESTUNE.GenES", "neorl/tune/runners/estune.py:ESTUNE.fit", "neorl/tune/runners/estune.py:ESTUNE.select", "neorl/tune/runners/estune.py:ESTUNE.cx", "neorl/tune/runners/estune.py:ESTUNE.mutES", "neorl/tune/runners/estune.py:ESTUNE.GenOffspring", "neorl/tune/runners/estune.py:ESTUNE.run_cases"]}
{"id": "C124", "title": "A2C and ACKTR: the losses, their gradients, clipping, the optimiser step and the learning rate", "statement": "The gradient of the loss with respect to the logits is the advantage times (probability minus one-hot) plus the entropy term, with respect to a Gaussian policy and to the values the corresponding formula. A step against it makes an action more likely exactly if its advantage is positive; a constant baseline has no effect on average; the entropy bonus is stationary only at equal probabilities. ACKTR trains on the same loss as A2C but reports a policy loss that contains the entropy; with continuous actions it normalises the advantages, so a batch of equal advantages teaches the policy nothing but entropy. Gradients are scaled down together to max_grad_norm, and only if longer. A parameter moves against its gradient by at most lr/sqrt(1-alpha). Update u of learn uses the schedule at time step (u+1)N-1; with the linear schedule the rates fall and stay positive; learn makes total//N updates unless a callback stops it.", "quantifier": "all batches, logits, Gaussian parameters, values, advantages, coefficients, gradients, schedules, numbers of updates and callback decisions", "why_tests_cant": "A gradient formula holds at every point; a test evaluates it at a few points up to rounding, and a wrong sign or factor of a small term goes unnoticed in a learning curve.", "anchors": ["neorl/rl/baselines/a2c/a2c.py:A2C.setup_model", "neorl/rl/baselines/a2c/a2c.py:A2C._train_step", "neorl/rl/baselines/a2c/a2c.py:A2C.learn", "neorl/rl/baselines/acktr/acktr.py:ACKTR.setup_model", "neorl/rl/baselines/acktr/acktr.py:ACKTR._train_step", "neorl/rl/baselines/shared/tf_util.py:mse"]}
{"id": "C125", "title": "A run from an input file: command line, log directory, header files, processes and modes", "statement": "After a successful start the log directory, named by the part of the file name before the first dot, holds two files per method with the header lines and nothing else; the earlier log with everything below it is in the directory with `old_` in front; nothing else changes except missing parents. Every agent finds the files named after its casename. Reading a header line at the commas gives the declared names. One process is started per method with its flag set. Defects: with a directory in the name the second run stops with an exception; with a blank in the name another directory is deleted; several column names starting with the default letter are not counted; the log is moved also in mode test or a refused mode; option -c is ignored.", "quantifier": "all file systems, file names, methods, column names, flags, modes and command lines", "why_tests_cant": "A test starts one or two runs in an empty directory; that nothing else on the disk changes, for every earlier state of the disk and every name, is beyond it.", "anchors": ["neorl/scripts.py:main", "neorl/parsers/PARSER.py:InputParser.__init__", "neorl/utils/initfiles.py:initfiles", "neorl/utils/multiproc.py:MultiProc.run_all"]}
{"id": "C126", "title": "Training from an input file: checks, best and last model, figures, end of the process, evaluation", "statement": "At each check the last avg rewards are averaged; the last model on disk is that of the last check that could read the rewards, the best model that of the first check with the largest mean. Checks come at the common multiples of check_freq and the number of environments and at time_steps. A figure shows for every column the mean, deviation, minimum and maximum of consecutive blocks that make up the column, in a grid with room for all columns. Evaluation runs exactly n episodes, each from a reset to its first done. Defects: the training never returns, so build never saves its own file and the process always ends with status 1 or an exception; if time_steps is a multiple of the rollout the saved last model lacks the last update, with one rollout it is untrained; with check_freq 0 nothing is saved; with avg 0 or 100 columns the figure raises; evaluate_policy returns nothing although described to return the reward.", "quantifier": "all reward files over time, weights, numbers of environments, rollout lengths, frequencies, window lengths, time steps, agents, environments and predictors", "why_tests_cant": "Which of many saved models is the best, and at which update the process stops, depends on all numbers together; a test sees a file appear and a process end.", "anchors": ["neorl/utils/neorlcalls.py:SavePlotCallback.runcall", "neorl/utils/neorlcalls.py:SavePlotCallback._on_step", "neorl/utils/neorlcalls.py:SavePlotCallback._on_training_end", "neorl/utils/neorlcalls.py:SavePlotCallback.calc_cumavg", "neorl/utils/neorlcalls.py:SavePlotCallback.plot_progress", "neorl/utils/test_policy.py:evaluate_policy", "neorl/rl/runners/a2c.py:A2CAgent.build", "neorl/rl/runners/dqn.py:DQNAgent.build"]}
{"id": "C127", "title": "The networks of the policies: encoding of observations, layers, heads, recurrent policies, initial weights and registry", "statement": "Different observations of a space reach the network as different vectors of the length fixed by the space. A feed-forward policy computes shared layers and then those of policy and value, as net_arch says; no two layers have the same name, and the policy depends on no variable of the value network, nor the reverse. Accepted are exactly the lists of sizes, then possibly a dict. A recurrent policy needs exactly one recurrent layer before the dict. The initial weights have orthogonal columns or rows, so no layer lengthens a vector by more than its scale. nature_cnn needs images of at least 36 by 36. Registering a policy makes its name stand for it and changes no other name. Defects: a box component with equal bounds becomes not a number when other bounds differ; what follows the dict in net_arch is ignored; a CNN policy ignores net_arch and layers; a deterministic step returns the probability of another action.", "quantifier": "all observation spaces, observations, architectures, variables, activation functions, batches, image sizes, decompositions and registries", "why_tests_cant": "A test builds a few networks and looks at shapes; that a variable has no effect on an output, for all architectures and values, is not visible in shapes.", "anchors": ["neorl/rl/baselines/shared/policies.py:mlp_extractor", "neorl/rl/baselines/shared/policies.py:nature_cnn", "neorl/rl/baselines/shared/policies.py:FeedForwardPolicy", "neorl/rl/baselines/shared/policies.py:LstmPolicy", "neorl/rl/baselines/shared/policies.py:register_policy", "neorl/rl/baselines/shared/policies.py:get_policy_from_name", "neorl/rl/baselines/shared/input.py:observation_input", "neorl/rl/baselines/shared/tf_layers.py:linear", "neorl/rl/baselines/shared/tf_layers.py:ortho_init"]}
{"id": "C128", "title": "Pretraining from an expert: every batch once per epoch, the loss, the reports, and what it forgets", "statement": "Pretraining makes one step for every batch of every epoch, in order, and touches no other variable; printing does not change what is learnt. The loss of a sample is minus the logarithm of the probability of the expert's action; below log 2 the agent's best action is the expert's; no agent has a smaller mean loss than the one that has the expert's frequencies as probabilities; for continuous actions the loss is zero exactly for equal actions. Reports are the means over the epoch and over the validation part; without an interval there are 10 to 19 of them from 10 epochs on. It fails exactly for unsupported spaces, an empty training part, or, when printing, an interval of zero or an empty validation part at a report. Defects: the agent is drawn anew, so everything learnt or loaded before is lost, even with no epoch at all; the target network of DQN is another random network.", "quantifier": "all optimisers, datasets, numbers of epochs, intervals, action spaces, values and weights", "why_tests_cant": "A test pretrains a fresh agent for a few epochs; that an agent trained before is forgotten, and that printing has no effect, needs a statement about all states.", "anchors": ["neorl/rl/baselines/shared/base_class.py:BaseRLModel.pretrain", "neorl/rl/baselines/deepq/dqn.py:DQN._get_pretrain_placeholders", "neorl/rl/baselines/ppo2/ppo2.py:PPO2._get_pretrain_placeholders", "neorl/rl/baselines/a2c/a2c.py:A2C._get_pretrain_placeholders"]}
{"id": "C129", "title": "The network of DQN: values, dueling head, layer normalisation, predictions and probabilities", "statement": "The value of an action is the score of its own layers, or with the dueling head the value of the state plus the score less the mean score. The mean value is then the value of the state, and the value of the state takes no part in acting: neither its weights nor the switch `dueling` change the greedy action or the probabilities. predict returns for every observation of a batch, and for a single one, the first of the best actions, or a draw in which every action has a part of [0, 1) as long as its softmax probability. action_probability returns the distribution of every row, or the probability (or its logarithm) of the given action; probabilities are positive, sum to one and are ordered like the values. Wrong batch sizes, actions and keywords are refused. Layer normalisation gives mean 0 and variance at most 1 and makes a common bias ineffective. Defects: LnMlpPolicy ignores dueling=False; LnCnnPolicy acts like CnnPolicy; a normalised layer of one unit makes the network blind; logp without actions is ignored.", "quantifier": "all weights, activation functions, features, layer sizes, observations, numbers of actions and draws", "why_tests_cant": "A test checks that predictions have the right shape; that whole parts of the network have no influence on the actions is a statement about all weights and observations.", "anchors": ["neorl/rl/baselines/deepq/policies.py:FeedForwardPolicy", "neorl/rl/baselines/deepq/policies.py:LnMlpPolicy", "neorl/rl/baselines/deepq/policies.py:LnCnnPolicy", "neorl/rl/baselines/deepq/dqn.py:DQN.predict", "neorl/rl/baselines/deepq/dqn.py:DQN.action_probability"]}
{"id": "C130", "title": "Vectors of environments: attributes and methods, structured observations, wrapped attributes, tiled images, construction", "statement": "get_attr, set_attr and env_method act on exactly the environments named by indices, in order, negative numbers counting from the end; the vector of processes ends, in every order in which the processes run, with the same answers and states as the sequential one and with empty pipes, also if an environment is named twice. Structured observations of both vectors hold, under every key of the space, the entries of all environments in order. Reading an attribute of a wrapped vector gives the wrapper's own, else that of the only inner layer that has it, else an AttributeError. tile_images arranges the images row by row in a grid that is as square as possible and fills up with black. make_vec_env gives every environment its own seed and monitor file. Defects: an attribute read between step_async and step_wait is exchanged with the results of the step; assigning to an attribute of _UnvecWrapper never reaches the environment; an integer of NumPy as index fails.", "quantifier": "all numbers of environments, states, calls, index lists, interleavings, spaces, wrappers, images, seeds", "why_tests_cant": "A test runs one interleaving with distinct indices; that no interleaving and no repetition of indices changes the answers is a statement about all executions.", "anchors": ["neorl/rl/baselines/shared/vec_env/dummy_vec_env.py:DummyVecEnv.env_method", "neorl/rl/baselines/shared/vec_env/subproc_vec_env.py:SubprocVecEnv.env_method", "neorl/rl/baselines/shared/vec_env/subproc_vec_env.py:_flatten_obs", "neorl/rl/baselines/shared/vec_env/util.py:dict_to_obs", "neorl/rl/baselines/shared/vec_env/base_vec_env.py:VecEnvWrapper.__getattr__", "neorl/rl/baselines/shared/tile_images.py:tile_images", "neorl/rl/baselines/shared/cmd_util.py:make_vec_env", "neorl/rl/baselines/shared/base_class.py:_UnvecWrapper"]}
{"id": "C131", "title": "EPSDE's parameter pool: combinations, growth of the pool, the rate of reuse, and what is removed", "statement": "Every run of EPSDE's parameter selection goes through. Every member gets one of the three strategies, a crossover rate 0.1 to 0.9 and a scale 0.4 to 0.9, so one of the three rules makes its trial (a population that has met in one point stays there). A member takes its parameters from the pool exactly if its draw is at most the rate of failures and the pool is not empty. After a generation the pool is what is left of the old pool followed by the rows of all successful members in order; it never shrinks, its first row stays forever, and every row belonged to a member that was successful with it. The rate lies in [0, 1] and is the mean part of failures of all generations up to the eleventh. Defects: from the twelfth generation on it is the mean of the ten generations before the last one, so the last generation has no effect on the next; the row that is removed after a successful reuse is drawn independently of the row that was used, so untried rows disappear and used ones are doubled.", "quantifier": "all populations, numbers of generations, random draws, rules of success", "why_tests_cant": "Which row is removed depends on two unrelated random draws and is never printed; the window of the rate begins only after eleven generations.", "anchors": ["neorl/hybrid/edev.py:EDEV.evolute"]}
{"id": "C132", "title": "Alpine, Shubert and ridge functions, power splits, and the plotted surface", "statement": "The first Alpine function is never negative and vanishes exactly where every coordinate is zero or has sine -0.1, so there are minima besides the origin. The second raises an exception exactly for negative coordinates, else is the product of its factors and at most the product of the roots in size. The two-dimensional Shubert function has a global minimum over the whole plane, at most -9, where one coordinate is best and the other worst for the one-dimensional factor; it repeats with every full turn and under reordering, and is at most 15^n in size. The ridge function is the first coordinate plus the length of the rest: over a box its least value is the lower end, taken only there followed by zeros; without bounds it has no minimum. Power splits add up to one, are fractions, and do not depend on the scale of the network. The plotted surface has the value of the function at every point of an even grid that includes the ends of the domain. Defect: any error of the function gives the same message about CEC17.", "quantifier": "all points of all dimensions, all networks, functions, domains and numbers of points", "why_tests_cant": "Where a minimum lies and that nothing is lower is a statement about all real points; tests evaluate single points.", "anchors": ["neorl/benchmarks/classic.py:alpinen1", "neorl/benchmarks/classic.py:alpinen2", "neorl/benchmarks/classic.py:shubert", "neorl/benchmarks/classic.py:ridge", "neorl/benchmarks/qpower_model.py:QPowerModel.eval", "neorl/benchmarks/__init__.py:bench_2dplot"]}
{"id": "C133", "title": "Logs of several environments read together", "statement": "A log written under a name that is not empty and does not begin with a dot is found again in its directory; no log is read twice and nothing else is read. If all logs are readable, reading them gives every row of every log exactly once, with its place in its log, its time counted from the earliest start of all logs, in the order of times; so rows of different environments come in the order in which their episodes ended by the clock. One log with increasing times comes back unchanged. Without logs, or with one that cannot be read, there is an error. Defects: a log for an empty name is hidden and never found; a JSON log without finished episodes makes the reading of all logs fail, while such a CSV log does not.", "quantifier": "all names, directories, numbers of logs, rows and times, and all orders of rows of equal times", "why_tests_cant": "Merging is tested with one or two logs; that no row is lost or doubled and that the clock order is right for every number of logs with every overlap is a statement about all files.", "anchors": ["neorl/rl/baselines/shared/monitor.py:Monitor.__init__", "neorl/rl/baselines/shared/monitor.py:get_monitor_files", "neorl/rl/baselines/shared/monitor.py:load_results"]}
{"id": "C134", "title": "Seeds, and which runs can be repeated", "statement": "Constructing an optimizer with a seed and running it at once gives the same result in every session, whatever was done before, for every class. The classes that seed again when run (DE, JAYA, MFO, HHO, NGA, NHHO) can be run at any later time, and again, with the same result. With a seed, parallel annealing does not depend on which processes run the chains. Training an agent starts from generators that depend on the seed and the number of environments only. Defects: an object of any other class runs with the seed of whatever object was constructed last, its own seed having no influence; with a seed every generation of SA draws the same numbers, so that a chain that returns to its start can never leave; SA runs with neighbouring seeds share all chains but one; in PESA the seed only influences the first samples, because making the memory sets the generator to a fixed state; prioritized replay always draws the same places; one more environment is the same as the next seed.", "quantifier": "all sessions of constructions, runs and other draws, all generators, programs, chains and seeds", "why_tests_cant": "That a result does not depend on anything done before is a statement about all sessions; a test that runs twice sees two of them.", "anchors": ["neorl/utils/seeding.py:set_neorl_seed", "neorl/evolu/de.py:DE.evolute", "neorl/evolu/es.py:ES.__init__", "neorl/evolu/sa.py:SA.chain_object", "neorl/hybrid/pesacore/er.py:ExperienceReplay.__init__", "neorl/hybrid/pesa.py:PESA.evolute", "neorl/rl/baselines/shared/base_class.py:BaseRLModel.set_random_seed", "neorl/rl/make_env.py"]}
{"id": "C135", "title": "Only comparisons of the fitness matter", "statement": "For DE, JAYA, GWO, WOA, SSA, CS, ACO, HHO, BAT, MFO, ES, PSO (with constriction or a time-dependent weight) and XNES (with two or more samples): if the fitness is replaced by an increasing function of it, or by a decreasing one with the mode exchanged, the optimizer evaluates exactly the same points, returns the same point, raises the same errors, and every fitness it reports, in the result and in all histories, is the function of the one reported before. In particular units and offsets of the fitness do not matter and minimising f is maximising -f. The last also holds for SA, TS and every PSO. SA without soft reinforcement is unaffected by an offset. It does not hold otherwise for SA (the scale plays against the temperature), for TS with a frequency penalty, and for PSO with speed_mech='globw', whose speeds change when a constant is added to the fitness.", "quantifier": "all fitness functions, all strictly monotone changes, all spaces, sizes, draws, generations and both modes", "why_tests_cant": "Two runs agree for every monotone change of every fitness: a test compares finitely many pairs of runs of a random algorithm.", "anchors": ["neorl/evolu/de.py:DE.evolute", "neorl/evolu/jaya.py:JAYA.evolute", "neorl/evolu/gwo.py:GWO.evolute", "neorl/evolu/woa.py:WOA.evolute", "neorl/evolu/ssa.py:SSA.evolute", "neorl/evolu/cs.py:CS.evolute", "neorl/evolu/aco.py:ACO.evolute", "neorl/evolu/hho.py:HHO.evolute", "neorl/evolu/bat.py:BAT.evolute", "neorl/evolu/mfo.py:MFO.evolute", "neorl/evolu/es.py:ES.evolute", "neorl/evolu/pso.py:PSO.evolute", "neorl/evolu/xnes.py:XNES.evolute", "neorl/evolu/sa.py:SA.evolute", "neorl/evolu/ts.py:TS.evolute"]}
{"id": "C136", "title": "Units of the objectives do not matter to NSGA-II", "statement": "If every objective is given in another unit or with another offset (a positive factor and a constant per objective), NSGA-II evaluates the same points in the same order, fails with the same error if it fails, and reports the same Pareto set in every generation, the same last population and the same best points, with the converted fitness vectors; in mode max the reported best values are converted likewise. Minimising the objectives is the same as maximising their negations. The fronts of both sorting algorithms, including the order inside them, do not even change when each objective is replaced by any increasing function of it; the selection does, because crowding distances measure gaps.", "quantifier": "all populations, numbers of objectives, fitness functions, units, offsets, draws, generations, both sorts and both modes", "why_tests_cant": "The two runs are compared for every conversion of every fitness; tests compare a few random runs.", "anchors": ["neorl/multi/nsgaII.py:NSGAII.select", "neorl/multi/nsgaII.py:NSGAII.evolute", "neorl/multi/tools.py:sortNondominated", "neorl/multi/tools.py:sortLogNondominated", "neorl/multi/tools.py:assignCrowdingDist"]}
{"id": "C137", "title": "Where the search starts", "statement": "Without initial guesses every optimizer starts, whatever the random draws, with exactly the requested number of individuals, each inside the bounds, integral in the discrete variables and standing for a point of the user's mixed space; every such point can be drawn (continuous coordinates below their upper bound). With as many guesses as individuals, all in the user's space, individual i stands for guess i. A wrong number of guesses, a guess that is too short or outside the space, an empty integer range and ends of an integer range that are not integers are errors before anything is evaluated. ES starts with strategies inside [smin, smax], PSO with speeds v0 times the positions. From the user's bounds and guesses through to the last generation, grey wolf, particle swarm, JAYA, whale, salp, bat, cuckoo, hawk, moth, differential evolution, evolution strategy, HCLPSO, EPSO, EDEV, NSGA and annealing runs only evaluate points that decode to the user's space.", "quantifier": "all bounds with usable variables, numbers of variables and individuals, guesses and random draws", "why_tests_cant": "Random starts differ each time and a test sees a few of them; the claim is about all draws, all guesses and all spaces.", "anchors": ["neorl/evolu/de.py:DE.GenIndv", "neorl/evolu/de.py:DE.InitPopulation", "neorl/evolu/es.py:ES.GenES", "neorl/evolu/es.py:ES.init_pop", "neorl/evolu/pso.py:PSO.GenParticle", "neorl/evolu/pso.py:PSO.InitSwarm", "neorl/evolu/gwo.py:GWO.init_sample", "neorl/evolu/jaya.py:JAYA.init_population", "neorl/evolu/aco.py:Populations.__initializePopulation", "neorl/evolu/sa.py:SA.InitChains", "neorl/evolu/ts.py:TS.evolute", "neorl/evolu/xnes.py:XNES.evolute"]}
{"id": "C138", "title": "Units of the variables", "statement": "Writing a continuous problem in other units (every variable x_j replaced by a_j x_j + b_j with a_j > 0, bounds and objective rewritten accordingly) gives one and only one problem, and the random starting population is rewritten point by point. With the same random draws, differential evolution, moth-flame, cuckoo search, ant colony and simulated annealing then evaluate exactly the rewritten points, in the same order, and return the rewritten best point with the same fitness and history; grey wolf, whale, salp swarm, JAYA and particle swarm search do so when only the scale of each variable changes; bat search does so when only the zero of each variable moves.", "quantifier": "all boxes of continuous variables, positive scales, shifts, objectives, populations, random draws, numbers of generations, minimisation and maximisation", "why_tests_cant": "The claim compares two whole random runs for every problem and every choice of units; a test compares one pair of runs at most, and floating point noise hides the exact correspondence.", "anchors": ["neorl/evolu/de.py:DE.evolute", "neorl/evolu/mfo.py:MFO.evolute", "neorl/evolu/cs.py:CS.evolute", "neorl/evolu/gwo.py:GWO.evolute", "neorl/evolu/woa.py:WOA.evolute", "neorl/evolu/ssa.py:SSA.evolute", "neorl/evolu/jaya.py:JAYA.evolute", "neorl/evolu/pso.py:PSO.evolute", "neorl/evolu/bat.py:BAT.evolute", "neorl/evolu/hho.py:HHO.evolute", "neorl/evolu/aco.py:ACO.evolute", "neorl/evolu/sa.py:SA.evolute"]}
{"id": "C139", "title": "Statistics and gradient steps shared by processes", "statement": "mpi_moments gives every process the mean, the standard deviation and the number of the rows of all processes together, however they are distributed; a deviation of zero means that all rows agree. The running statistics after any sequence of updates are those of all rows seen, shrunk by the initial count, independent of order and distribution. Processes that start MpiAdam with equal parameters stay equal for ever, never fail the synchronisation check, and hold what Adam on one machine computes from the averaged gradients (summed without scaling); under a constant gradient every step has the bias-corrected length and is shorter than the learning rate. sync gives all processes the parameters of rank 0. Defects: the running standard deviation never falls below 1/10, so data in small units are not normalised; parameters that differ are noticed only at every hundredth update and otherwise keep their difference.", "quantifier": "all numbers of processes, rows, entries, updates, gradients, learning rates and parameters of Adam with decay rates in [0,1)", "why_tests_cant": "Needs several MPI processes and unboundedly many updates; a test runs a few updates with one distribution of the data.", "anchors": ["neorl/rl/baselines/shared/mpi_moments.py:mpi_mean", "neorl/rl/baselines/shared/mpi_moments.py:mpi_moments", "neorl/rl/baselines/shared/mpi_running_mean_std.py:RunningMeanStd", "neorl/rl/baselines/shared/mpi_adam.py:MpiAdam.update", "neorl/rl/baselines/shared/mpi_adam.py:MpiAdam.sync", "neorl/rl/baselines/shared/mpi_adam.py:MpiAdam.check_synced"]}
{"id": "C140", "title": "Which environments pass check_env", "statement": "check_env accepts exactly the environments which inherit from gym.Env, have both spaces, return from the first reset and the first step what is documented (an observation of the space and of the Python type that goes with it, four values, a Python number, a Python bool, a dict, for goal environments the computed reward), render in every declared mode if asked, and, unless observations are dictionaries or tuples, take ten more steps without an exception. An environment that always behaves as documented and may be stepped after the end of an episode is accepted. Warnings never decide. Defects: only the first step is compared with the declared space; nan and inf never cause a refusal; the environment is stepped after the end of an episode without a reset; np.bool_, np.float32 and numpy integers are refused.", "quantifier": "all environments (state machines whose methods may raise), spaces, sampled actions and options", "why_tests_cant": "The claim is an equivalence over all environments; a test tries a handful.", "anchors": ["neorl/rl/baselines/shared/env_checker.py:check_env", "neorl/rl/baselines/shared/env_checker.py:_check_obs", "neorl/rl/baselines/shared/env_checker.py:_check_returned_values", "neorl/rl/baselines/shared/env_checker.py:_check_nan", "neorl/rl/baselines/shared/env_checker.py:_check_render"]}
{"id": "C141", "title": "Order of the variables, variables without influence", "statement": "Writing the entries of BOUNDS in another order, leaving out parameters on which the fitness does not depend, or listing a parameter twice describes the same problem, and a fitness for the new listing exists exactly when the old one looks only at the listed parameters. With every variable keeping its random draws, differential evolution, JAYA, grey wolf, whale, salp swarm, moth-flame, cuckoo, particle swarm and ant colony search and simulated annealing then evaluate exactly the same points (rewritten to the new listing) in the same order and return the same best point, fitness and history. Rounding (nearest_int) repairs every integer entry on its own.", "quantifier": "all boxes, listings of their variables, objectives, populations, random draws, numbers of generations, minimisation and maximisation", "why_tests_cant": "The claim compares two whole random runs for every problem and every listing; a test compares one pair of runs, and the draws of a seeded generator are handed to other variables after reordering.", "anchors": ["neorl/evolu/de.py:DE.evolute", "neorl/evolu/jaya.py:JAYA.evolute", "neorl/evolu/gwo.py:GWO.evolute", "neorl/evolu/woa.py:WOA.evolute", "neorl/evolu/ssa.py:SSA.evolute", "neorl/evolu/mfo.py:MFO.evolute", "neorl/evolu/cs.py:CS.evolute", "neorl/evolu/pso.py:PSO.evolute", "neorl/evolu/discrete.py:mutate_discrete", "neorl/evolu/aco.py:ACO.evolute", "neorl/evolu/sa.py:SA.def_move"]}
{"id": "C142", "title": "More generations, and runs continued from the last population", "statement": "Raising ngen never makes the answer worse for differential evolution, JAYA, cuckoo search, particle swarm (constric, globw), ant colony, evolution strategies and XNES: with the same random numbers the evaluated points, the history of the best and the history per generation of the shorter run are the beginning of those of the longer run, and the returned fitness is not worse. Restarting differential evolution from the positions in its last_pop is exactly the longer run: same answer and last population, appended histories. Restarting cuckoo search from its last_pop never loses the best value found.", "quantifier": "all boxes, objectives, initial populations, random draws, numbers of generations n <= n', minimisation and maximisation", "why_tests_cant": "The claim relates runs of different lengths for every pair of lengths; a test compares one pair, and cannot tell an annealing schedule that depends on ngen from noise.", "anchors": ["neorl/evolu/de.py:DE.evolute", "neorl/evolu/jaya.py:JAYA.evolute", "neorl/evolu/cs.py:CS.evolute", "neorl/evolu/pso.py:PSO.evolute", "neorl/evolu/aco.py:ACO.evolute", "neorl/evolu/es.py:ES.evolute", "neorl/evolu/xnes.py:XNES.evolute", "neorl/hybrid/aeo.py:Population.evolute"]}
{"id": "C143", "title": "A run depends on the fitness only through the evaluations it makes", "statement": "For twenty optimizers (DE, JAYA, GWO, WOA, SSA, CS, ACO, HHO, BAT, MFO, ES, PSO, XNES, TS, SA, HCLPSO, EPSO, EDEV, NSGA-II, NSGA-III): if two fitness functions have the same values at the points a run evaluates, the runs are the same, to the last field of the result. So a run can be replayed from a table of its evaluations and a cache in front of an expensive fitness is safe. Conversely a run knows nothing about points it did not evaluate: for any such point and any value there is a fitness with this value there, unchanged elsewhere, for which the same result is returned; with a real variable of positive width there is always a feasible point of this kind, so no run certifies that its answer is optimal.", "quantifier": "all boxes, objectives, initial populations, random draws, numbers of generations, minimisation and maximisation; every pair of objectives", "why_tests_cant": "The claim is about all pairs of objectives that agree on the evaluated points; a test can try a few objectives and never sees a hidden evaluation whose value happens not to matter in that run.", "anchors": ["neorl/evolu/de.py:DE.evolute", "neorl/evolu/jaya.py:JAYA.evolute", "neorl/evolu/gwo.py:GWO.evolute", "neorl/evolu/woa.py:WOA.evolute", "neorl/evolu/ssa.py:SSA.evolute", "neorl/evolu/cs.py:CS.evolute", "neorl/evolu/aco.py:ACO.evolute", "neorl/evolu/hho.py:HHO.evolute", "neorl/evolu/bat.py:BAT.evolute", "neorl/evolu/mfo.py:MFO.evolute", "neorl/evolu/es.py:ES.evolute", "neorl/evolu/pso.py:PSO.evolute", "neorl/evolu/xnes.py:XNES.evolute", "neorl/evolu/ts.py:TS.evolute", "neorl/evolu/sa.py:SA.evolute"]}
{"id": "C144", "title": "The number of processes does not change a run", "statement": "The optimizers evaluate a population by a loop, or with joblib.Parallel when ncores > 1. For every number of workers and every order in which the evaluations end, the values obtained are those of the loop, in its order; at most ncores evaluations run at a time; each item is evaluated exactly once; there is no deadlock and every schedule ends after two events per item; an exception is raised only if it is raised on some item, and the parallel evaluation can fail exactly when the loop fails. Therefore complete runs of DE and PSO, which have separate code for the two cases (PSO updates its memories during the loop, but after the parallel evaluation), are the same for every ncores and every schedule, and the chains of a generation of SA come back in the order of their numbers.", "quantifier": "all numbers of workers, all lists of items, all functions (raising or not), all schedules; for DE and PSO all configurations, draws, initial populations and numbers of generations", "why_tests_cant": "The order in which processes end is not under the control of a test; a test sees a handful of schedules on one machine.", "anchors": ["neorl/evolu/de.py:DE.evolute", "neorl/evolu/pso.py:PSO.evolute", "neorl/evolu/sa.py:SA.chain_object", "neorl/evolu/woa.py:WOA.eval_whales", "neorl/evolu/ssa.py:SSA.eval_salps", "neorl/evolu/cs.py:CS.eval_cuckoos", "neorl/evolu/jaya.py:JAYA.eval_pop", "neorl/evolu/hho.py:HHO.eval_hawks"]}
{"id": "C145", "title": "Which steps the video recorder shows", "statement": "Whatever is called on VecVideoRecorder, every file shows consecutive steps beginning with the first number in its name, and the second number is video_length later; videos follow each other in time; every step at which the trigger is true is shown in a video; closing keeps every video begun. If reset is called only at the beginning, every finished file has video_length + 1 pictures, the last one of the step named, and no step is shown twice. Defects: for length 0 there are two pictures; reset starts a video against the trigger and cuts the one being recorded under its full name; two resets in a row write one file over the other; with the trigger 'every video_length steps' exactly every second video is missing, since the trigger is not asked at the step at which a video ends.", "quantifier": "all video lengths, all triggers, all sequences of calls of reset and step_wait", "why_tests_cant": "A test films one short run and looks at the files; which steps are missing depends on how trigger, length and resets interleave over arbitrarily long runs.", "anchors": ["neorl/rl/baselines/shared/vec_env/vec_video_recorder.py:VecVideoRecorder"]}
{"id": "C146", "title": "Parameter noise of DQN", "statement": "With param_noise=True the actions of an episode come, from the second on, from one fixed network: the online network as it was when the episode began plus noise on the variables the filter accepts; actions are never random. The filter accepts exactly the trainable variables with fully_connected in their name, which in the networks of the library are the dense layers of both streams except the one that ends the convolutional part. Each call makes the noise larger or smaller by 1.01, so its size stays positive, and it grows exactly if the adaptive copy is closer to the online network than the current threshold. The first action of an episode may still be chosen by the network of the episode before (at the very beginning: by one that was initialised independently), and a network without variables called fully_connected is trained without any exploration.", "quantifier": "all networks, filters, trainings, draws, ends of episodes and orders of evaluation within a session run, any number of steps, any number of hidden layers", "why_tests_cant": "A test with one network and one seed sees one order of evaluation and one noise; whether all actions of an episode share one network, and that silence about unperturbed networks holds for every noise, are statements about all runs.", "anchors": ["neorl/rl/baselines/deepq/build_graph.py:default_param_noise_filter", "neorl/rl/baselines/deepq/build_graph.py:build_act_with_param_noise", "neorl/rl/baselines/deepq/dqn.py:DQN.learn", "neorl/rl/baselines/deepq/policies.py:FeedForwardPolicy"]}
{"id": "C147", "title": "Products of tensors and matrices in ACKTR", "statement": "gmatmul multiplies a tensor of any number of dimensions by a square matrix along the dimension it is told: from the left along reduce_dim, from the right along reduce_dim counted from the last; the moving and flattening of dimensions it does internally cancels out. Applying a matrix with orthonormal rows and then its transpose as ACKTR does gives the tensor back. factor_reshape lays the eigenvalues along the same dimension. Two matrices are multiplied as usual whatever reduce_dim says; non-square matrices, missing reduce_dim and other ranks are refused.", "quantifier": "all tensors of three or more dimensions with any sizes, all square matrices, all dimensions, both transpositions", "why_tests_cant": "A test checks a few small shapes; that transposing, flattening, multiplying and undoing both is the intended contraction has to hold for every rank and size.", "anchors": ["neorl/rl/baselines/acktr/kfac_utils.py:gmatmul", "neorl/rl/baselines/acktr/kfac_utils.py:factor_reshape", "neorl/rl/baselines/acktr/kfac.py:KfacOptimizer.apply_gradients_kfac"]}
{"id": "C148", "title": "Statistics of convolutions in ACKTR", "statement": "The convolution is the product of the extracted patches and the kernel, reads only pixels of the image, and its gradient is the sum over the places of patch times output gradient. The two statistics K-FAC keeps for a convolution have as Kronecker product the approximation of Grosse and Martens (inputs summed, gradients averaged over the places); it is the Fisher matrix when inputs and gradients are uncorrelated, gradients at different places are uncorrelated and their products the same everywhere. With approx_t2 it is the Fisher matrix when the inputs of an image are the same at all places. With one place both are the statistics of a dense layer. Both matrices are symmetric and positive semidefinite.", "quantifier": "all batches, image, kernel and output sizes, strides, kernels, inputs and gradients", "why_tests_cant": "A test compares one small convolution; that the scattered divisions and multiplications by height, width and batch size cancel to the intended matrix is an identity in all sizes.", "anchors": ["neorl/rl/baselines/acktr/kfac.py:KfacOptimizer.compute_stats", "neorl/rl/baselines/shared/tf_layers.py:conv"]}
{"id": "C149", "title": "The pipeline of wrap_deepmind", "statement": "For every setting of episode_life, clip_rewards, frame_stack and scale and with or without a FIRE action: the k-th step does the k-th action in the game; the reward is that of the game or its sign; done is reported exactly if the game is over or, with episode_life, a life but not the last is lost; the observation is the last frame, or the last four frames since the reset with the first repeated, divided by 255 with scale. A reset restarts the game exactly if the game was over (always without episode_life) and otherwise continues it with one no-op, followed by actions 1 and 2 where there is FIRE. A convolutional policy gets every pixel divided by 255 once, whether by the wrapper or by the policy; with both frame_stack and scale it is divided twice, so no input exceeds 1/255 (defect).", "quantifier": "all games, settings, states of the wrappers and sequences of actions", "why_tests_cant": "Each wrapper can be tested alone; what the order of the wrappers gives in all sixteen settings over all games and episodes, and that the declared bounds agree with the scaling in the policy, is a statement about compositions.", "anchors": ["neorl/rl/baselines/shared/atari_wrappers.py:wrap_deepmind", "neorl/rl/baselines/shared/atari_wrappers.py:ScaledFloatFrame", "neorl/rl/baselines/shared/atari_wrappers.py:LazyFrames", "neorl/rl/baselines/shared/input.py:observation_input"]}
{"id": "C150", "title": "Trajectory segments", "statement": "While the callback does not object, traj_segment_generator with horizon h yields exactly the consecutive blocks of h steps of the trajectory of an agent that is never interrupted, each with the episodes ending in it and the value of the following observation (0 after an end). End to end the segments are the trajectory, no step lost or repeated and every finished episode reported once, with the number of its steps and the sum of its rewards (or the monitor's figure); up to the values at segment starts the result does not depend on h. If the callback objects in step n, one more dictionary with the n mod h complete steps of the current segment follows and then nothing; its arrays contain step n without its reward and leftovers of the segment before. Without a callback, without a reward giver when imitating, and with horizon 0 it fails.", "quantifier": "all environments, policies, reward givers, callbacks, horizons, numbers of steps, initial states", "why_tests_cant": "Episodes that span segment borders, ends exactly at a border and stops in any position combine in unboundedly many ways; a test fixes one environment and one horizon.", "anchors": ["neorl/rl/baselines/shared/runners.py:traj_segment_generator"]}
{"id": "C151", "title": "Mutation in the genetic tuner", "statement": "GATUNE.mutGATUNE mutates each hyperparameter on its own, with its own draws. A float stays in its range whatever the draws; a draw below one half lowers it, one above raises it, and for values in the range the final clamping changes nothing. A word or integer of a grid becomes a value of the grid, and every word can be drawn. Integer hyperparameters never change (a comparison stands where an assignment is meant), so a search over integers stays where it started. A float of a grid is mutated as if the first two values of the grid were a range: later values are lost, values outside the grid appear, and equal values or words in front are an error.", "quantifier": "all hyperparameters, values, draws, mutation probabilities and exponents", "why_tests_cant": "That no draw changes an integer, and that no draw leaves a range, are statements about all draws; runs of a test show a few.", "anchors": ["neorl/tune/runners/gatune.py:GATUNE.mutGATUNE", "neorl/tune/runners/gatune.py:GATUNE.tune_count"]}
{"id": "C152", "title": "The start of the animorphic ensemble", "statement": "With sizes npop0, or without arguments the sizes of the optimizers, population i of AEO starts with exactly npop0[i] individuals, consecutive ones of the sampled positions, so that nobody is shared or left out; the run that follows returns the best point evaluated, keeps the number of individuals and returns whenever the sizes suffice for the optimizers. With x0 and pop0 it starts with the positions labelled i, in order; different lengths, x0 without pop0 and pop0 alone are errors, but a position with a label that is not the number of an optimizer is dropped without an error. The populations are logged under pairwise different names however many use the same algorithm: the name of the algorithm for the first, followed by 002, 003, ... for the next ones.", "quantifier": "all lists of optimizers, sizes, positions and labels", "why_tests_cant": "The names collide or a block is cut wrongly only for particular combinations of sizes and repeated algorithms; a test has one ensemble.", "anchors": ["neorl/hybrid/aeo.py:AEO.evolute", "neorl/hybrid/aeo.py:get_algo_nmembers", "neorl/hybrid/aeo.py:detect_algo"]}
{"id": "C153", "title": "Which logger is current, and where it writes", "statement": "Programs of configure, reset, ScopedConfigure and logged lines, nested in any way, never write to a closed log. After a scope the logger that was current before is current again and no older logger has been closed, whatever the body did and also if it raised; loggers made by scopes alone are all closed at the end, and a line goes to the innermost scope. reset closes the current logger and no other and goes back to the default one; errors in the body of a scope are raised by it. The five formats write log.txt, progress.json, progress.csv, tb or nothing into the folder given by the argument, the environment or the temporary directory. configure fails exactly for an unknown format and then keeps the current logger, but has emptied the files of the formats before it. With the default formats processes of different ranks write different files. Defects: with given formats the rank is ignored and all processes empty the same files; configure inside a scope leaves the scope's logger open for ever.", "quantifier": "all programs, nestings, arguments, environments and ranks", "why_tests_cant": "Nesting, errors in the body and several processes multiply; a test runs one scope in one process.", "anchors": ["neorl/rl/baselines/shared/logger.py:configure", "neorl/rl/baselines/shared/logger.py:ScopedConfigure", "neorl/rl/baselines/shared/logger.py:reset", "neorl/rl/baselines/shared/logger.py:make_output_format"]}
{"id": "C154", "title": "Seeds and log files of the environments made", "statement": "make_vec_env makes n_envs environments; number i and its action space are seeded with seed + start_index + i and its log is <start_index + i>.monitor.csv in the folder; two environments, of one call or of two with the same seed and folder, share a seed or a log exactly if they have the same number. Keyword arguments are used for a class and ignored with a warning for a name. make_atari_env gives the same seeds and logs but leaves action spaces unseeded. Defects: make_mujoco_env gives the environments of all processes the same seed and the same log file, and fails without a log directory, where the other functions write no log.", "quantifier": "all numbers of environments, seeds, start indices, folders and ranks", "why_tests_cant": "Collisions depend on the ranges of numbers of several calls and processes; a test makes one vector.", "anchors": ["neorl/rl/baselines/shared/cmd_util.py:make_vec_env", "neorl/rl/baselines/shared/cmd_util.py:make_atari_env", "neorl/rl/baselines/shared/cmd_util.py:make_mujoco_env", "neorl/rl/baselines/shared/cmd_util.py:make_robotics_env"]}
{"id": "C155", "title": "Orthogonal initial weights", "statement": "The weights made by ortho_init for a dense layer from m to n units have perpendicular columns of length |scale| if n <= m and perpendicular rows of length |scale| if m <= n; the same for the filters of a convolution with the flattened inputs of a unit as m. So a new dense layer keeps the length of every input up to the scale if m <= n, never exceeds it otherwise, and keeps the length of every gradient if n <= m. Shapes with other than two or four dimensions are refused.", "quantifier": "all sizes, scales, noises and decompositions with the documented laws", "why_tests_cant": "A test checks one shape and one draw of the noise; which of the two factors is picked depends on the shape.", "anchors": ["neorl/rl/baselines/shared/tf_layers.py:ortho_init"]}
{"id": "C156", "title": "Formats and bias of convolutional layers", "statement": "conv adds bias number k to every entry of channel k of a convolution with strides in the directions of the picture only and filters of the sizes given, in the format NHWC, and in NCHW unless one_dim_bias is set; the initial filters are perpendicular with length |scale|. A list of sizes without two entries is refused first, then an unknown format. Defect: with NCHW and one_dim_bias the bias runs along the width: the layer cannot be made unless the width of the result is the number of filters or one of them is one, and if they agree bias j is added to column j of all channels.", "quantifier": "all shapes, numbers and sizes of filters, strides and indices", "why_tests_cant": "Broadcasting gives a result of the right shape even when the bias runs along the wrong dimension.", "anchors": ["neorl/rl/baselines/shared/tf_layers.py:conv", "neorl/rl/baselines/shared/tf_layers.py:ortho_init"]}

import Verif.Seeds
import Mathlib.Tactic.Linarith

/-!
# C134: seeds, and which runs can be repeated
-/

set_option linter.unusedSectionVars false
set_option linter.unusedVariables false

namespace Neorl.Seeds

variable {P N I R X M W : Type} (S : Seeder P N)

theorem execAll_append (a b : List (Cmd P N I R)) (s : Sess P N I R) : execAll S (a ++ b) s = match execAll S a s with
    | .error e => .error e
    | .ok s' => execAll S b s' := by
  induction a generalizing s with
  | nil => rfl
  | cons c cs ih =>
    simp only [List.cons_append, execAll]
    cases exec S s c with
    | error e => rfl
    | ok s' => exact ih s'

/-- Commands that run objects other than the `i`-th. -/
def Leaves (i : ℕ) : Cmd P N I R → Prop
  | .run j _ => j ≠ i
  | _ => True

theorem exec_obj {s s' : Sess P N I R} {c : Cmd P N I R} {i : ℕ} {o : Obj I} (hl : Leaves i c) (ho : s.objs[i]? = some o) (h : exec S s c = .ok s') : s'.objs[i]? = some o := by
  cases c with
  | new k seed init =>
    simp only [exec, Except.ok.injEq] at h
    subst h
    have hi : i < s.objs.length := by
      rcases Nat.lt_or_ge i s.objs.length with h | h
      · exact h
      · rw [List.getElem?_eq_none h] at ho; cases ho
    simpa [List.getElem?_append_left hi] using ho
  | run j prog =>
    simp only [exec] at h
    split at h
    · cases h
    · cases h
      simp only [Leaves] at hl
      simpa [List.getElem?_set, hl] using ho
  | other f => simp only [exec, Except.ok.injEq] at h; subst h; exact ho

theorem execAll_obj {i : ℕ} {o : Obj I} : ∀ {cs : List (Cmd P N I R)} {s s' : Sess P N I R}, (∀ c ∈ cs, Leaves i c) → s.objs[i]? = some o → execAll S cs s = .ok s' → s'.objs[i]? = some o
  | [], s, s', _, ho, h => by cases h; exact ho
  | c :: cs, s, s', hl, ho, h => by
    rw [execAll] at h
    cases hc : exec S s c with
    | error e => rw [hc] at h; cases h
    | ok s1 =>
      rw [hc] at h
      exact execAll_obj (fun c hc => hl c (by simp [hc])) (exec_obj S (hl c (by simp)) ho hc) h

/-- **C134**: without a seed nothing is set; with a seed the generators are what the seed makes of them, whatever they were. -/
theorem C134_seed (g g' : Gens P N) (s : ℤ) : setSeed S none g = g ∧ setSeed S (some s) g = setSeed S (some s) g' ∧ (setSeed S (some s) g).py = S.py s ∧ (setSeed S (some s) g).np = S.np s :=
  ⟨rfl, rfl, rfl, rfl⟩

/-- **C134**: constructing an object with a seed and running it at once can be repeated, for every class: the result is the same in every session, whatever has been done before. -/
theorem C134_repeat (k : Kind) (s : ℤ) (init : Act P N I) (prog : I → Act P N (R × I)) :
    ∃ r, ∀ a : Sess P N I R, ∃ b, execAll S [.new k (some s) init, .run a.objs.length prog] a = .ok b ∧ b.out = a.out ++ [r] := by
  refine ⟨(prog (init (both S s)).1 (setSeed S (if k.seedsRun then some s else none) (init (both S s)).2)).1.1, fun a => ?_⟩
  refine ⟨_, by simp [execAll, exec, setSeed]; rfl, rfl⟩

/-- **C134**: the classes that seed again can be run at any time: whatever is constructed, run or drawn between, the result is that of a run at once. -/
theorem C134_anytime {k : Kind} (hk : k.seedsRun = true) (s : ℤ) (init : Act P N I) (prog : I → Act P N (R × I)) :
    ∃ r, ∀ (a : Sess P N I R) (cs : List (Cmd P N I R)) (m : Sess P N I R), (∀ c ∈ cs, Leaves a.objs.length c) →
      execAll S (.new k (some s) init :: cs) a = .ok m → ∃ b, exec S m (.run a.objs.length prog) = .ok b ∧ b.out = m.out ++ [r] := by
  refine ⟨(prog (init (both S s)).1 (both S s)).1.1, fun a cs m hl h => ?_⟩
  rw [execAll] at h
  have hm : m.objs[a.objs.length]? = some ⟨k, some s, (init (both S s)).1⟩ :=
    execAll_obj S hl (by simp [setSeed]) h
  refine ⟨_, by simp only [exec, hm]; rfl, ?_⟩
  simp [hk, setSeed]

/-- The classes of the previous theorem. -/
theorem C134_which (k : Kind) : k.seedsRun = true ↔ k ∈ [Kind.de, .jaya, .mfo, .hho, .nga, .nhho] := by
  cases k <;> simp [Kind.seedsRun]

/-- **C134**: running such an object twice gives the same result twice, if the first run leaves the object as it was. -/
theorem C134_twice {m m' : Sess P N I R} {i : ℕ} {o : Obj I} (ho : m.objs[i]? = some o) (hk : o.kind.seedsRun = true) {s : ℤ} (hs : o.seed = some s) {prog : I → Act P N (R × I)}
    (hp : ∀ g, (prog o.st g).1.2 = o.st) (h : execAll S [.run i prog, .run i prog] m = .ok m') : ∃ r, m'.out = m.out ++ [r, r] := by
  have hi : i < m.objs.length := by
    rcases Nat.lt_or_ge i m.objs.length with h | h
    · exact h
    · rw [List.getElem?_eq_none h] at ho; cases ho
  simp only [execAll, exec, ho, List.getElem?_set_self hi, hp, Except.ok.injEq] at h
  subst h
  exact ⟨(prog o.st (both S s)).1.1, by simp [hk, hs, setSeed]⟩

/-- **C134** (defect): an object of one of the other classes runs with the seed of the object constructed last: if another object is constructed before it is run, then the own seed has no influence on
the generators at all. -/
theorem C134_overwritten {k : Kind} (hk : k.seedsRun = false) (k' : Kind) (s2 : ℤ) (st : I) (init' : Act P N I) (prog : I → Act P N (R × I)) :
    ∃ r, ∀ (s1 : Option ℤ) (a : Sess P N I R), ∃ b,
      execAll S [.new k s1 (fun g => (st, g)), .new k' (some s2) init', .run a.objs.length prog] a = .ok b ∧ b.out = a.out ++ [r] := by
  refine ⟨(prog st (init' (both S s2)).2).1.1, fun s1 a => ?_⟩
  refine ⟨_, by simp [execAll, exec, setSeed, hk]; rfl, rfl⟩

/-- **C134** (defect): and running it a second time goes on where the generators are: the second result is that of a run from there. -/
theorem C134_goes_on {m : Sess P N I R} {i : ℕ} {o : Obj I} (ho : m.objs[i]? = some o) (hk : o.kind.seedsRun = false) (prog : I → Act P N (R × I)) :
    ∃ m', exec S m (.run i prog) = .ok m' ∧ m'.out = m.out ++ [(prog o.st m.gens).1.1] ∧ m'.gens = (prog o.st m.gens).2 := by
  refine ⟨_, by simp only [exec, ho]; rfl, ?_, ?_⟩ <;> simp [hk, setSeed]

/-! ### SA -/

theorem genStep_fst (chain : ℕ → ℕ → X → Act P N X) (s : ℤ) (w : ℕ → Gens P N) (t : ℕ) (xs : List X) (g : Gens P N) :
    (genStep S chain (some s) w t xs g).1 = xs.mapIdx fun j x => (chain (j + 1) t x (both S (s + ((j + 1 : ℕ) : ℤ)))).1 := by
  unfold genStep
  split
  · simp [setSeed]
  · simp [setSeed]

theorem genStep_snd (chain : ℕ → ℕ → X → Act P N X) (seed : Option ℤ) (w w' : ℕ → Gens P N) (t : ℕ) (xs : List X) (g : Gens P N) :
    (genStep S chain seed w t xs g).2 = (genStep S chain seed w' t xs g).2 := by
  unfold genStep
  split <;> rfl

/-- **C134**: with a seed, parallel annealing gives the same result whichever processes run the chains, whatever state their generators are in. -/
theorem C134_chains (chain : ℕ → ℕ → X → Act P N X) (between : ℕ → List X → Act P N (List X)) (s : ℤ) (w w' : ℕ → ℕ → Gens P N) (t n : ℕ) (xs : List X) (g : Gens P N) :
    saLoop S chain between (some s) w t n xs g = saLoop S chain between (some s) w' t n xs g := by
  induction n generalizing t xs g with
  | zero => rfl
  | succ n ih =>
    simp only [saLoop]
    have h1 : (genStep S chain (some s) (w t) t xs g).1 = (genStep S chain (some s) (w' t) t xs g).1 := by rw [genStep_fst, genStep_fst]
    rw [h1, genStep_snd S chain (some s) (w t) (w' t) t xs g]
    exact ih _ _ _

/-- **C134** (defect): with a seed every generation of SA draws the same numbers: whatever the generation and the generators, chain `j` starts from the state that `seed + j` makes.  So a chain that does not
look at the temperature and comes back to where it began in one generation never moves again. -/
theorem C134_same_draws (chain : ℕ → ℕ → X → Act P N X) (s : ℤ) :
    (∀ (w : ℕ → Gens P N) (t : ℕ) (xs : List X) (g : Gens P N), (genStep S chain (some s) w t xs g).1 = xs.mapIdx fun j x => (chain (j + 1) t x ⟨S.py (s + (j + 1)), S.np (s + (j + 1))⟩).1) ∧
      ((∀ j t x g, chain j t x g = chain j 0 x g) → ∀ (w : ℕ → ℕ → Gens P N) (xs : List X) (g : Gens P N), (genStep S chain (some s) (w 0) 0 xs g).1 = xs →
        ∀ t n g', (saLoop S chain (fun _ x g => (x, g)) (some s) w t n xs g').1 = xs) := by
  constructor
  · intro w t xs g
    rw [genStep_fst]
    simp [both]
  · intro hc w xs g hf t n
    have key : ∀ (t : ℕ) (w : ℕ → Gens P N) (g' : Gens P N), (genStep S chain (some s) w t xs g').1 = xs := by
      intro t w' g'
      rw [genStep_fst] at hf ⊢
      conv_rhs => rw [← hf]
      congr 1
      funext j x
      rw [hc _ t]
    induction n generalizing t with
    | zero => intro g'; rfl
    | succ n ih =>
      intro g'
      simp only [saLoop]
      rw [key]
      exact ih _ _

/-- **C134** (defect): runs with neighbouring seeds share chains: where the chains are alike, chain `j + 1` with seed `s` is chain `j` with seed `s + 1`. -/
theorem C134_neighbours (chain : ℕ → X → Act P N X) (s : ℤ) (w w' : ℕ → Gens P N) (t : ℕ) (xs ys : List X) (g g' : Gens P N) (j : ℕ) (x : X) (hx : xs[j + 1]? = some x) (hy : ys[j]? = some x) :
    (genStep S (fun _ => chain) (some s) w t xs g).1[j + 1]? = (genStep S (fun _ => chain) (some (s + 1)) w' t ys g').1[j]? := by
  rw [genStep_fst, genStep_fst, List.getElem?_mapIdx, List.getElem?_mapIdx, hx, hy]
  simp only [Option.map_some]
  congr 4
  push_cast
  ring

/-! ### PESA -/

theorem runOps_py (ops : List (Op P N M)) (m : M) (g g' : Gens P N) (h : g.py = g'.py) : (runOps S ops m g).1 = (runOps S ops m g').1 := by
  induction ops generalizing m g g' with
  | nil => rfl
  | cons o t ih =>
    cases o with
    | py f => simp only [runOps]; rw [h]; exact ih _ _ _ rfl
    | prior choice b use => simp only [runOps, samplePrior]; exact ih _ _ _ h

/-- **C134** (defect): in PESA the seed has an influence on the first samples only: making the memory sets the generator to a fixed state, so two runs with the same first samples give the same result
for any seeds, also without a seed. -/
theorem C134_pesa (warm : Act P N W) (start : W → M) (ops : W → List (Op P N M)) (s s' : Option ℤ) (g g' : Gens P N) (h : (warm (setSeed S s g)).1 = (warm (setSeed S s' g')).1) :
    pesa S false s warm start ops g = pesa S false s' warm start ops g' := by
  unfold pesa
  simp only []
  rw [h]
  exact runOps_py S _ _ _ _ rfl

/-- **C134**: with a seed all three can be repeated, whatever has been drawn before. -/
theorem C134_pesa_repeat (inner : Bool) (warm : Act P N W) (start : W → M) (ops : W → List (Op P N M)) (s : ℤ) (g g' : Gens P N) :
    pesa S inner (some s) warm start ops g = pesa S inner (some s) warm start ops g' := rfl

/-- **C134** (defect): prioritized replay draws the same places for the same memory and number, whatever the seed. -/
theorem C134_prior (choice : M → ℕ → N → List ℕ × N) (m : M) (b : ℕ) (g g' : Gens P N) :
    (samplePrior S choice m b g).1 = (samplePrior S choice m b g').1 ∧ (samplePrior S choice m b g).2.np = (samplePrior S choice m b g').2.np ∧ (samplePrior S choice m b g).2.py = g.py :=
  ⟨rfl, rfl, rfl⟩

/-! ### Environments -/

/-- **C134**: with a seed an agent starts with the generators as the seed plus the number of environments less one makes them: the seeding of the last environment stays.  So training can be repeated, but one more
environment is the same as the next seed. -/
theorem C134_environments (n : ℕ) (s : ℤ) (g g' : Gens P N) : rlSeed S (n + 1) (some s) g = ⟨S.py (s + n), S.np (s + n)⟩ ∧ rlSeed S (n + 2) (some s) g = rlSeed S (n + 1) (some (s + 1)) g' ∧
    rlSeed S 0 (some s) g = ⟨S.py s, S.np s⟩ ∧ rlSeed S n none g = g := by
  have key : ∀ (n : ℕ) (s : ℤ) (g : Gens P N), rlSeed S (n + 1) (some s) g = ⟨S.py (s + n), S.np (s + n)⟩ := by
    intro n s g
    simp [rlSeed, dummySeed, List.range_succ, envSeed, both]
  refine ⟨key n s g, ?_, rfl, rfl⟩
  rw [key, key]
  have : s + ((n + 1 : ℕ) : ℤ) = s + 1 + (n : ℤ) := by push_cast; ring
  rw [this]

/-! ### Examples -/

/-- Counters as generators. -/
def exS : Seeder ℕ ℕ := ⟨fun s => 100 * s.toNat, fun s => 100 * s.toNat + 50⟩

/-- Draw one number. -/
def exDraw : Unit → Act ℕ ℕ (ℕ × Unit) := fun _ g => ((g.py, ()), { g with py := g.py + 1 })

def exNew (k : Kind) (s : ℤ) : Cmd ℕ ℕ Unit ℕ := .new k (some s) fun g => ((), g)

def exOut (cs : List (Cmd ℕ ℕ Unit ℕ)) : Option (List ℕ) := ((execAll exS cs ⟨⟨0, 0⟩, [], []⟩).toOption).map (·.out)

-- DE is repeatable, ES takes the seed of the last object, and goes on
example : exOut [exNew .de 3, exNew .es 5, .run 0 exDraw, .run 0 exDraw] = some [300, 300] ∧ exOut [exNew .es 3, exNew .de 5, .run 0 exDraw, .run 0 exDraw] = some [500, 501] ∧
    exOut [exNew .es 3, .run 0 exDraw] = some [300] := by decide

-- a chain that draws: the same in both generations
example : (saLoop exS (fun _ _ x g => (x ++ [g.py], { g with py := g.py + 1 })) (fun _ x g => (x, g)) (some 3) (fun _ _ => ⟨0, 0⟩) 0 2 [[]] ⟨0, 0⟩).1 = [[400, 400]] := by decide

-- a search of PESA with given first samples: the same for seeds 3 and 8; with the seed handed on it is not
example : let f := fun i s => pesa exS i (some s) (fun g => ((), g)) (fun _ => 0) (fun _ => [.py fun m p => (m + p, p + 1)]) ⟨0, 0⟩
    f false 3 = 100 ∧ f false 8 = 100 ∧ f true 3 = 300 ∧ f true 8 = 800 := by decide

end Neorl.Seeds

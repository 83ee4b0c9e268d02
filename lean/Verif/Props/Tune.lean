import Verif.Tune
import Mathlib.Tactic.Linarith
import Mathlib.Data.Rat.Floor

/-!
# C57: tuners try what they say and report scores beside the parameters that produced them
-/

set_option linter.unusedSectionVars false
set_option linter.unusedVariables false

namespace Neorl.Tune

section
variable {α β : Type}

/-- **C57 (grid is complete).**  A tuple is a case exactly when each entry is one of the values listed for its parameter. -/
theorem C57_grid_complete (g : Grid α) (c : List α) : c ∈ cases g ↔ List.Forall₂ (fun a (e : String × List α) => a ∈ e.2) c g := by
  unfold cases
  rw [mem_product, List.forall₂_map_right_iff]

/-- **C57 (each case once).**  If no parameter lists a value twice, no case is run twice; the number of cases is the product of the list lengths. -/
theorem C57_grid_once (g : Grid α) : (cases g).length = (g.map (fun e => e.2.length)).prod ∧ ((∀ e ∈ g, e.2.Nodup) → (cases g).Nodup) := by
  refine ⟨?_, fun h => nodup_product _ ?_⟩
  · unfold cases; rw [length_product, List.map_map]; rfl
  · intro l hl
    simp only [List.mem_map] at hl
    obtain ⟨e, he, rfl⟩ := hl
    exact h e he

/-- **C57 (order of the grid).**  The last parameter varies fastest: entry `j` of case `i` is digit `j` of `i` in the mixed radix of the list lengths. -/
theorem C57_grid_order (g : Grid α) {i : ℕ} {c : List α} (h : (cases g)[i]? = some c) {j : ℕ} {e : String × List α} (hj : g[j]? = some e) :
    c.length = g.length ∧ c[j]? = e.2[(i / ((g.drop (j + 1)).map (fun e => e.2.length)).prod) % e.2.length]? := by
  constructor
  · have := (C57_grid_complete g c).1 (List.mem_of_getElem? h)
    exact this.length_eq
  · have := product_getElem (g.map Prod.snd) i c h j e.2 (by simp [hj])
    rw [this, ← List.map_drop, List.map_map]; rfl

/-- What must stand beside case number `i` (from 0): the objective value, or the failure text with the number of *this* case. -/
def expected (fit : List α → Option β) (i : ℕ) (c : List α) : Score β := (fit c).elim (.failed (i + 1)) .done

theorem results_spec {fit : List α → Option β} {csv : Bool} {ns : List String} : ∀ {cs : List (List α)} {i : ℕ}, (∀ c ∈ cs, c.length = ns.length) →
    ∃ rows, results fit csv ns i cs = .ok (cs.mapIdx (fun k c => expected fit (i + k) c), rows) ∧
      (csv = false → rows = []) ∧
      (csv = true → ns.Nodup → "id" ∉ ns → "score" ∉ ns → rows = (cs.mapIdx (fun k c => (i + k, c))).filterMap (fun e => (fit e.2).map (fun b =>
        (Cell.id (e.1 + 1)) :: e.2.map Cell.val ++ [Cell.score (.done b)])))
  | [], i, _ => ⟨[], rfl, by simp, by simp⟩
  | c :: cs, i, h => by
    obtain ⟨rows, hr, h1, h2⟩ := results_spec (fit := fit) (csv := csv) (ns := ns) (cs := cs) (i := i + 1) (fun c hc => h c (by simp [hc]))
    have hc := h c (by simp)
    simp only [results, worker, hr]
    rw [if_neg (by simpa using hc)]
    have e1 : ∀ {γ : Type} (f : ℕ → List α → γ), List.mapIdx (fun k c => f (i + (k + 1)) c) cs = List.mapIdx (fun k c => f (i + 1 + k) c) cs := by
      intro γ f; congr 1; funext k c; rw [show i + (k + 1) = i + 1 + k by omega]
    cases hf : fit c with
    | none =>
      refine ⟨rows, ?_, h1, ?_⟩
      · simp only [List.mapIdx_cons, List.nil_append, Except.ok.injEq, Prod.mk.injEq, and_true]
        rw [e1 (fun k c => expected fit k c)]
        simp [expected, hf]
      · intro a b c' d
        rw [h2 a b c' d, List.mapIdx_cons, List.filterMap_cons, e1 (fun k c => (k, c))]
        simp [hf]
    | some b =>
      refine ⟨(if csv then [(dset "score" (.score (.done b)) (caseDict ns (i + 1) c)).map Prod.snd] else []) ++ rows, ?_, ?_, ?_⟩
      · simp only [List.mapIdx_cons, Except.ok.injEq, Prod.mk.injEq, and_true]
        rw [e1 (fun k c => expected fit k c)]
        simp [expected, hf]
      · intro hcsv; simp [hcsv, h1 hcsv]
      · intro a nd nid nsc
        rw [h2 a nd nid nsc, List.mapIdx_cons, List.filterMap_cons, e1 (fun k c => (k, c))]
        simp only [a, if_true, Nat.add_zero, hf, Option.map_some]
        unfold caseDict
        rw [caseDict_eq ns c _ nd (by intro n hn; simp; rintro rfl; exact nid hn), dset_mem (by
          simp only [List.map_append, List.map_cons, List.map_nil, List.map_map, List.mem_append, List.mem_singleton, List.mem_map, not_or]
          refine ⟨by decide, ?_⟩
          rintro ⟨e, he, h3⟩
          have : e.1 ∈ ns := (List.of_mem_zip (a := e.1) (b := e.2) he).1
          simp only [Function.comp] at h3
          rw [h3] at this
          exact nsc this)]
        have e4 : (ns.zip c).map (fun e => (Cell.val e.2 : Cell α β)) = c.map Cell.val := by
          have : (ns.zip c).map Prod.snd = c := List.map_snd_zip (by omega)
          conv_rhs => rw [← this]
          rw [List.map_map]; rfl
        simp only [List.map_append, List.map_cons, List.map_nil, List.map_map, List.cons_append, List.nil_append]
        rw [← e4]; rfl

/-- **C57 (scores beside their parameters).**  For every fitness - including one that raises on some cases - a run over cases of the right width finishes; row `i`
carries number `i + 1`, the values of case `i` and the score of case `i`, and a failed case does not shift the others. -/
theorem C57_scores (fit : List α → Option β) (csv : Bool) {ns : List String} (hns : "score" ∉ ns) {cs : List (List α)} (hcs : ∀ c ∈ cs, c.length = ns.length) :
    ∃ t, tuneCases fit csv ns cs = .ok t ∧ t.index = (List.range cs.length).map (· + 1) ∧ t.cols.map Prod.fst = ns ++ ["score"] ∧
      (∀ i c, cs[i]? = some c → (∀ j < ns.length, ((t.cols[j]?).bind (fun e => e.2[i]?)) = (c[j]?).map Cell.val) ∧
        ((t.cols[ns.length]?).bind (fun e => e.2[i]?)) = some (Cell.score (expected fit i c))) := by
  obtain ⟨rows, hr, -⟩ := results_spec (fit := fit) (csv := csv) (i := 0) hcs
  have hcols : (columns ns cs : List (String × List (Cell α β))).map Prod.fst = ns := by
    unfold columns; rw [List.map_map]; simp [Function.comp_def]
  have hlen : (columns ns cs : List (String × List (Cell α β))).length = ns.length := by unfold columns; simp
  unfold tuneCases
  rw [hr]
  refine ⟨_, rfl, rfl, ?_, ?_⟩
  · dsimp only
    rw [dset_mem (by rw [hcols]; exact hns)]
    simp [hcols]
  · intro i c hi
    dsimp only
    rw [dset_mem (by rw [hcols]; exact hns)]
    constructor
    · intro j hj
      rw [List.getElem?_append_left (by omega)]
      have e : (columns ns cs : List (String × List (Cell α β)))[j]? = some (ns[j], cs.filterMap (fun c => (c[j]?).map Cell.val)) := by
        unfold columns; simp [hj]
      rw [e]
      simp only [Option.bind_some]
      have e2 : cs.filterMap (fun c => (c[j]?).map Cell.val) = cs.pmap (fun c (h : j < c.length) => (Cell.val c[j] : Cell α β)) (fun c hc => by rw [hcs c hc]; exact hj) := by
        have : ∀ (l : List (List α)) (hl : ∀ c ∈ l, j < c.length), l.filterMap (fun c => (c[j]?).map Cell.val) = l.pmap (fun c (h : j < c.length) => (Cell.val c[j] : Cell α β)) hl := by
          intro l
          induction l with
          | nil => intro _; rfl
          | cons a l ih =>
            intro hl
            have ha := hl a (by simp)
            rw [List.filterMap_cons, List.pmap_cons, ih (fun c hc => hl c (by simp [hc]))]
            simp [ha]
        exact this cs _
      rw [e2, List.getElem?_pmap]
      obtain ⟨hlt, rfl⟩ := List.getElem?_eq_some_iff.1 hi
      have := hcs cs[i] (List.getElem_mem _)
      simp [hlt, show j < (cs[i]).length by omega]
    · rw [List.getElem?_append_right (by omega), hlen]
      simp [hi]

/-- **C57 (CSV file).**  The file holds the header and then, in order, one row per *successful* case: its number, its values and its score. -/
theorem C57_csv (fit : List α → Option β) {ns : List String} (hnd : ns.Nodup) (hid : "id" ∉ ns) (hsc : "score" ∉ ns) {cs : List (List α)}
    (hcs : ∀ c ∈ cs, c.length = ns.length) {t : Table α β} (h : tuneCases fit true ns cs = .ok t) :
    t.file = ((.head "id") :: ns.map Cell.head ++ [.head "score"]) :: (cs.mapIdx (fun i c => (i, c))).filterMap (fun e => (fit e.2).map (fun b =>
      (Cell.id (e.1 + 1)) :: e.2.map Cell.val ++ [Cell.score (.done b)])) := by
  obtain ⟨rows, hr, -, h2⟩ := results_spec (fit := fit) (csv := true) (i := 0) hcs
  unfold tuneCases at h
  rw [hr] at h
  simp only [Except.ok.injEq, if_true] at h
  rw [← h, h2 rfl hnd hid hsc]
  simp

/-- **C57 (grid search).**  Grid search finishes for every fitness and every grid without a parameter called `score`, and its table is the one of `C57_scores`. -/
theorem C57_grid (fit : List α → Option β) (csv : Bool) {g : Grid α} (hns : "score" ∉ names g) :
    ∃ t, gridTune fit csv g = .ok t ∧ t.cols.map Prod.fst = names g ++ ["score"] ∧ t.index.length = (g.map (fun e => e.2.length)).prod ∧
      (∀ i c, (cases g)[i]? = some c → ((t.cols[g.length]?).bind (fun e => e.2[i]?)) = some (Cell.score (expected fit i c))) := by
  have hcs : ∀ c ∈ cases g, c.length = (names g).length := by
    intro c hc
    rw [((C57_grid_complete g c).1 hc).length_eq]; simp [names]
  obtain ⟨t, ht, h1, h2, h3⟩ := C57_scores fit csv hns hcs
  refine ⟨t, ht, h2, by rw [h1]; simp [(C57_grid_once g).1], fun i c hi => ?_⟩
  have := (h3 i c hi).2
  simpa [names] using this

end

/-! ### Random search -/

section
variable {K α : Type} [Field K] [LinearOrder K] [IsStrictOrderedRing K]

/-- What a value sampled for a description must satisfy. -/
def InRange : List (Arg K α) → Value K α → Prop
  | .tag t :: .int lb :: .int ub :: _, .int z => (t = "int" ∨ t = "discrete") ∧ lb ≤ z ∧ z ≤ ub
  | .tag t :: a :: b :: _, .num x => (t = "float" ∨ t = "continuous") ∧ ∃ lb ub, a.toNum = .ok lb ∧ b.toNum = .ok ub ∧ min lb ub ≤ x ∧ x ≤ max lb ub
  | .tag t :: .grid l :: _, .item v => (t = "grid" ∨ t = "categorical") ∧ v ∈ l
  | _, _ => False

theorem sample1_inRange {p : List (Arg K α)} {d : Draw K} (hd : 0 ≤ d.u ∧ d.u < 1) {v : Value K α} (h : sample1 p d = .ok v) : InRange p v := by
  unfold sample1 at h
  split at h
  · cases h
  · rename_i t vals
    split at h
    · rename_i ht
      split at h
      · rename_i lb ub _
        split at h
        · cases h
        rename_i hle
        simp only [Except.ok.injEq] at h
        subst h
        refine ⟨ht, by omega, ?_⟩
        have : d.r % (ub - lb + 1).toNat < (ub - lb + 1).toNat := Nat.mod_lt _ (by omega)
        omega
      · cases h
      · cases h
    · split at h
      · rename_i ht
        split at h
        · rename_i a b _
          split at h
          · rename_i lb ub ha hb
            simp only [Except.ok.injEq] at h
            subst h
            have : InRange (.tag t :: a :: b :: ‹List (Arg K α)›) (.num (lb + (ub - lb) * d.u)) := by
              have key : (t = "float" ∨ t = "continuous") ∧ ∃ lb' ub', a.toNum = .ok lb' ∧ b.toNum = .ok ub' ∧ min lb' ub' ≤ lb + (ub - lb) * d.u ∧ lb + (ub - lb) * d.u ≤ max lb' ub' := by
                refine ⟨ht, lb, ub, ha, hb, ?_, ?_⟩
                · rcases le_total lb ub with h | h
                  · rw [min_eq_left h]; nlinarith
                  · rw [min_eq_right h]; nlinarith
                · rcases le_total lb ub with h | h
                  · rw [max_eq_right h]; nlinarith
                  · rw [max_eq_left h]; nlinarith
              cases a <;> cases b <;> exact key
            exact this
          · cases h
          · cases h
        · cases h
      · split at h
        · rename_i ht
          split at h
          · rename_i l tail
            split at h
            · rename_i a ha
              simp only [Except.ok.injEq] at h
              subst h
              cases tail <;> exact ⟨ht, List.mem_of_getElem? ha⟩
            · cases h
          · cases h
          · cases h
        · cases h
  · cases h

/-- **C57 (random search samples inside the ranges).**  Every case has one value per parameter, integers between the bounds (both included), floats between the
bounds, grid values from the list; the number of cases is the one asked for. -/
theorem C57_random {ps : List (List (Arg K α))} {d : ℕ → ℕ → Draw K} (hd : ∀ i j, 0 ≤ (d i j).u ∧ (d i j).u < 1) : ∀ {n : ℕ} {cs : List (List (Value K α))},
    sampleCases ps d n = .ok cs → cs.length = n ∧ ∀ c ∈ cs, List.Forall₂ InRange ps c
  | 0, cs, h => by simp only [sampleCases, Except.ok.injEq] at h; subst h; simp
  | n + 1, cs, h => by
    simp only [sampleCases] at h
    split at h
    · cases h
    rename_i cs' hcs'
    split at h
    · cases h
    rename_i c hc
    simp only [Except.ok.injEq] at h
    subst h
    obtain ⟨h1, h2⟩ := C57_random hd hcs'
    refine ⟨by simp [h1], ?_⟩
    intro x hx
    simp only [List.mem_append, List.mem_singleton] at hx
    rcases hx with hx | rfl
    · exact h2 x hx
    · exact sampleCase_spec (fun p v j hv => sample1_inRange (hd n j) hv) hc

/-- A usable description. -/
def WellFormed : List (Arg K α) → Prop
  | [.tag t, .int lb, .int ub] => ((t = "int" ∨ t = "discrete") ∧ lb ≤ ub) ∨ t = "float" ∨ t = "continuous"
  | [.tag t, .num _, .num _] => t = "float" ∨ t = "continuous"
  | [.tag t, .grid l] => (t = "grid" ∨ t = "categorical") ∧ l ≠ []
  | _ => False

/-- **C57 (random search finishes).**  On usable descriptions sampling never raises. -/
theorem C57_random_total {ps : List (List (Arg K α))} (hp : ∀ p ∈ ps, WellFormed p) (d : ℕ → ℕ → Draw K) (n : ℕ) : ∃ cs, sampleCases ps d n = .ok cs := by
  have one : ∀ (p : List (Arg K α)) (d : Draw K), WellFormed p → ∃ v, sample1 p d = .ok v := by
    intro p d hp
    match p, hp with
    | [.tag t, .int lb, .int ub], hp =>
      rcases hp with ⟨ht, hle⟩ | ht
      · refine ⟨.int (lb + (d.r % (ub - lb + 1).toNat : ℕ)), ?_⟩
        simp only [sample1]; rw [if_pos ht, if_neg (by omega)]
      · refine ⟨.num ((lb : K) + ((ub : K) - lb) * d.u), ?_⟩
        have h1 : ¬ (t = "int" ∨ t = "discrete") := by rcases ht with rfl | rfl <;> decide
        simp only [sample1, Arg.toNum]; rw [if_neg h1, if_pos ht]
    | [.tag t, .num a, .num b], ht =>
      refine ⟨.num (a + (b - a) * d.u), ?_⟩
      have h1 : ¬ (t = "int" ∨ t = "discrete") := by rcases ht with rfl | rfl <;> decide
      have ht' : t = "float" ∨ t = "continuous" := ht
      simp only [sample1, Arg.toNum]; rw [if_neg h1, if_pos ht']
    | [.tag t, .grid l], hp =>
      obtain ⟨ht, hl⟩ := hp
      have h1 : ¬ (t = "int" ∨ t = "discrete") := by rcases ht with rfl | rfl <;> decide
      have h2 : ¬ (t = "float" ∨ t = "continuous") := by rcases ht with rfl | rfl <;> decide
      have hlt : d.r % l.length < l.length := Nat.mod_lt _ (List.length_pos_iff.2 hl)
      refine ⟨.item (l[d.r % l.length]), ?_⟩
      simp only [sample1]; rw [if_neg h1, if_neg h2, if_pos ht, List.getElem?_eq_getElem hlt]
  have row : ∀ (ps : List (List (Arg K α))) (d : ℕ → Draw K) (j : ℕ), (∀ p ∈ ps, WellFormed p) → ∃ c, sampleCase d j ps = .ok c := by
    intro ps d
    induction ps with
    | nil => intro j _; exact ⟨_, rfl⟩
    | cons p ps ih =>
      intro j h
      obtain ⟨v, hv⟩ := one p (d j) (h p (by simp))
      obtain ⟨c, hc⟩ := ih (j + 1) (fun q hq => h q (by simp [hq]))
      simp only [sampleCase, hv, hc]; exact ⟨_, rfl⟩
  induction n with
  | zero => exact ⟨_, rfl⟩
  | succ n ih =>
    obtain ⟨cs, hcs⟩ := ih
    obtain ⟨c, hc⟩ := row ps (d n) 0 hp
    simp only [sampleCases, hcs, hc]; exact ⟨_, rfl⟩

/-- **C57 (every value is reachable).**  Each integer between the bounds and each listed value is drawn for some random number. -/
theorem C57_random_reach : (∀ (lb ub z : ℤ) (u : K), lb ≤ z → z ≤ ub → ∃ r, sample1 (α := α) [.tag "int", .int lb, .int ub] ⟨r, u⟩ = .ok (.int z)) ∧
    (∀ (l : List α) (a : α) (u : K), a ∈ l → ∃ r, sample1 [.tag "grid", .grid l] ⟨r, u⟩ = .ok (.item a)) := by
  constructor
  · intro lb ub z u h1 h2
    refine ⟨(z - lb).toNat, ?_⟩
    simp only [sample1]
    rw [if_pos (by simp), if_neg (by omega), Nat.mod_eq_of_lt (by omega)]
    congr 2; omega
  · intro l a u h
    obtain ⟨i, hi, rfl⟩ := List.mem_iff_getElem.1 h
    refine ⟨i, ?_⟩
    simp only [sample1]
    rw [if_neg (by decide), if_neg (by decide), if_pos (by decide), Nat.mod_eq_of_lt hi, List.getElem?_eq_getElem hi]

/-- **C57 (documented format).**  The class documentation writes the range first and the type second (`'x1': [[40, 50, 60, 100], 'grid']`); such a description
raises for every positive number of cases. -/
theorem C57_documented_format {l : List α} {t : String} {ps : List (List (Arg K α))} {d : ℕ → ℕ → Draw K} {n : ℕ} {cs : List (List (Value K α))} :
    sampleCases ([.grid l, .tag t] :: ps) d (n + 1) ≠ .ok cs := by
  intro h
  simp only [sampleCases, sampleCase, sample1] at h
  split at h <;> cases h

end

/-! ### Bayesian search -/

section
variable {K α : Type} [Field K] [LinearOrder K] [IsStrictOrderedRing K]

theorem funcVals_spec {f : List α → Py K} : ∀ {xs : List (List α)} {ys : List K}, funcVals f xs = .ok ys → ys.length = xs.length ∧ ∀ (i : ℕ) (x : List α), xs[i]? = some x → ∃ y, f x = .ok y ∧ ys[i]? = some y
  | [], ys, h => by simp only [funcVals, Except.ok.injEq] at h; subst h; simp
  | x :: xs, ys, h => by
    simp only [funcVals] at h
    split at h
    · cases h
    rename_i y hy
    split at h
    · cases h
    rename_i ys' hys
    simp only [Except.ok.injEq] at h
    subst h
    obtain ⟨h1, h2⟩ := funcVals_spec hys
    refine ⟨by simp [h1], ?_⟩
    intro i z hz
    cases i with
    | zero => simp only [List.getElem?_cons_zero, Option.some.injEq] at hz; subst hz; exact ⟨y, hy, rfl⟩
    | succ i => simp only [List.getElem?_cons_succ] at hz ⊢; exact h2 i z hz

theorem bind_self : ∀ {ns : List String} {row : List α}, ns.Nodup → row.length = ns.length → ns.filterMap (lookup ns row) = row := by
  intro ns
  induction ns with
  | nil => intro row _ h; simp at h; subst h; rfl
  | cons n ns ih =>
    intro row hnd hl
    cases row with
    | nil => simp at hl
    | cons a row =>
      obtain ⟨h1, h2⟩ := List.nodup_cons.1 hnd
      have e0 : lookup (n :: ns) (a :: row) n = some a := by simp [lookup]
      rw [List.filterMap_cons, e0]
      dsimp only
      congr 1
      have e := ih h2 (row := row) (by simpa using hl)
      conv_rhs => rw [← e]
      apply List.filterMap_congr
      intro m hm
      have : n ≠ m := fun h => h1 (h ▸ hm)
      simp [lookup, this]

/-- **C57 (Bayesian search).**  When the parameters are listed in the order of the arguments of the fitness, every row of the table is a point with exactly its own
score, in both modes; each of the `ncores` searches contributes its own points, in order. -/
theorem C57_bayes {minMode : Bool} {fit : List α → K} {ns : List String} (hnd : ns.Nodup) {ncases ncores : ℕ} {seed : Option ℕ} {gp : Option ℕ → ℕ → List (List α)}
    (hgp : ∀ s n, (gp s n).length = n ∧ ∀ x ∈ gp s n, x.length = ns.length) {t : BTable K α} (h : bayesTune minMode fit ns ns ncases ncores seed gp = .ok t) :
    t.labels = ns ∧ t.score.length = t.rows.length ∧ (∀ (i : ℕ) (x : List α), t.rows[i]? = some x → t.score[i]? = some (fit x)) ∧
    t.rows.length = max 1 ncores * max 11 ncases := by
  unfold bayesTune at h
  dsimp only at h
  split at h
  · cases h
  rename_i ys hys
  simp only [Except.ok.injEq] at h
  subst h
  obtain ⟨h1, h2⟩ := funcVals_spec hys
  have hnc : (if ncases < 11 then 11 else ncases) = max 11 ncases := by split_ifs <;> omega
  refine ⟨rfl, ?_, ?_, ?_⟩
  · refine Eq.trans ?_ h1
    cases minMode <;> simp
  · intro i x hx
    obtain ⟨y, hy, hi⟩ := h2 i x hx
    have hxl : x.length = ns.length := by
      have hm := List.mem_of_getElem? hx
      dsimp only at hm
      rw [hnc] at hm
      split_ifs at hm
      · simp only [List.mem_flatMap] at hm
        obtain ⟨c, _, hc⟩ := hm
        exact (hgp _ _).2 x hc
      · exact (hgp _ _).2 x hm
    unfold objective bind at hy
    rw [bind_self hnd hxl] at hy
    split at hy
    · cases hy
    rename_i v hv
    split at hv
    · simp only [Except.ok.injEq] at hv hy
      subst hv
      cases minMode
      · simp only [Bool.false_eq_true, if_false] at hy ⊢
        simp [hi, ← hy]
      · simp only [if_true] at hy ⊢
        simp [hi, hy]
    · cases hv
  · dsimp only
    rw [hnc]
    split_ifs with hc
    · rw [List.length_flatMap]
      simp only [(hgp _ _).1, List.map_const', List.length_range, List.sum_replicate_nat]
      rw [max_eq_right (show 1 ≤ ncores by omega)]
    · rw [(hgp _ _).1, max_eq_left (show ncores ≤ 1 by omega), one_mul]

/-- **C57 (Bayesian table mislabelled).**  The columns carry the argument names of the fitness while the rows follow the order of the grid: with the parameters
listed as `b, a` for a fitness `f(a, b) = a - b`, the table shows the point `a = 1, b = 5` with the score of `a = 5, b = 1`. -/
theorem C57_bayes_mislabelled : ∃ t : BTable ℚ ℚ, bayesTune true (fun v => v.getD 0 0 - v.getD 1 0) ["a", "b"] ["b", "a"] 11 1 none (fun _ n => List.replicate n [1, 5]) = .ok t ∧
    t.labels = ["a", "b"] ∧ t.rows[0]? = some [1, 5] ∧ t.score[0]? = some 4 := by
  refine ⟨_, rfl, ?_, ?_, ?_⟩ <;> decide +kernel

end

/-! ### Concrete cases -/

/-- A grid of 2 x 3 cases with a fitness that raises on one of them. -/
def exG : Grid ℕ := [("x", [1, 2]), ("y", [5, 6, 7])]
def exFit : List ℕ → Option ℕ := fun v => if v = [1, 7] then none else some v.sum

example : cases exG = [[1, 5], [1, 6], [1, 7], [2, 5], [2, 6], [2, 7]] ∧ "score" ∉ names exG := by decide

example : ((gridTune exFit true exG).toOption.map (fun t => (t.index, t.cols.getLast?.map (fun e => e.2), t.file.length))) =
    some ([1, 2, 3, 4, 5, 6], some [.score (.done 6), .score (.done 7), .score (.failed 3), .score (.done 7), .score (.done 8), .score (.done 9)], 6) := by decide +kernel

/-- **C57 (a parameter called `id`).**  Its value overwrites the case number, so the rows of the CSV file are one entry shorter than the header. -/
theorem C57_id_collision : ((gridTune (β := ℕ) (fun v => some 0) true [("id", [7]), ("y", [8])]).toOption.map (fun t => t.file.map List.length)) = some [4, 3] := by decide +kernel

/-- **C57 (a parameter called `score`).**  The scores overwrite its column: the table no longer shows the values that were run. -/
theorem C57_score_collision : ((gridTune (fun v : List ℕ => some v.sum) false [("score", [7, 8]), ("y", [1])]).toOption.map (fun t => t.cols)) =
    some [("score", [.score (.done 8), .score (.done 9)]), ("y", [.val 1, .val 1])] := by decide +kernel

/-- Random search on one parameter of each kind meets the hypotheses of the theorems. -/
def exP : List (List (Arg ℚ ℕ)) := [[.tag "int", .int 2, .int 5], [.tag "float", .num 0, .num 1], [.tag "grid", .grid [10, 20, 30]]]
example : (∀ p ∈ exP, WellFormed p) ∧ sampleCases exP (fun i j => ⟨i + j, 1 / 4⟩) 2 = .ok [[.int 2, .num (1 / 4), .item 30], [.int 3, .num (1 / 4), .item 10]] := by
  refine ⟨?_, by decide +kernel⟩
  intro p hp
  simp only [exP, List.mem_cons, List.not_mem_nil, or_false] at hp
  rcases hp with rfl | rfl | rfl <;> simp [WellFormed]

end Neorl.Tune

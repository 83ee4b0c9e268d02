import Verif.AEOStart
import Verif.Props.AEORun

/-!
# Property theorems C152: the start of the animorphic ensemble
-/

set_option linter.unusedSectionVars false
set_option linter.unusedVariables false

namespace Neorl.AEO

section
variable {K : Type}

theorem labels_nil : labels [] = [] := rfl

theorem labels_concat (ns : List ℕ) (n : ℕ) : labels (ns ++ [n]) = labels ns ++ List.replicate n ns.length := by
  unfold labels
  rw [List.mapIdx_append, List.flatten_append]
  simp

theorem labels_length (ns : List ℕ) : (labels ns).length = ns.sum := by
  induction ns using List.reverseRecOn with
  | nil => rfl
  | append_singleton ns n ih => rw [labels_concat, List.length_append, ih]; simp

theorem labels_lt (ns : List ℕ) : ∀ l ∈ labels ns, l < ns.length := by
  induction ns using List.reverseRecOn with
  | nil => intro l hl; simp [labels_nil] at hl
  | append_singleton ns n ih =>
    intro l hl
    rw [labels_concat, List.mem_append] at hl
    rw [List.length_append]
    rcases hl with hl | hl
    · exact (ih l hl).trans (by simp)
    · rw [List.eq_of_mem_replicate hl]; simp

theorem zip_labels (f : ℕ → List K) (ns : List ℕ) : ∀ i, i < ns.length →
    ((((List.range ns.sum).map f).zip (labels ns)).filter (fun p => p.2 = i)).map Prod.fst = (List.range' (ns.take i).sum (ns.getD i 0)).map f := by
  induction ns using List.reverseRecOn with
  | nil => intro i hi; simp at hi
  | append_singleton ns n ih =>
    intro i hi
    rw [labels_concat, List.sum_append, List.sum_singleton, List.range_add, List.map_append, List.zip_append (by simp [labels_length]), List.filter_append,
      List.map_append]
    by_cases h : i < ns.length
    · rw [ih i h, List.take_append_of_le_length h.le]
      have e1 : (ns ++ [n]).getD i 0 = ns.getD i 0 := by
        simp only [List.getD_eq_getElem?_getD, List.getElem?_append_left h]
      rw [e1]
      have : (((List.map f (List.map (fun x => ns.sum + x) (List.range n))).zip (List.replicate n ns.length)).filter (fun p => p.2 = i)) = [] := by
        rw [List.filter_eq_nil_iff]
        intro p hp
        have := List.eq_of_mem_replicate (List.of_mem_zip (show (p.1, p.2) ∈ _ from hp)).2
        simp; omega
      rw [this]; simp
    · have hi' : i = ns.length := by simp at hi; omega
      subst hi'
      have e0 : ((((List.range ns.sum).map f).zip (labels ns)).filter (fun p => p.2 = ns.length)) = [] := by
        rw [List.filter_eq_nil_iff]
        intro p hp
        have := labels_lt ns p.2 (List.of_mem_zip (show (p.1, p.2) ∈ _ from hp)).2
        simp; omega
      have e2 : (((List.map f (List.map (fun x => ns.sum + x) (List.range n))).zip (List.replicate n ns.length)).filter (fun p => p.2 = ns.length)) =
          (List.map f (List.map (fun x => ns.sum + x) (List.range n))).zip (List.replicate n ns.length) := by
        rw [List.filter_eq_self]
        intro p hp
        have := List.eq_of_mem_replicate (List.of_mem_zip (show (p.1, p.2) ∈ _ from hp)).2
        simp [this]
      rw [e0, e2]
      simp only [List.map_nil, List.nil_append]
      rw [List.map_fst_zip (by simp)]
      simp [List.range'_eq_map_range]

/-- **C152, populations of given sizes.** With sizes `npop0` (or, without arguments, the optimizers' own sizes) population `i` starts with exactly `npop0[i]`
individuals, namely the next ones of the sampled positions: nobody is in two populations, nobody is left out. -/
theorem C152_sizes [Field K] [LinearOrder K] (sizes : List ℕ) (sample : ℕ → List K) (npop0 : Option (List ℕ)) (pop0 : Option (List ℕ))
    (hne : npop0 = none → pop0 = none) :
    ∃ x0, start sizes sample npop0 none pop0 = .ok x0 ∧ x0.length = (npop0.getD sizes).sum ∧ (∀ p ∈ x0, p.2 < (npop0.getD sizes).length) ∧
      ∀ i, i < (npop0.getD sizes).length → ∃ p : Pop K, (split (npop0.getD sizes).length x0)[i]? = some p ∧ p.n = (npop0.getD sizes).getD i 0 ∧
        p.members = (List.range' ((npop0.getD sizes).take i).sum ((npop0.getD sizes).getD i 0)).map sample := by
  have key : ∀ ns : List ℕ, ∃ x0, (Except.ok (((List.range ns.sum).map sample).zip (labels ns)) : Py (List (List K × ℕ))) = .ok x0 ∧ x0.length = ns.sum ∧
      (∀ p ∈ x0, p.2 < ns.length) ∧ ∀ i, i < ns.length → ∃ p : Pop K, (split ns.length x0)[i]? = some p ∧ p.n = ns.getD i 0 ∧
        p.members = (List.range' (ns.take i).sum (ns.getD i 0)).map sample := by
    intro ns
    refine ⟨_, rfl, by simp [labels_length], fun p hp => labels_lt ns p.2 (List.of_mem_zip (show (p.1, p.2) ∈ _ from hp)).2, fun i hi => ?_⟩
    refine ⟨Pop.init ((List.range' (ns.take i).sum (ns.getD i 0)).map sample), ?_, by simp [Pop.init], rfl⟩
    unfold split
    rw [List.getElem?_map, List.getElem?_range hi, Option.map_some, zip_labels sample ns i hi]
  cases npop0 with
  | some ns => exact key ns
  | none =>
    rw [hne rfl]
    exact key sizes

/-- **C152, given positions.** With `x0` and `pop0` population `i` starts with the positions labelled `i`, in order; lists of different lengths and a missing
`pop0` are errors, and so is `pop0` alone. -/
theorem C152_given [Field K] [LinearOrder K] (sizes : List ℕ) (sample : ℕ → List K) (npop0 : Option (List ℕ)) (xs : List (List K)) (ps : List ℕ) :
    (xs.length = ps.length → ∃ x0, start sizes sample npop0 (some xs) (some ps) = .ok x0 ∧ ∀ n i, i < n → ∃ p : Pop K, (split n x0)[i]? = some p ∧
      p.members = ((xs.zip ps).filter (fun q => q.2 = i)).map Prod.fst) ∧
    (xs.length ≠ ps.length → start sizes sample npop0 (some xs) (some ps) = .error .assertion) ∧
    start sizes sample npop0 (some xs) none = .error .typeError ∧ start sizes sample none none (some ps) = .error .typeError := by
  refine ⟨fun h => ⟨xs.zip ps, by cases npop0 <;> simp [start, h], fun n i hi =>
    ⟨Pop.init (((xs.zip ps).filter (fun q => q.2 = i)).map Prod.fst), ?_, rfl⟩⟩, fun h => by cases npop0 <;> simp [start, h], ?_, rfl⟩
  · unfold split
    rw [List.getElem?_map, List.getElem?_range hi, Option.map_some]
  · cases npop0 <;> rfl

/-- **C152, labels outside (defect).** A position whose label is not the number of an optimizer is dropped without an error: the populations hold together exactly
the positions with labels below the number of optimizers. -/
theorem C152_dropped (n : ℕ) (xs : List (List K)) (ps : List ℕ) :
    ((split n (xs.zip ps)).map Pop.n).sum = (xs.zip ps).countP (fun q => decide (q.2 < n)) := by
  induction n with
  | zero => simp [split]
  | succ n ih =>
    have e : split (n + 1) (xs.zip ps) = split n (xs.zip ps) ++ [Pop.init (((xs.zip ps).filter (fun q => q.2 = n)).map Prod.fst)] := by
      simp [split, List.range_succ]
    rw [e, List.map_append, List.sum_append, ih]
    have : ∀ l : List (List K × ℕ), l.countP (fun q => decide (q.2 < n + 1)) =
        l.countP (fun q => decide (q.2 < n)) + (l.filter (fun q => decide (q.2 = n))).length := by
      intro l
      induction l with
      | nil => rfl
      | cons q l ihl =>
        rw [List.countP_cons, List.countP_cons, List.filter_cons, ihl]
        by_cases h1 : q.2 < n
        · simp [h1, show q.2 < n + 1 by omega, show ¬ q.2 = n by omega]; omega
        · by_cases h2 : q.2 = n
          · simp [h2]; omega
          · simp [h1, h2, show ¬ q.2 < n + 1 by omega]
    rw [this]
    simp [Pop.init]

/-- Two populations numbered from one instead of zero: the second one is lost. -/
example : ((split 2 ((([[1], [2], [3]] : List (List ℚ)).zip [1, 1, 2]))).map Pop.members) = [[], [[1], [2]]] := by decide +kernel

/-- **C152, from the call to the result.** Started with sizes for at most as many populations as there are optimizers, the ensemble returns the best point
evaluated, has the same number of individuals at the end, all of them in the search space (`P`), and does return when the sizes suffice for the optimizers. -/
theorem C152_run [Field K] [LinearOrder K] [IsStrictOrderedRing K] [FloorRing K] {c : Conf K} (hs : c.so.OK) (hr : c.rng.OK) {fit : List K → K}
    {P : List K → Prop} (he : ∀ j cyc, EvolverOK fit P (c.evolver j cyc)) {stop : ℕ → Bool} {sizes : List ℕ} {sample : ℕ → List K} (hP : ∀ k, P (sample k))
    {npop0 pop0 : Option (List ℕ)} (hne : npop0 = none → pop0 = none) (hlen : (npop0.getD sizes).length ≤ c.opts.length) :
    ∃ x0, start sizes sample npop0 none pop0 = .ok x0 ∧
      (∀ r, evolute c fit stop x0 = .ok r → IsBest true fit r.final.log r.x r.y ∧ P r.x ∧ (∀ x ∈ flatMembers r.final.pops, P x) ∧
        (flatMembers r.final.pops).length = (npop0.getD sizes).sum ∧ r.final.pops.length = c.opts.length) ∧
      (OrderGiven c.wt c.order → PowOK c.pow → c.alpha.NonNeg → c.beta.NonNeg → c.q.Unit → 2 ≤ c.Ncyc → 1 ≤ c.gpc → c.opts ≠ [] → (∀ o ∈ c.opts, 1 ≤ o.mu) →
        (∀ (j : ℕ) (o : Opt K) (cyc : ℕ), c.opts[j]? = some o → EvolverTotal P o c.gpc (c.evolver j cyc)) →
        (∀ (j : ℕ) (o : Opt K), c.opts[j]? = some o → enough o.algo o.mu ((npop0.getD sizes).getD j 0) = true) → ∃ r, evolute c fit stop x0 = .ok r) := by
  obtain ⟨x0, e0, e1, e2, e3⟩ := C152_sizes sizes sample npop0 pop0 hne
  have e4 : x0 = ((List.range (npop0.getD sizes).sum).map sample).zip (labels (npop0.getD sizes)) := by
    cases npop0 with
    | some ns => exact (Except.ok.inj e0).symm
    | none => rw [hne rfl] at e0; exact (Except.ok.inj e0).symm
  have hx : ∀ p ∈ x0, P p.1 ∧ p.2 < c.opts.length := fun p hp => by
    refine ⟨?_, (e2 p hp).trans_le hlen⟩
    rw [e4] at hp
    obtain ⟨k, _, hk⟩ := List.mem_map.1 (List.of_mem_zip (show (p.1, p.2) ∈ _ from hp)).1
    rw [← hk]; exact hP k
  refine ⟨x0, e0, fun r h => ?_, fun ho hp ha hb hq hN hg hne' hmu ht hsz => ?_⟩
  · obtain ⟨a1, a2, -, a4, a5, a6, -⟩ := C41_evolute hs hr he hx h
    exact ⟨a1, a2, a4, a5.trans e1, a6⟩
  · refine C41_total hs hr ho hp ha hb hq hN hg hne' hmu he ht hx fun j o hj => ?_
    have : (x0.filter (fun p => p.2 = j)).length = (npop0.getD sizes).getD j 0 := by
      by_cases h : j < (npop0.getD sizes).length
      · have := congrArg List.length (zip_labels sample (npop0.getD sizes) j h)
        rw [← e4] at this
        simpa using this
      · have h0 : x0.filter (fun p => p.2 = j) = [] := by
          rw [List.filter_eq_nil_iff]
          intro p hp
          have := e2 p hp
          simp; omega
        rw [h0, List.getD_eq_default _ _ (by omega)]; rfl
    rw [this]
    exact hsz j o hj

/-! ## Names -/

/-- Specification: the name of the `k`-th further population of an algorithm (`k = 0` for the first). -/
def tag (a : Algo) : ℕ → List Char
  | 0 => a.chars
  | k + 1 => a.chars ++ zfill3 (k + 2)

theorem zfill3_digit {i : ℕ} {c : Char} (h : c ∈ zfill3 i) : c.isDigit = true := by
  unfold zfill3 at h
  rcases List.mem_append.1 h with h | h
  · rw [List.eq_of_mem_replicate h]; decide
  · exact Nat.isDigit_of_mem_toDigits (by omega) (by omega) h

theorem zfill3_value (i : ℕ) : Nat.ofDigitChars 10 (zfill3 i) 0 = i := by
  unfold zfill3
  have : ∀ m, Nat.ofDigitChars 10 (List.replicate m '0') 0 = 0 := by
    intro m
    induction m with
    | zero => rfl
    | succ m ih => rw [List.replicate_succ, Nat.ofDigitChars_cons]; exact ih
  rw [Nat.ofDigitChars_append, this]
  exact Nat.ofDigitChars_toDigits (by omega) (by omega)

theorem zfill3_inj {i j : ℕ} (h : zfill3 i = zfill3 j) : i = j := by
  rw [← zfill3_value i, h, zfill3_value]

theorem zfill3_length (i : ℕ) : (zfill3 i).length = max 3 (Nat.toDigits 10 i).length := by
  unfold zfill3
  rw [List.length_append, List.length_replicate]
  omega

theorem zfill3_ne (i : ℕ) : zfill3 i ≠ [] := by
  intro h
  unfold zfill3 at h
  have := congrArg List.length h
  simp at this

theorem chars_letters (a : Algo) : a.chars.filter (fun c => !c.isDigit) = a.chars := by cases a <;> rfl

theorem chars_inj {a b : Algo} (h : a.chars = b.chars) : a = b := by
  cases a <;> cases b <;> first | rfl | (exact absurd h (by decide))

theorem tag_letters (a : Algo) (k : ℕ) : (tag a k).filter (fun c => !c.isDigit) = a.chars := by
  cases k with
  | zero => exact chars_letters a
  | succ k =>
    have : (zfill3 (k + 2)).filter (fun c => !c.isDigit) = [] := by
      rw [List.filter_eq_nil_iff]
      intro c hc
      simp [zfill3_digit hc]
    rw [tag, List.filter_append, chars_letters, this, List.append_nil]

theorem tag_inj {a b : Algo} {k l : ℕ} (h : tag a k = tag b l) : a = b ∧ k = l := by
  have hab : a = b := chars_inj (by rw [← tag_letters a k, h, tag_letters])
  subst hab
  refine ⟨rfl, ?_⟩
  cases k with
  | zero =>
    cases l with
    | zero => rfl
    | succ l => exact absurd (by simpa [tag] using h) (zfill3_ne (l + 2))
  | succ k =>
    cases l with
    | zero => exact absurd (by simpa [tag] using h) (zfill3_ne (k + 2))
    | succ l =>
      have := zfill3_inj (List.append_cancel_left h)
      omega

/-- Specification: the names of a list of populations, each by the number of populations of its kind before it. -/
def tags (l : List Algo) : List (List Char) := l.mapIdx fun j a => tag a ((l.take j).count a)

theorem tags_concat (l : List Algo) (a : Algo) : tags (l ++ [a]) = tags l ++ [tag a (l.count a)] := by
  unfold tags
  rw [List.mapIdx_append]
  congr 1
  · apply List.ext_getElem?
    intro j
    rw [List.getElem?_mapIdx, List.getElem?_mapIdx]
    by_cases hj : j < l.length
    · rw [List.take_append_of_le_length hj.le]
    · rw [List.getElem?_eq_none (by omega)]; rfl
  · simp

theorem mem_tags {l : List Algo} {a : Algo} {k : ℕ} : tag a k ∈ tags l ↔ k < l.count a := by
  induction l using List.reverseRecOn with
  | nil => simp [tags]
  | append_singleton l b ih =>
    rw [tags_concat, List.mem_append, ih, List.mem_singleton, List.count_append]
    constructor
    · rintro (h | h)
      · omega
      · obtain ⟨rfl, rfl⟩ := tag_inj h
        simp
    · intro h
      by_cases hab : b = a
      · subst hab
        rw [List.count_singleton_self] at h
        rcases Nat.lt_succ_iff_lt_or_eq.1 h with h | h
        · exact .inl h
        · exact .inr (by rw [h])
      · rw [List.count_singleton, if_neg (by simpa using hab)] at h
        exact .inl (by omega)

theorem tags_nodup (l : List Algo) : (tags l).Nodup := by
  induction l using List.reverseRecOn with
  | nil => simp [tags]
  | append_singleton l a ih =>
    rw [tags_concat, List.nodup_append]
    refine ⟨ih, by simp, ?_⟩
    intro x hx y hy e
    rw [List.mem_singleton] at hy
    subst e
    rw [hy] at hx
    exact absurd (mem_tags.1 hx) (lt_irrefl _)

theorem free_tags {l : List Algo} {a : Algo} : ∀ (fuel i : ℕ), 2 ≤ i → i ≤ l.count a + 1 → l.count a + 1 ≤ i + fuel → free (tags l) a fuel i = l.count a + 1
  | 0, i, _, h1, h2 => by unfold free; omega
  | fuel + 1, i, h0, h1, h2 => by
    unfold free
    obtain ⟨k, rfl⟩ : ∃ k, i = k + 2 := ⟨i - 2, by omega⟩
    have hm : a.chars ++ zfill3 (k + 2) ∈ tags l ↔ k + 1 < l.count a := mem_tags (k := k + 1)
    by_cases h : k + 1 < l.count a
    · rw [if_pos (hm.2 h)]
      exact free_tags fuel (k + 2 + 1) (by omega) (by omega) (by omega)
    · rw [if_neg (fun h' => h (hm.1 h'))]; omega

theorem nameOf_tags (l : List Algo) (a : Algo) : nameOf (tags l) a = tag a (l.count a) := by
  have hm : a.chars ∈ tags l ↔ 0 < l.count a := mem_tags (k := 0)
  unfold nameOf
  by_cases h : 0 < l.count a
  · rw [if_pos (hm.2 h)]
    have hlen : (tags l).length = l.length := by simp [tags]
    rw [free_tags _ 2 (by omega) (by omega) (by rw [hlen]; have := List.count_le_length (a := a) (l := l); omega)]
    obtain ⟨k, hk⟩ : ∃ k, l.count a = k + 1 := ⟨l.count a - 1, by omega⟩
    rw [hk]; rfl
  · rw [if_neg (fun h' => h (hm.1 h'))]
    have : l.count a = 0 := by omega
    rw [this]; rfl

theorem names_tags : ∀ (as l : List Algo), names (tags l) as = tags (l ++ as)
  | [], l => by simp [names]
  | a :: as, l => by
    unfold names
    rw [nameOf_tags, ← tags_concat, names_tags as (l ++ [a])]
    simp

/-- **C152, names.** The populations are logged under different names, however many of them use the same algorithm: the first under the name of the algorithm, the
next under that name followed by the decimal number 2, 3, … filled up with zeros to three digits. -/
theorem C152_names (as : List Algo) :
    (names [] as).length = as.length ∧ (names [] as).Nodup ∧
    ∀ (j : ℕ) a, as[j]? = some a → ∃ s, (names [] as)[j]? = some (a.chars ++ s) ∧ (s = [] ↔ a ∉ as.take j) ∧
      (a ∈ as.take j → (∀ c ∈ s, c.isDigit = true) ∧ Nat.ofDigitChars 10 s 0 = (as.take j).count a + 1 ∧
        s.length = max 3 (Nat.toDigits 10 ((as.take j).count a + 1)).length) := by
  have e : names [] as = tags as := by simpa [tags] using names_tags as []
  rw [e]
  refine ⟨by simp [tags], tags_nodup as, fun j a h => ?_⟩
  have hj : (tags as)[j]? = some (tag a ((as.take j).count a)) := by
    unfold tags
    rw [List.getElem?_mapIdx, h, Option.map_some]
  rw [hj]
  by_cases hm : a ∈ as.take j
  · obtain ⟨k, hk⟩ : ∃ k, (as.take j).count a = k + 1 := ⟨(as.take j).count a - 1, by have := List.count_pos_iff.2 hm; omega⟩
    rw [hk]
    exact ⟨zfill3 (k + 2), rfl, ⟨fun h' => absurd h' (zfill3_ne _), fun h' => absurd hm h'⟩, fun _ => ⟨fun c hc => zfill3_digit hc, zfill3_value _, zfill3_length _⟩⟩
  · rw [List.count_eq_zero.2 hm]
    exact ⟨[], by simp [tag], ⟨fun _ => hm, fun _ => rfl⟩, fun h' => absurd h' hm⟩

end

/-- Two whales, a grey wolf and another whale. -/
example : names [] [.woa, .woa, .gwo, .woa] = [['W', 'O', 'A'], ['W', 'O', 'A', '0', '0', '2'], ['G', 'W', 'O'], ['W', 'O', 'A', '0', '0', '3']] := by decide +kernel

/-- Populations of two, none and one. -/
example : start (K := ℚ) [5, 5, 5] (fun k => [(k : ℚ)]) (some [2, 0, 1]) none none = .ok [([0], 0), ([1], 0), ([2], 2)] := by decide +kernel

/-- The hypotheses of `C152_run` are met: five grey wolves and six JAYA individuals. -/
example : ∃ x0 r, start (K := ℚ) [] (fun k => if k % 2 = 0 then [1, 1] else [-2, 2]) (some [5, 6]) none none = .ok x0 ∧
    evolute exConf exFit (fun _ => false) x0 = .ok r ∧ IsBest true exFit r.final.log r.x r.y ∧ (flatMembers r.final.pops).length = 11 := by
  have hS : exS.OK := Space.ok_of_okB (by decide +kernel)
  have hmem : ∀ j cyc, (exMem j cyc).OK ∧ (exMem j cyc).space = exS := by
    intro j cyc
    by_cases h : j = 0
    · subst h; exact ⟨hS, rfl⟩
    · simp only [exMem, h, if_false]; exact ⟨hS, rfl⟩
  have hf : ∀ x ∈ ([[1, 1], [-2, 2]] : List (List ℚ)), exS.Feasible x := Space.feasible_all (by decide +kernel)
  have he : ∀ j cyc, EvolverOK exFit exS.Feasible (exConf.evolver j cyc) := fun j cyc => by
    rw [← (hmem j cyc).2]; exact member_evolver (hmem j cyc).1
  obtain ⟨x0, h0, h1, h2⟩ := C152_run (c := exConf) exSorts_ok exRng_ok he (stop := fun _ => false) (sizes := [])
    (sample := fun k => if k % 2 = 0 then [1, 1] else [-2, 2]) (fun k => by split_ifs <;> exact hf _ (by simp))
    (npop0 := some [5, 6]) (pop0 := none) (by simp) (by decide)
  obtain ⟨r, hr⟩ := h2 (Or.inr (by decide)) exPow_ok (by simp [exConf, Sched.NonNeg]) (by simp [exConf, Sched.NonNeg]) (by simp [exConf, Sched.Unit]) (by decide)
    (by decide) (by simp [exConf]) (by simp [exConf]) (fun j o cyc hj => by
      rw [← (hmem j cyc).2]
      match j, hj with
      | 0, hj => cases hj; exact member_total (by decide) (hmem _ cyc).1 rfl rfl
      | 1, hj => cases hj; exact member_total (by decide) (hmem _ cyc).1 rfl rfl
      | j + 2, hj => simp [exConf] at hj) (fun j o hj => by
      match j, hj with
      | 0, hj => cases hj; decide +kernel
      | 1, hj => cases hj; decide +kernel
      | j + 2, hj => simp [exConf] at hj)
  obtain ⟨a1, -, -, a4, -⟩ := h1 r hr
  exact ⟨x0, r, h0, hr, a1, a4⟩

end Neorl.AEO

import Verif.TextLog

/-!
# C117: what is logged can be read back

Properties of `Verif.TextLog`.
-/

set_option linter.unusedSectionVars false
set_option linter.unusedVariables false

namespace Neorl.TextLog

variable {K : Type} [Field K] [LinearOrder K] [IsStrictOrderedRing K]

/-! ### Specification: reading comma separated text -/

/-- The parts of a text between separators. -/
def split (c : Char) : Str → List Str
  | [] => [[]]
  | a :: r => if a = c then [] :: split c r else
      match split c r with
      | [] => [[a]]
      | l :: ls => (a :: l) :: ls

/-- The fields of each line of a file; every line is ended by a newline, fields are separated by commas. -/
def parse (s : Str) : List (List Str) := (split '\n' s).dropLast.map (split ',')

/-- A text that does not disturb the file. -/
def Plain (s : Str) : Prop := ',' ∉ s ∧ '\n' ∉ s

theorem split_sep (c : Char) (a : Str) (h : c ∉ a) (r : Str) : split c (a ++ c :: r) = a :: split c r := by
  induction a with
  | nil => simp [split]
  | cons x a ih =>
    simp only [List.mem_cons, not_or] at h
    simp only [List.cons_append, split, Ne.symm h.1, if_false, ih h.2]

theorem split_none (c : Char) (a : Str) (h : c ∉ a) : split c a = [a] := by
  induction a with
  | nil => simp [split]
  | cons x a ih =>
    simp only [List.mem_cons, not_or] at h
    simp only [split, Ne.symm h.1, if_false, ih h.2]

theorem split_commas {l : List Str} (hl : l ≠ []) (h : ∀ s ∈ l, ',' ∉ s) : split ',' (commas l) = l := by
  induction l with
  | nil => exact absurd rfl hl
  | cons a l ih =>
    rcases eq_or_ne l [] with rfl | hl'
    · rw [commas_single, split_none _ _ (h a (by simp))]
    · rw [commas_cons _ hl', split_sep _ _ (h a (by simp)), ih hl' fun s hs => h s (by simp [hs])]

theorem split_length (c : Char) (s : Str) : (split c s).length = s.count c + 1 := by
  induction s with
  | nil => simp [split]
  | cons a r ih =>
    by_cases h : a = c
    · subst h; simp [split, ih]
    · simp only [split, h, if_false]
      have h2 : List.count c (a :: r) = List.count c r := by simp [h]
      rw [h2]
      revert ih
      cases split c r with
      | nil => simp
      | cons l ls => simp

theorem split_unlines (ls : List Str) (h : ∀ l ∈ ls, '\n' ∉ l) : split '\n' (unlines ls) = ls ++ [[]] := by
  induction ls with
  | nil => rfl
  | cons l ls ih =>
    have e : unlines (l :: ls) = l ++ '\n' :: unlines ls := by simp [unlines]
    rw [e, split_sep _ _ (h l (by simp)), ih fun l hl => h l (by simp [hl])]
    rfl

theorem parse_unlines (ls : List Str) (h : ∀ l ∈ ls, '\n' ∉ l) : parse (unlines ls) = ls.map (split ',') := by
  rw [parse, split_unlines ls h, List.dropLast_concat]

/-! ### Values between two dumps -/

/-- Calls about other keys leave the value and the counter of a key alone. -/
theorem step_other {s s' : Logger K} {o : Op K} {k : Str} (ho : o.key ≠ k) (h : step s o = .ok s') :
    get s'.val k = get s.val k ∧ get s'.cnt k = get s.cnt k ∧ s'.fmts = s.fmts ∧ s'.level = s.level := by
  cases o with
  | log j v =>
    simp only [step, Except.ok.injEq] at h
    subst h
    exact ⟨get_put_ne _ _ (Ne.symm ho), rfl, rfl, rfl⟩
  | mean j x =>
    have hj : k ≠ j := Ne.symm ho
    cases x with
    | none =>
      simp only [step, logkvMean, Except.ok.injEq] at h
      subst h
      exact ⟨get_put_ne _ _ hj, rfl, rfl, rfl⟩
    | some x =>
      simp only [step, logkvMean] at h
      split at h <;> try cases h
      · exact ⟨get_put_ne _ _ hj, get_put_ne _ _ hj, rfl, rfl⟩
      · exact ⟨get_put_ne _ _ hj, get_put_ne _ _ hj, rfl, rfl⟩

theorem calls_other {k : Str} : ∀ {os : List (Op K)} {s s' : Logger K}, (∀ o ∈ os, o.key ≠ k) → calls s os = .ok s' →
    get s'.val k = get s.val k ∧ get s'.cnt k = get s.cnt k
  | [], s, s', _, h => by
    simp only [calls, Except.ok.injEq] at h; subst h; exact ⟨rfl, rfl⟩
  | o :: os, s, s', ho, h => by
    simp only [calls] at h
    split at h
    · rename_i s1 h1
      have a := step_other (ho o (by simp)) h1
      have b := calls_other (fun o h => ho o (by simp [h])) h
      exact ⟨b.1.trans a.1, b.2.trans a.2.1⟩
    · cases h

theorem calls_append : ∀ (os ps : List (Op K)) (s : Logger K),
    calls s (os ++ ps) = match calls s os with | .ok s' => calls s' ps | .error e => .error e
  | [], ps, s => rfl
  | o :: os, ps, s => by
    simp only [List.cons_append, calls]
    cases step s o with
    | ok s' => exact calls_append os ps s'
    | error e => rfl

/-- **C117 (last).** The value reported for a key is the last one logged, whatever was logged before and under other keys. -/
theorem C117_last (s s' : Logger K) (a b : List (Op K)) (k : Str) (v : Val K) (hb : ∀ o ∈ b, o.key ≠ k)
    (h : calls s (a ++ .log k v :: b) = .ok s') : get s'.val k = some v := by
  rw [calls_append] at h
  split at h
  · rename_i s1 h1
    simp only [calls, step] at h
    rw [(calls_other hb h).1]
    exact get_put_self _ _ _
  · cases h

/-- The numbers averaged under a key. -/
def averaged (k : Str) : List (Op K) → List K
  | [] => []
  | .mean j (some x) :: r => if j = k then x :: averaged k r else averaged k r
  | _ :: r => averaged k r

theorem mean_aux {k : Str} : ∀ (os : List (Op K)) (s s' : Logger K) (xs : List K),
    (∀ o ∈ os, o.key = k → ∃ x, o = .mean k (some x)) →
    (xs = [] → get s.val k = none) → (xs ≠ [] → get s.val k = some (.num (xs.sum / xs.length))) → (get s.cnt k).getD 0 = xs.length →
    calls s os = .ok s' → xs ++ averaged k os ≠ [] →
    get s'.val k = some (.num ((xs ++ averaged k os).sum / (xs ++ averaged k os).length))
  | [], s, s', xs, _, h0, h1, hc, h, hne => by
    simp only [calls, Except.ok.injEq] at h
    subst h
    simp only [averaged, List.append_nil] at hne ⊢
    exact h1 hne
  | o :: os, s, s', xs, ho, h0, h1, hc, h, hne => by
    simp only [calls] at h
    split at h
    swap
    · cases h
    rename_i s1 hs
    by_cases hk : o.key = k
    · obtain ⟨x, rfl⟩ := ho o (by simp) hk
      have hav : averaged k (.mean k (some x) :: os) = x :: averaged k os := by simp [averaged]
      have hn : ((xs.length : K) + 1) ≠ 0 := by positivity
      have hval : (get s.val k).getD (.num 0) = .num (xs.sum / xs.length) := by
        rcases eq_or_ne xs [] with rfl | hx
        · rw [h0 rfl]; simp
        · rw [h1 hx]; rfl
      simp only [step, logkvMean, hval, hc, Except.ok.injEq] at hs
      have hb : blend xs.length (xs.sum / xs.length) x = (xs ++ [x]).sum / (xs ++ [x]).length := by
        rcases eq_or_ne xs [] with rfl | hx
        · simp [blend]
        · have : (xs.length : K) ≠ 0 := by
            have := List.length_pos_iff.2 hx
            exact_mod_cast this.ne'
          simp only [blend, List.sum_append, List.length_append, List.sum_singleton, List.length_singleton, Nat.cast_add, Nat.cast_one]
          field_simp
      rw [hb] at hs
      have := mean_aux os s1 s' (xs ++ [x]) (fun o h => ho o (by simp [h])) (by simp)
        (by intro _; rw [← hs]; exact get_put_self _ _ _)
        (by rw [← hs]; simp only [get_put_self, Option.getD_some]; simp) h (by simp)
      rw [hav]
      simpa using this
    · have hav : averaged k (o :: os) = averaged k os := by
        cases o with
        | log j v => rfl
        | mean j x =>
          cases x with
          | none => rfl
          | some x => simp only [Op.key] at hk; simp [averaged, hk]
      have a := step_other hk hs
      rw [hav] at hne ⊢
      exact mean_aux os s1 s' xs (fun o h => ho o (by simp [h])) (by rw [a.1]; exact h0) (by rw [a.1]; exact h1) (by rw [a.2.1]; exact hc) h hne

/-- **C117 (mean).** If after a dump (or at the start) a key only gets values to be averaged, the value reported is their mean,
whatever happens under other keys. -/
theorem C117_mean (s s' : Logger K) (os : List (Op K)) (k : Str) (hv : s.val = []) (hc : s.cnt = [])
    (hk : ∀ o ∈ os, o.key = k → ∃ x, o = .mean k (some x)) (h : calls s os = .ok s') (hne : averaged k os ≠ []) :
    get s'.val k = some (.num ((averaged k os).sum / (averaged k os).length)) := by
  have := mean_aux os s s' [] hk (by intro _; rw [hv]; rfl) (by simp) (by rw [hc]; rfl) h (by simpa using hne)
  simpa using this

/-- **C117 (mixed, defect).** A number set under a key after `n` averaged ones is given the weight of all `n` in the next average,
and one averaged afterwards replaces it altogether if none was averaged before. -/
theorem C117_mixed (s s' : Logger K) (os : List (Op K)) (k : Str) (v x : K) (hv : s.val = []) (hc : s.cnt = [])
    (hk : ∀ o ∈ os, ∃ y, o = .mean k (some y)) (h : calls s (os ++ [.log k (.num v), .mean k (some x)]) = .ok s') :
    get s'.val k = some (.num ((v * os.length + x) / (os.length + 1))) := by
  have cnt : ∀ (os : List (Op K)) (s s' : Logger K), (∀ o ∈ os, ∃ y, o = .mean k (some y)) → calls s os = .ok s' →
      (get s'.cnt k).getD 0 = (get s.cnt k).getD 0 + os.length := by
    intro os
    induction os with
    | nil => intro s s' _ h; simp only [calls, Except.ok.injEq] at h; subst h; simp
    | cons o os ih =>
      intro s s' ho h
      obtain ⟨y, rfl⟩ := ho o (by simp)
      simp only [calls] at h
      split at h
      swap
      · cases h
      rename_i s1 hs
      rw [ih s1 s' (fun o h => ho o (by simp [h])) h]
      simp only [step, logkvMean] at hs
      split at hs <;> try cases hs
      all_goals
        simp only [get_put_self, Option.getD_some, List.length_cons]
        omega
  rw [calls_append] at h
  split at h
  swap
  · cases h
  rename_i s1 h1
  have hn := cnt os s s1 hk h1
  rw [hc] at hn
  simp only [get, Option.getD_none, Nat.zero_add] at hn
  have hp : ((os.length : K) + 1) ≠ 0 := by positivity
  simp only [calls, step, logkv, logkvMean, get_put_self, Option.getD_some, hn, Except.ok.injEq] at h
  rw [← h]
  simp only [get_put_self, blend, Option.some.injEq, Val.num.injEq]
  field_simp

/-- **C117 (none, defect).** After `None` (or a text) has been logged under a key, averaging a number under it raises a `TypeError`. -/
theorem C117_none (s : Logger K) (k : Str) (x : K) (v : Val K) (hv : v = .none ∨ ∃ t, v = .text t) :
    calls s [.log k v, .mean k (some x)] = .error .typeError ∧ calls s [.mean k none, .mean k (some x)] = .error .typeError := by
  constructor
  · rcases hv with rfl | ⟨t, rfl⟩ <;> simp [calls, step, logkv, logkvMean, get_put_self]
  · simp [calls, step, logkvMean, get_put_self]

/-! ### The CSV file -/

/-- The CSV file after a number of dumps; every dump may walk through the new keys in its own order. -/
def csvRun : List (Env K × Dict (Val K)) → List Str × File
  | [] => ([], ⟨[], 0⟩)
  | (E, d) :: r => csvWrite E (csvRun r).1 (csvRun r).2 d

/-- What stands under a column in the row of a dump: the printed value, nothing if there is none. -/
def Entry (E : Env K) (d : Dict (Val K)) (k : Str) : Str :=
  match get d k with
  | some .none => []
  | some v => E.str v
  | none => []

/-- The requirements on a dump: distinct keys, printed texts without commas and newlines, and the set of new keys walked through in some order. -/
def Fine (x : Env K × Dict (Val K)) : Prop :=
  (x.2.map Prod.fst).Nodup ∧ (∀ kv ∈ x.2, Plain kv.1 ∧ Plain (x.1.str kv.2)) ∧ ∀ l, (x.1.ord l).Perm l

theorem get_pair {d : Dict (Val K)} {k : Str} {v : Val K} (h : get d k = some v) : (k, v) ∈ d := by
  induction d with
  | nil => simp [get] at h
  | cons a r ih =>
    obtain ⟨a, w⟩ := a
    by_cases e : a = k
    · subst e
      simp only [get, if_true, Option.some.injEq] at h
      simp [h]
    · simp only [get, e, if_false] at h
      simp [ih h]

theorem cell_plain {x : Env K × Dict (Val K)} (h : Fine x) (k : Str) : Plain (cell x.1 x.2 k) := by
  unfold cell
  split
  · simp [Plain]
  · rename_i v _ hv
    exact (h.2.1 _ (get_pair hv)).2
  · simp [Plain]

theorem cell_absent {x : Env K × Dict (Val K)} {k : Str} (h : k ∉ x.2.map Prod.fst) : cell x.1 x.2 k = [] := by
  unfold cell
  rw [get_none.2 h]

/-- The lines of the file. -/
def csvLines (keys : List Str) (xs : List (Env K × Dict (Val K))) : List Str :=
  commas keys :: xs.reverse.map fun x => commas (keys.map (cell x.1 x.2))

theorem csvLines_plain {keys : List Str} {xs : List (Env K × Dict (Val K))} (hk : ∀ k ∈ keys, Plain k) (hx : ∀ x ∈ xs, Fine x) :
    ∀ l ∈ csvLines keys xs, '\n' ∉ l := by
  intro l hl
  simp only [csvLines, List.mem_cons, List.mem_map, List.mem_reverse] at hl
  rcases hl with rfl | ⟨x, hxm, rfl⟩
  · intro h
    rcases mem_commas h with h | ⟨s, hs, hc⟩
    · cases h
    · exact (hk s hs).2 hc
  · intro h
    rcases mem_commas h with h | ⟨s, hs, hc⟩
    · cases h
    · obtain ⟨k, _, rfl⟩ := List.mem_map.1 hs
      exact (cell_plain (hx x hxm) k).2 hc

theorem rewrite_eq {keys extra : List Str} {xs : List (Env K × Dict (Val K))} (hne : keys ≠ []) (hk : ∀ k ∈ keys, Plain k) (hx : ∀ x ∈ xs, Fine x)
    (hex : ∀ k ∈ extra, ∀ x ∈ xs, k ∉ x.2.map Prod.fst) :
    rewrite (keys ++ extra) extra.length (unlines (csvLines keys xs)) = unlines (csvLines (keys ++ extra) xs) := by
  unfold rewrite
  rw [readlines_unlines _ (csvLines_plain hk hx)]
  simp only [csvLines, List.map_cons, List.drop_succ_cons, List.drop_zero, unlines_cons]
  congr 1
  rw [List.flatMap_map, unlines, List.flatMap_map, List.flatMap_map]
  refine List.flatMap_congr fun x hxm => ?_
  rw [List.dropLast_concat, List.map_append]
  have : extra.map (cell x.1 x.2) = List.replicate extra.length [] := by
    rw [List.eq_replicate_iff]
    refine ⟨by simp, ?_⟩
    intro b hb
    obtain ⟨k, hk, rfl⟩ := List.mem_map.1 hb
    exact cell_absent (hex k hk x (List.mem_reverse.1 hxm))
  rw [this, commas_pad (by simpa using hne)]

theorem unlines_length_le {a b : List Str} (h : List.Forall₂ (fun s t : Str => s.length ≤ t.length) a b) : (unlines a).length ≤ (unlines b).length := by
  induction h with
  | nil => simp
  | cons h _ ih =>
    rw [unlines_cons, unlines_cons]
    simp only [List.length_append, List.length_singleton]
    omega

theorem overwrite {a t : Str} (h : a.length ≤ t.length) : (⟨a, 0⟩ : File).write t = ⟨t, t.length⟩ := by
  simp [File.write, List.drop_eq_nil_of_le h]

theorem write_end (a t : Str) : (⟨a, a.length⟩ : File).write t = ⟨a ++ t, (a ++ t).length⟩ := File.write_end _ rfl _

theorem csv_inv : ∀ (xs : List (Env K × Dict (Val K))), (∀ x ∈ xs, Fine x) → (∀ y, xs.getLast? = some y → y.2 ≠ []) → xs ≠ [] →
    (csvRun xs).1 ≠ [] ∧ (csvRun xs).1.Nodup ∧ (∀ k, k ∈ (csvRun xs).1 ↔ ∃ x ∈ xs, k ∈ x.2.map Prod.fst) ∧
    (csvRun xs).2 = ⟨unlines (csvLines (csvRun xs).1 xs), (unlines (csvLines (csvRun xs).1 xs)).length⟩
  | [], _, _, h => absurd rfl h
  | (E, d) :: r, hf, hl, _ => by
    have hfx : Fine (E, d) := hf _ (by simp)
    have hfr : ∀ x ∈ r, Fine x := fun x hx => hf x (by simp [hx])
    obtain ⟨hd, hp, ho⟩ := hfx
    simp only [csvRun]
    rcases eq_or_ne r [] with rfl | hr
    · have hne : d ≠ [] := hl (E, d) rfl
      simp only [csvRun, csvWrite, List.not_mem_nil, not_false_eq_true, decide_true, List.filter_true, List.nil_append]
      have hen : E.ord (d.map Prod.fst) ≠ [] := fun h => hne (by
        have := (ho (d.map Prod.fst)).length_eq
        rw [h] at this
        simpa using this.symm)
      have hmem : ∀ k, k ∈ E.ord (d.map Prod.fst) ↔ k ∈ d.map Prod.fst := fun k => (ho _).mem_iff
      refine ⟨hen, (ho _).nodup_iff.2 hd, fun k => by rw [hmem]; simp, ?_⟩
      rw [if_neg hen]
      have h1 : rewrite (E.ord (d.map Prod.fst)) (E.ord (d.map Prod.fst)).length [] = commas (E.ord (d.map Prod.fst)) ++ ['\n'] := by
        simp [rewrite, readlines]
      rw [h1, overwrite (by simp), write_end, write_end]
      simp [csvLines, unlines]
    · obtain ⟨hkn, hknd, hkm, hfile⟩ := csv_inv r hfr (fun y hy => hl y (by
        cases r with
        | nil => exact absurd rfl hr
        | cons a r => simpa [List.getLast?_cons] using hy)) hr
      generalize hks : (csvRun r).1 = keys at hkn hknd hkm hfile
      rw [hfile]
      simp only [csvWrite]
      set extra := E.ord ((d.map Prod.fst).filter fun k => decide (k ∉ keys)) with hextra
      have hexm : ∀ k, k ∈ extra ↔ k ∈ d.map Prod.fst ∧ k ∉ keys := by
        intro k
        rw [hextra, (ho _).mem_iff, List.mem_filter]
        simp
      have hkp : ∀ k ∈ keys, Plain k := by
        intro k hk
        obtain ⟨x, hx, hkx⟩ := (hkm k).1 hk
        obtain ⟨kv, hkv, rfl⟩ := List.mem_map.1 hkx
        exact ((hfr x hx).2.1 kv hkv).1
      have hex : ∀ k ∈ extra, ∀ x ∈ r, k ∉ x.2.map Prod.fst := fun k hk x hx hkx => ((hexm k).1 hk).2 ((hkm k).2 ⟨x, hx, hkx⟩)
      refine ⟨by simp [hkn], ?_, ?_, ?_⟩
      · refine List.Nodup.append hknd ((ho _).nodup_iff.2 (hd.filter _)) ?_
        intro k h1 h2
        exact ((hexm k).1 h2).2 h1
      · intro k
        rw [List.mem_append, hexm]
        constructor
        · rintro (hk | ⟨hk, _⟩)
          · obtain ⟨x, hx, hk⟩ := (hkm k).1 hk
            exact ⟨x, by simp [hx], hk⟩
          · exact ⟨(E, d), by simp, hk⟩
        · rintro ⟨x, hx, hk⟩
          rcases List.mem_cons.1 hx with rfl | hx
          · by_cases hkk : k ∈ keys
            · exact .inl hkk
            · exact .inr ⟨hk, hkk⟩
          · exact .inl ((hkm k).2 ⟨x, hx, hk⟩)
      · have hmid : (if extra = [] then (⟨unlines (csvLines keys r), (unlines (csvLines keys r)).length⟩ : File) else
            ({ text := unlines (csvLines keys r), pos := 0 } : File).write (rewrite (keys ++ extra) extra.length (unlines (csvLines keys r)))) =
            ⟨unlines (csvLines (keys ++ extra) r), (unlines (csvLines (keys ++ extra) r)).length⟩ := by
          split
          · rename_i he; rw [he]; simp
          · rw [rewrite_eq hkn hkp hfr hex]
            have hle : (unlines (csvLines keys r)).length ≤ (unlines (csvLines (keys ++ extra) r)).length := by
              apply unlines_length_le
              simp only [csvLines]
              refine List.Forall₂.cons commas_length_le ?_
              rw [List.forall₂_map_left_iff, List.forall₂_map_right_iff, List.forall₂_same]
              intro x _
              rw [List.map_append]
              exact commas_length_le
            exact overwrite hle
        rw [hmid, write_end, write_end]
        simp [csvLines, unlines]

/-- **C117 (csv).** After any number of dumps, the first of which is not empty, the CSV file is a table: its header names every key ever logged once,
its rows are the dumps in order, and under each key stands what that dump logged (nothing if it logged nothing or `None`).
Columns that appear late leave nothing of the old text behind.  (The list of dumps starts with the latest.) -/
theorem C117_csv (xs : List (Env K × Dict (Val K))) (hf : ∀ x ∈ xs, Fine x) (hne : xs ≠ []) (hl : (xs.getLast hne).2 ≠ []) :
    ∃ keys : List Str, keys.Nodup ∧ (∀ k, k ∈ keys ↔ ∃ x ∈ xs, k ∈ x.2.map Prod.fst) ∧
      parse (csvRun xs).2.text = keys :: xs.reverse.map fun x => keys.map (Entry x.1 x.2) := by
  obtain ⟨h1, h2, h3, h4⟩ := csv_inv xs hf (by intro y hy; rw [List.getLast?_eq_some_getLast hne] at hy; cases hy; exact hl) hne
  refine ⟨(csvRun xs).1, h2, h3, ?_⟩
  have hkp : ∀ k ∈ (csvRun xs).1, Plain k := by
    intro k hk
    obtain ⟨x, hx, hkx⟩ := (h3 k).1 hk
    obtain ⟨kv, hkv, rfl⟩ := List.mem_map.1 hkx
    exact ((hf x hx).2.1 kv hkv).1
  rw [h4]
  simp only
  rw [parse_unlines _ (csvLines_plain hkp hf)]
  simp only [csvLines, List.map_cons, List.map_map]
  rw [split_commas h1 fun s hs => (hkp s hs).1]
  congr 1
  apply List.map_congr_left
  intro x hx
  simp only [Function.comp]
  rw [split_commas (by simpa using h1)]
  · rfl
  · intro s hs
    obtain ⟨k, _, rfl⟩ := List.mem_map.1 hs
    exact (cell_plain (hf x (List.mem_reverse.1 hx)) k).1

/-- **C117 (columns).** Columns are never moved: the header only grows at its end. -/
theorem C117_columns (E : Env K) (keys : List Str) (f : File) (d : Dict (Val K)) : keys <+: (csvWrite E keys f d).1 := by
  simp [csvWrite]

/-- **C117 (commas, defect).** Values are not quoted: the row of a dump has as many fields too many as there are commas in its texts. -/
theorem C117_commas (E : Env K) (keys : List Str) (hne : keys ≠ []) (d : Dict (Val K)) :
    (split ',' (commas (keys.map (cell E d)))).length = keys.length + (keys.map fun k => (Entry E d k).count ',').sum := by
  rw [split_length]
  induction keys with
  | nil => exact absurd rfl hne
  | cons k keys ih =>
    rcases eq_or_ne keys [] with rfl | h
    · simp only [List.map_cons, List.map_nil, commas_single, List.sum_cons, List.sum_nil, List.length_singleton]
      show (Entry E d k).count ',' + 1 = _
      omega
    · have := ih h
      rw [List.map_cons, commas_cons _ (by simpa using h)]
      simp only [List.count_append, List.count_cons_self, List.map_cons, List.sum_cons, List.length_cons]
      show (Entry E d k).count ',' + _ + 1 = _
      omega

/-- **C117 (empty, defect).** If the first two dumps are empty, the row of the second one has one field more than the header once there are columns. -/
theorem C117_empty (E : Env K) (d : Dict (Val K)) (hf : Fine (E, d)) (hd : d ≠ []) :
    ∃ keys row, keys.length = d.length ∧ parse (csvRun [(E, d), (E, []), (E, [])]).2.text = [keys, List.replicate (d.length + 1) [], row] := by
  obtain ⟨hnd, hp, ho⟩ := hf
  have h0 : E.ord [] = [] := List.perm_nil.1 (ho [])
  have h2 : csvRun [(E, ([] : Dict (Val K))), (E, [])] = ([], ⟨['\n', '\n'], 2⟩) := by
    simp [csvRun, csvWrite, h0, commas, List.intercalate, File.write]
  have hperm := ho (d.map Prod.fst)
  have hlen : (E.ord (d.map Prod.fst)).length = d.length := by simpa using hperm.length_eq
  have hen : E.ord (d.map Prod.fst) ≠ [] := fun h => hd (by rw [h] at hlen; simpa using hlen.symm)
  have hkp : ∀ k ∈ E.ord (d.map Prod.fst), Plain k := by
    intro k hk
    obtain ⟨kv, hkv, rfl⟩ := List.mem_map.1 (hperm.mem_iff.1 hk)
    exact (hp kv hkv).1
  have hr : rewrite (E.ord (d.map Prod.fst)) (E.ord (d.map Prod.fst)).length ['\n', '\n'] =
      unlines [commas (E.ord (d.map Prod.fst)), List.replicate d.length ','] := by
    simp [rewrite, readlines, unlines, hlen]
  have hfile : (csvRun [(E, d), (E, []), (E, [])]).2.text =
      unlines [commas (E.ord (d.map Prod.fst)), List.replicate d.length ',', commas ((E.ord (d.map Prod.fst)).map (cell E d))] := by
    show (csvWrite E (csvRun [(E, []), (E, [])]).1 (csvRun [(E, []), (E, [])]).2 d).2.text = _
    rw [h2]
    simp only [csvWrite, List.not_mem_nil, not_false_eq_true, decide_true, List.filter_true, List.nil_append]
    rw [if_neg hen, hr]
    have : 0 < d.length := List.length_pos_iff.2 hd
    rw [overwrite (by simp [unlines]; omega), write_end, write_end]
    simp [unlines]
  refine ⟨E.ord (d.map Prod.fst), (E.ord (d.map Prod.fst)).map (cell E d), hlen, ?_⟩
  rw [hfile, parse_unlines]
  · simp only [List.map_cons, List.map_nil]
    rw [split_commas hen fun s hs => (hkp s hs).1, split_commas (by simpa using hen)]
    · congr 2
      have : List.replicate d.length ',' = commas (List.replicate (d.length + 1) []) := by
        have := commas_pad (l := [[]]) (by simp) d.length
        rw [commas_single, List.nil_append] at this
        rw [← this, List.replicate_succ]
        rfl
      rw [this, split_commas (by simp)]
      intro s hs
      rw [(List.mem_replicate.1 hs).2]
      simp
    · intro s hs
      obtain ⟨k, _, rfl⟩ := List.mem_map.1 hs
      exact (cell_plain (x := (E, d)) ⟨hnd, hp, ho⟩ k).1
  · intro l hl
    simp only [List.mem_cons, List.not_mem_nil, or_false] at hl
    rcases hl with rfl | rfl | rfl
    · intro h
      rcases mem_commas h with h | ⟨s, hs, hc⟩
      · cases h
      · exact (hkp s hs).2 hc
    · intro h
      cases (List.mem_replicate.1 h).2
    · intro h
      rcases mem_commas h with h | ⟨s, hs, hc⟩
      · cases h
      · obtain ⟨k, _, rfl⟩ := List.mem_map.1 hs
        exact (cell_plain (x := (E, d)) ⟨hnd, hp, ho⟩ k).2 hc

/-- An environment for the examples: rational numbers are not printed, texts are printed as they are, sets are walked through backwards. -/
def exEnv : Env ℚ := { human := fun | .text s => s | _ => "0".toList, str := fun | .text s => s | _ => "0".toList, parse := fun _ => none, ord := List.reverse }

/-- Three dumps with changing keys: the third column appears with the third dump. -/
example : (csvRun [(exEnv, [("b".toList, .text "y".toList), ("c".toList, .text "zz".toList)]), (exEnv, [("a".toList, .none)]),
    (exEnv, [("a".toList, .text "1".toList), ("b".toList, .text "2".toList)])]).2.text = "b,a,c\n2,1,\n,,\ny,,zz\n".toList := by decide +kernel

example : Fine (exEnv, [("a".toList, .text "1".toList), ("b".toList, .text "2".toList)]) :=
  ⟨by decide, by simp [Plain, exEnv], fun l => List.reverse_perm l⟩

/-- A value with a comma. -/
example : (split ',' (commas (["a".toList, "b".toList].map (cell exEnv [("a".toList, .text "1,5".toList), ("b".toList, .text "2".toList)])))).length = 3 := by decide +kernel

example : calls (start (K := ℚ) []) [.mean "r".toList (some 2), .log "k".toList .none, .mean "r".toList (some 4), .mean "r".toList (some 9)] =
    .ok { val := [("r".toList, .num 5), ("k".toList, .none)], cnt := [("r".toList, 3)], level := 20, fmts := [] } := by
  simp [calls, step, logkvMean, logkv, start, put, get, blend]; norm_num

/-! ### The console table -/

theorem le_width {l : List Str} {s : Str} (h : s ∈ l) : s.length ≤ width l := by
  induction l with
  | nil => simp at h
  | cons a l ih =>
    simp only [width, List.foldr_cons]
    rcases List.mem_cons.1 h with rfl | h
    · exact le_max_left _ _
    · exact le_trans (ih h) (le_max_right _ _)

theorem tableRow_length {kw vw : ℕ} {k v : Str} (hk : k.length ≤ kw) (hv : v.length ≤ vw) : (tableRow kw vw k v).length = kw + vw + 7 := by
  simp only [tableRow, List.length_append, List.length_replicate]
  have h1 : "| ".toList.length = 2 := rfl
  have h2 : " | ".toList.length = 3 := rfl
  have h3 : " |".toList.length = 2 := rfl
  omega

/-- Entries put one after the other. -/
theorem putAll {V W : Type} (g : W → V) (f : Str → Str) : ∀ (l : Dict W) (d : Dict V), (d.map Prod.fst).Nodup →
    let r := l.foldl (fun d kv => put d (f kv.1) (g kv.2)) d
    (r.map Prod.fst).Nodup ∧ (∀ t, t ∈ r.map Prod.fst ↔ t ∈ d.map Prod.fst ∨ ∃ kv ∈ l, f kv.1 = t) ∧
    (∀ a kv b, l = a ++ kv :: b → (∀ kv' ∈ b, f kv'.1 ≠ f kv.1) → get r (f kv.1) = some (g kv.2)) ∧
    (∀ t, (∀ kv ∈ l, f kv.1 ≠ t) → get r t = get d t)
  | [], d, hd => by
    refine ⟨hd, by simp, ?_, by simp⟩
    intro a kv b h
    simp at h
  | kv :: l, d, hd => by
    have ih := putAll g f l (put d (f kv.1) (g kv.2)) (put_nodup hd _ _)
    simp only [List.foldl_cons]
    refine ⟨ih.1, ?_, ?_, ?_⟩
    · intro t
      rw [ih.2.1 t, put_keys]
      simp only [List.mem_cons, exists_eq_or_imp]
      split
      · rename_i h
        constructor
        · rintro (h' | h')
          · exact .inl h'
          · exact .inr (.inr h')
        · rintro (h' | h' | h')
          · exact .inl h'
          · exact .inl (h' ▸ h)
          · exact .inr h'
      · simp only [List.mem_append, List.mem_singleton]
        constructor
        · rintro ((h' | h') | h')
          · exact .inl h'
          · exact .inr (.inl h'.symm)
          · exact .inr (.inr h')
        · rintro (h' | h' | h')
          · exact .inl (.inl h')
          · exact .inl (.inr h'.symm)
          · exact .inr h'
    · intro a kv0 b hab hb
      cases a with
      | nil =>
        simp only [List.nil_append, List.cons.injEq] at hab
        obtain ⟨rfl, rfl⟩ := hab
        rw [ih.2.2.2 _ hb, get_put_self]
      | cons a0 a =>
        simp only [List.cons_append, List.cons.injEq] at hab
        exact ih.2.2.1 a kv0 b hab.2 hb
    · intro t ht
      rw [ih.2.2.2 t fun kv h => ht kv (by simp [h]), get_put_ne _ _ (Ne.symm (ht kv (by simp)))]

theorem key2str_spec (E : Env K) (kvs : Dict (Val K)) (hd : (kvs.map Prod.fst).Nodup) :
    ((key2str E kvs).map Prod.fst).Nodup ∧ (∀ t, t ∈ (key2str E kvs).map Prod.fst ↔ ∃ kv ∈ kvs, truncate kv.1 = t) ∧
    (∀ kv ∈ kvs, (∀ kv' ∈ kvs, truncate kv'.1 = truncate kv.1 → kv'.1 ≤ kv.1) → (truncate kv.1, truncate (E.human kv.2)) ∈ key2str E kvs) := by
  have h := putAll (fun v => truncate (E.human v)) truncate (sorted kvs) [] (by simp)
  simp only at h
  refine ⟨h.1, ?_, ?_⟩
  · intro t
    rw [key2str, h.2.1 t]
    simp only [List.map_nil, List.not_mem_nil, false_or]
    constructor <;> rintro ⟨kv, hkv, e⟩
    · exact ⟨kv, (sorted_perm kvs).mem_iff.1 hkv, e⟩
    · exact ⟨kv, (sorted_perm kvs).mem_iff.2 hkv, e⟩
  · intro kv hkv hmax
    obtain ⟨a, b, hab⟩ := List.append_of_mem ((sorted_perm kvs).mem_iff.2 hkv)
    have hs := sorted_sorted kvs
    have hn : ((sorted kvs).map Prod.fst).Nodup := (sorted_keys kvs).nodup_iff.2 hd
    rw [hab] at hs hn
    refine (get_mem (d := key2str E kvs) h.1).1 ?_
    refine h.2.2.1 a kv b hab ?_
    intro kv' hb e
    have h1 : kv.1 ≤ kv'.1 := (List.pairwise_cons.1 (List.pairwise_append.1 hs).2.1).1 kv' hb
    have hm : kv' ∈ kvs := (sorted_perm kvs).mem_iff.1 (by rw [hab]; simp [hb])
    have h2 := hmax kv' hm e
    have e2 : kv'.1 = kv.1 := le_antisymm h2 h1
    rw [List.map_append, List.map_cons] at hn
    have := (List.nodup_cons.1 (List.nodup_append.1 hn).2.1).1
    exact this (e2 ▸ List.mem_map_of_mem (f := Prod.fst) hb)

/-- A line of the table showing a key and a text. -/
def Shows (line : Str) (kv : Str × Str) : Prop :=
  ∃ a b : ℕ, line = ['|', ' '] ++ kv.1 ++ List.replicate a ' ' ++ [' ', '|', ' '] ++ kv.2 ++ List.replicate b ' ' ++ [' ', '|']

/-- **C117 (table).** The table on the console has a line for every key (cut to 23 characters), in alphabetical order and between two lines of dashes,
all lines of the same length.  Where keys are cut to the same text, the alphabetically last one is shown. -/
theorem C117_table (E : Env K) (kvs : Dict (Val K)) (hd : (kvs.map Prod.fst).Nodup) (hne : kvs ≠ []) :
    ∃ (w : ℕ) (rows : List (Str × Str)) (lines : List Str), table E kvs = List.replicate w '-' :: lines ++ [List.replicate w '-'] ∧
      List.Forall₂ Shows lines rows ∧ (∀ l ∈ lines, l.length = w) ∧
      (rows.map Prod.fst).Pairwise (· < ·) ∧ (∀ t, t ∈ rows.map Prod.fst ↔ ∃ kv ∈ kvs, truncate kv.1 = t) ∧
      ∀ kv ∈ kvs, (∀ kv' ∈ kvs, truncate kv'.1 = truncate kv.1 → kv'.1 ≤ kv.1) → (truncate kv.1, truncate (E.human kv.2)) ∈ rows := by
  obtain ⟨h1, h2, h3⟩ := key2str_spec E kvs hd
  have hn : key2str E kvs ≠ [] := by
    obtain ⟨kv, hkv⟩ := List.exists_mem_of_ne_nil _ hne
    intro h
    have := (h2 (truncate kv.1)).2 ⟨kv, hkv, rfl⟩
    rw [h] at this
    simp at this
  refine ⟨width ((key2str E kvs).map Prod.fst) + width ((key2str E kvs).map Prod.snd) + 7, sorted (key2str E kvs),
    (sorted (key2str E kvs)).map (fun kv => tableRow (width ((key2str E kvs).map Prod.fst)) (width ((key2str E kvs).map Prod.snd)) kv.1 kv.2),
    ?_, ?_, ?_, ?_, ?_, ?_⟩
  · simp [table, hn]
  · rw [List.forall₂_map_left_iff, List.forall₂_same]
    intro kv _
    exact ⟨_, _, rfl⟩
  · intro l hl
    obtain ⟨kv, hkv, rfl⟩ := List.mem_map.1 hl
    have := (sorted_perm _).mem_iff.1 hkv
    exact tableRow_length (le_width (List.mem_map_of_mem this)) (le_width (List.mem_map_of_mem this))
  · have hs := sorted_sorted (key2str E kvs)
    have hnd : ((sorted (key2str E kvs)).map Prod.fst).Nodup := (sorted_keys _).nodup_iff.2 h1
    rw [List.pairwise_map]
    rw [List.Nodup, List.pairwise_map] at hnd
    exact (hs.and hnd).imp fun h => lt_of_le_of_ne h.1 h.2
  · intro t
    rw [(sorted_keys _).mem_iff, h2]
  · intro kv hkv hm
    exact (sorted_perm _).mem_iff.2 (h3 kv hkv hm)

/-- **C117 (short).** Keys of at most 23 characters are all shown, uncut. -/
theorem C117_short (E : Env K) (kvs : Dict (Val K)) (hd : (kvs.map Prod.fst).Nodup) (hs : ∀ kv ∈ kvs, kv.1.length ≤ 23) (kv : Str × Val K) (hkv : kv ∈ kvs) :
    ∃ line ∈ table E kvs, Shows line (kv.1, truncate (E.human kv.2)) := by
  obtain ⟨w, rows, lines, ht, hf, _, _, _, hr⟩ := C117_table E kvs hd (by rintro rfl; simp at hkv)
  have tr : ∀ kv ∈ kvs, truncate kv.1 = kv.1 := fun kv h => by simp [truncate, Nat.not_lt.2 (hs kv h)]
  have := hr kv hkv fun kv' h e => by rw [tr _ h, tr _ hkv] at e; exact e.le
  rw [tr _ hkv] at this
  obtain ⟨i, hi, e⟩ := List.mem_iff_getElem.1 this
  have hl : i < lines.length := by rw [hf.length_eq]; exact hi
  refine ⟨lines[i], ?_, ?_⟩
  · rw [ht]; simp
  · rw [← e]
    exact List.Forall₂.get hf hl hi

/-- **C117 (cut).** A key or value of more than 23 characters is shown as its first 20 and three dots, so that no cell is wider than 23 characters. -/
theorem C117_cut : (∀ a b : Str, a.length = 20 → 3 < b.length → truncate (a ++ b) = a ++ "...".toList) ∧ (∀ s : Str, s.length ≤ 23 → truncate s = s) ∧
    ∀ s : Str, (truncate s).length = min s.length 23 := by
  refine ⟨fun a b ha hb => ?_, fun s hs => by simp [truncate, Nat.not_lt.2 hs], fun s => ?_⟩
  · have : (a ++ b).length > 23 := by rw [List.length_append]; omega
    rw [truncate, if_pos this, ← ha, List.take_left]
  · unfold truncate
    split_ifs with h
    · simp; omega
    · omega

/-- **C117 (lossy, defect).** Two different keys that are cut to the same text share one line: a value is not shown. -/
theorem C117_lossy (E : Env K) (kvs : Dict (Val K)) (hd : (kvs.map Prod.fst).Nodup) (a b : Str × Val K) (ha : a ∈ kvs) (hb : b ∈ kvs) (hab : a ≠ b)
    (ht : truncate a.1 = truncate b.1) : (table E kvs).length < kvs.length + 2 := by
  obtain ⟨w, rows, lines, h1, h2, _, h4, h5, _⟩ := C117_table E kvs hd (by rintro rfl; simp at ha)
  rw [h1]
  simp only [List.length_append, List.length_cons, List.length_nil, h2.length_eq]
  have hnd : (rows.map Prod.fst).Nodup := h4.imp fun h => ne_of_lt h
  have hkv : kvs.Nodup := List.Nodup.of_map _ hd
  have e1 : rows.length = (rows.map Prod.fst).toFinset.card := by rw [List.toFinset_card_of_nodup hnd]; simp
  have e2 : kvs.length = (kvs.map Prod.fst).toFinset.card := by rw [List.toFinset_card_of_nodup hd]; simp
  have e3 : (rows.map Prod.fst).toFinset = (kvs.map Prod.fst).toFinset.image truncate := by
    ext t
    rw [List.mem_toFinset, h5]
    simp only [Finset.mem_image, List.mem_toFinset, List.mem_map]
    constructor
    · rintro ⟨kv, h, e⟩; exact ⟨kv.1, ⟨kv, h, rfl⟩, e⟩
    · rintro ⟨k, ⟨kv, h, rfl⟩, e⟩; exact ⟨kv, h, e⟩
  have hne : a.1 ≠ b.1 := fun h => hab (List.inj_on_of_nodup_map hd ha hb h)
  have : ((kvs.map Prod.fst).toFinset.image truncate).card < (kvs.map Prod.fst).toFinset.card := by
    refine lt_of_le_of_ne Finset.card_image_le fun h => ?_
    have := Finset.card_image_iff.1 h
    exact hne (this (by simpa using ⟨a.2, ha⟩) (by simpa using ⟨b.2, hb⟩) ht)
  rw [e1, e3, e2]
  omega

/-! ### JSON -/

/-- What JSON gets for a value: arrays become a number (one entry) or nested lists. -/
def Plainly : Val K → Val K
  | .arr sh [x] => if sh = [] ∨ sh.head? = some 1 then .num x else .list sh [x]
  | .arr sh d => .list sh d
  | v => v

/-- Arrays that can be written: no scalar without entry, and no array with a first axis of length one and several entries. -/
def Writable : Val K → Prop
  | .arr sh d => sh = [] ∨ sh.head? = some 1 → d.length = 1
  | _ => True

theorem conv_ok {v : Val K} (h : Writable v) : conv v = .ok (Plainly v) := by
  cases v with
  | arr sh d =>
    simp only [Writable] at h
    by_cases hs : sh = [] ∨ sh.head? = some 1
    · have := h hs
      obtain ⟨x, rfl⟩ := List.length_eq_one_iff.1 this
      simp [conv, Plainly, hs]
    · match d with
      | [] => simp [conv, Plainly, hs]
      | [x] => simp [conv, Plainly, hs]
      | x :: y :: r => simp [conv, Plainly, hs]
  | _ => rfl

theorem put_map {V : Type} (f g : Str × V → V) (kv : Str × V) : ∀ (d : Dict V), (d.map Prod.fst).Nodup → kv ∈ d →
    (∀ x ∈ d, x ≠ kv → g x = f x) → put (d.map fun x => (x.1, f x)) kv.1 (g kv) = d.map fun x => (x.1, g x)
  | [], _, h, _ => by simp at h
  | x :: d, hd, h, hfg => by
    simp only [List.map_cons, List.nodup_cons] at hd
    by_cases e : x.1 = kv.1
    · have : x = kv := by
        rcases List.mem_cons.1 h with h | h
        · exact h.symm
        · exact absurd (e ▸ List.mem_map_of_mem (f := Prod.fst) h) hd.1
      subst this
      simp only [List.map_cons, put, if_true, List.cons.injEq, true_and]
      apply List.map_congr_left
      intro y hy
      rw [hfg y (by simp [hy]) (by rintro rfl; exact hd.1 (List.mem_map_of_mem (f := Prod.fst) hy))]
    · have hm : kv ∈ d := by
        rcases List.mem_cons.1 h with rfl | h
        · exact absurd rfl e
        · exact h
      simp only [List.map_cons, put, e, if_false]
      rw [put_map f g kv d hd.2 hm fun y hy => hfg y (by simp [hy]), hfg x (by simp) (by rintro rfl; exact e rfl)]

theorem convLoop_eq (orig : Dict (Val K)) (hd : (orig.map Prod.fst).Nodup) (hw : ∀ kv ∈ orig, Writable kv.2) :
    ∀ (l done : Dict (Val K)), (∀ kv ∈ l, kv ∈ orig) → (∀ kv ∈ orig, kv ∈ done ∨ kv ∈ l) → (∀ kv ∈ l, kv ∉ done) → l.Nodup →
    (∀ f : Str × Val K → Val K, (∀ kv ∈ done, f kv = Plainly kv.2) → (∀ kv, kv ∉ done → f kv = kv.2) →
      convLoop l (orig.map fun x => (x.1, f x)) = (orig.map fun x => (x.1, Plainly x.2), none))
  | [], done, _, h2, _, _, f, hf, _ => by
    simp only [convLoop, Prod.mk.injEq, and_true]
    apply List.map_congr_left
    intro x hx
    rcases h2 x hx with h | h
    · rw [hf x h]
    · simp at h
  | (k, v) :: l, done, h1, h2, h3, h4, f, hf, hf' => by
    classical
    have ih := convLoop_eq orig hd hw l ((k, v) :: done) (fun kv h => h1 kv (by simp [h]))
      (by
        intro kv h
        rcases h2 kv h with h | h
        · exact .inl (by simp [h])
        · rcases List.mem_cons.1 h with h | h
          · exact .inl (by simp [h])
          · exact .inr h)
      (by
        intro kv h h'
        rcases List.mem_cons.1 h' with h' | h'
        · subst h'; exact (List.nodup_cons.1 h4).1 h
        · exact h3 kv (by simp [h]) h')
      (List.nodup_cons.1 h4).2
    have hm := h1 (k, v) (by simp)
    cases v with
    | arr sh d =>
      simp only [convLoop]
      rw [conv_ok (hw _ hm)]
      simp only
      have := put_map f (fun x => if x = (k, .arr sh d) then Plainly (.arr sh d) else f x) (k, .arr sh d) orig hd hm
        (by intro x _ hx; simp only [hx, if_false])
      simp only [if_true] at this
      rw [this]
      apply ih
      · intro kv hkv
        by_cases e : kv = (k, .arr sh d)
        · simp [e]
        · rw [if_neg e]
          rcases List.mem_cons.1 hkv with h | h
          · exact absurd h e
          · exact hf kv h
      · intro kv hkv
        simp only [List.mem_cons, not_or] at hkv
        rw [if_neg hkv.1]
        exact hf' kv hkv.2
    | _ =>
      simp only [convLoop]
      refine ih f ?_ ?_
      · intro kv hkv
        rcases List.mem_cons.1 hkv with h | h
        · rw [h, hf' _ (h3 _ (by simp))]; rfl
        · exact hf kv h
      · intro kv hkv
        simp only [List.mem_cons, not_or] at hkv
        exact hf' kv hkv.2

/-- **C117 (json).** A JSON line has the logged keys in the order in which they were logged, each with its value, arrays as numbers or nested lists;
the formats after it in the list get the values so converted. -/
theorem C117_json (E : Env K) (kvs : Dict (Val K)) (hd : (kvs.map Prod.fst).Nodup) (hw : ∀ kv ∈ kvs, Writable kv.2) (out : List (Dict (Val K))) :
    Fmt.write E kvs (.json out) = (.json (out ++ [kvs.map fun kv => (kv.1, Plainly kv.2)]), kvs.map fun kv => (kv.1, Plainly kv.2), none) := by
  have hkv : kvs.Nodup := List.Nodup.of_map _ hd
  have := convLoop_eq kvs hd hw (sorted kvs) [] (fun kv h => (sorted_perm _).mem_iff.1 h) (fun kv h => .inr ((sorted_perm _).mem_iff.2 h))
    (by simp) ((sorted_perm _).nodup_iff.2 hkv) Prod.snd (by simp) (by simp)
  have e : kvs.map (fun x => (x.1, x.2)) = kvs := by simp
  rw [e] at this
  simp only [Fmt.write, this]

/-- **C117 (json_shape, defect).** An array with several entries whose first axis has length one (a batch of one vector) makes writing JSON fail. -/
theorem C117_json_shape (E : Env K) (k : Str) (n : ℕ) (d : List K) (hn : d.length = n) (h : n ≠ 1) (out : List (Dict (Val K))) :
    (Fmt.write E [(k, .arr [1, n] d)] (.json out)).2.2 = some .typeError := by
  have : sorted [(k, Val.arr [1, n] d)] = [(k, Val.arr [1, n] d)] := List.perm_singleton.1 (sorted_perm _)
  simp only [Fmt.write, this, convLoop, conv]
  match d with
  | [] => simp
  | [x] => simp at hn; omega
  | x :: y :: r => simp

/-! ### TensorBoard -/

/-- The number a dump has under a key: what `float` makes of the value. -/
def Number (E : Env K) (d : Dict (Val K)) (t : Str) : Option K := (get d t).bind fun v => (floatOf E v).toOption

/-- The events of consecutive dumps of a format (the latest dump first); `none` if writing failed. -/
def tbRun (E : Env K) : List (Dict (Val K)) → Option (ℕ × List (Event K))
  | [] => some (1, [])
  | d :: r =>
    match tbRun E r with
    | none => none
    | some (st, evs) => match Fmt.write E d (.tb st evs) with
      | (.tb st' evs', _, none) => some (st', evs')
      | _ => none

theorem summary_spec {E : Env K} : ∀ {d : Dict (Val K)} {l : List (Str × K)}, (d.map Prod.fst).Nodup → summary E d = .ok l →
    (∀ t, get l t = Number E d t) ∧ (l.map Prod.fst).Nodup ∧ ∀ t ∈ l.map Prod.fst, t ∈ d.map Prod.fst
  | [], l, _, h => by
    simp only [summary, Except.ok.injEq] at h
    subst h
    simp [get, Number]
  | (k, v) :: d, l, hd, h => by
    simp only [List.map_cons, List.nodup_cons] at hd
    simp only [summary] at h
    split at h
    · rename_i x hx
      split at h
      · rename_i l' hl
        simp only [Except.ok.injEq] at h
        subst h
        obtain ⟨i1, i2, i3⟩ := summary_spec hd.2 hl
        refine ⟨?_, ?_, ?_⟩
        · intro t
          by_cases e : k = t
          · subst e; simp [get, Number, hx, Except.toOption]
          · have := i1 t
            simp only [get, e, if_false, this, Number]
        · simp only [List.map_cons, List.nodup_cons]
          exact ⟨fun h => hd.1 (i3 _ h), i2⟩
        · intro t ht
          simp only [List.map_cons, List.mem_cons] at ht ⊢
          exact ht.imp id (i3 t)
      · cases h
    · rename_i hx
      obtain ⟨i1, i2, i3⟩ := summary_spec hd.2 h
      refine ⟨?_, i2, fun t ht => by simp only [List.map_cons, List.mem_cons]; exact .inr (i3 t ht)⟩
      intro t
      by_cases e : k = t
      · subst e
        rw [get_none.2 fun h => hd.1 (i3 _ h)]
        simp [Number, get, hx, Except.toOption]
      · have := i1 t
        simp only [Number, get, e, if_false]
        rw [this]; rfl
    · cases h

/-- The last value of a tag at a step. -/
def lastAt (evs : List (Event K)) (t : Str) (s : ℕ) : Option K := ((pairs evs t).reverse.find? fun p => decide (p.1 = s)).map Prod.snd

theorem lastAt_append (a b : List (Event K)) (t : Str) (s : ℕ) : lastAt (a ++ b) t s = (lastAt b t s).or (lastAt a t s) := by
  simp only [lastAt, pairs, List.flatMap_append, List.reverse_append, List.find?_append]
  cases List.find? _ _ <;> simp

theorem filter_key {V : Type} (t : Str) : ∀ (l : Dict V), (l.map Prod.fst).Nodup → l.filter (fun p => decide (p.1 = t)) = (get l t).toList.map fun v => (t, v)
  | [], _ => rfl
  | (a, v) :: l, h => by
    simp only [List.map_cons, List.nodup_cons] at h
    by_cases e : a = t
    · subst e
      have : l.filter (fun p => decide (p.1 = a)) = [] := by
        rw [List.filter_eq_nil_iff]
        intro p hp he
        simp only [decide_eq_true_eq] at he
        exact h.1 (he ▸ List.mem_map_of_mem (f := Prod.fst) hp)
      simp [get, this]
    · simp [get, e, filter_key t l h.2]

theorem lastAt_single {e : Event K} (h : (e.2.map Prod.fst).Nodup) (he : e.1 > 0) (t : Str) (s : ℕ) :
    lastAt [e] t s = if e.1 = s then get e.2 t else none := by
  simp only [lastAt, pairs, List.flatMap_cons, List.flatMap_nil, List.append_nil, he, if_true, filter_key t _ h]
  cases get e.2 t with
  | none => simp
  | some v => by_cases hs : e.1 = s <;> simp [hs]

theorem maxstep_append (evs : List (Event K)) (e : Event K) (h : e.1 > 0) : maxstep (evs ++ [e]) = max e.1 (maxstep evs) := by
  simp [maxstep, List.foldl_append, h]

theorem tb_inv (E : Env K) : ∀ (ds : List (Dict (Val K))), (∀ d ∈ ds, (d.map Prod.fst).Nodup) → ∀ st evs, tbRun E ds = some (st, evs) →
    st = ds.length + 1 ∧ maxstep evs = ds.length ∧ (∀ t s, lastAt evs t s = if s = 0 then none else (ds.reverse[s - 1]?).bind fun d => Number E d t) ∧
    (∀ e ∈ evs, e.1 > 0) ∧ ∀ t, (∃ e ∈ evs, t ∈ e.2.map Prod.fst) ↔ ∃ d ∈ ds, Number E d t ≠ none
  | [], _, st, evs, h => by
    simp only [tbRun, Option.some.injEq, Prod.mk.injEq] at h
    obtain ⟨rfl, rfl⟩ := h
    simp [maxstep, lastAt, pairs]
  | d :: ds, hd, st, evs, h => by
    simp only [tbRun] at h
    split at h
    · cases h
    rename_i st0 evs0 h0
    obtain ⟨i1, i2, i3, i4, i5⟩ := tb_inv E ds (fun d h => hd d (by simp [h])) st0 evs0 h0
    simp only [Fmt.write] at h
    cases hs : summary E d with
    | error e => rw [hs] at h; simp at h
    | ok l =>
      rw [hs] at h
      simp only [Option.some.injEq, Prod.mk.injEq] at h
      obtain ⟨rfl, rfl⟩ := h
      obtain ⟨s1, s2, s3⟩ := summary_spec (hd d (by simp)) hs
      subst i1
      refine ⟨by simp, ?_, ?_, ?_, ?_⟩
      · rw [maxstep_append _ _ (by simp), i2]; simp
      · intro t s
        rw [lastAt_append, lastAt_single s2 (by simp), i3, s1]
        rcases s with _ | s
        · simp
        · simp only [Nat.add_right_cancel_iff, Nat.add_sub_cancel, List.reverse_cons, Nat.succ_ne_zero, if_false]
          rcases lt_trichotomy s ds.length with hlt | heq | hgt
          · rw [if_neg hlt.ne', List.getElem?_append_left (by simpa using hlt)]; simp
          · subst heq
            simp
          · have h1 : ds.reverse[s]? = none := by simp; omega
            have h2 : (ds.reverse ++ [d])[s]? = none := by simp; omega
            simp [hgt.ne, h1, h2]
      · intro e he
        rcases List.mem_append.1 he with he | he
        · exact i4 e he
        · simp only [List.mem_singleton] at he; subst he; simp
      · intro t
        have hl : t ∈ l.map Prod.fst ↔ Number E d t ≠ none := by
          rw [← s1 t, ne_eq, get_none, not_not]
        simp only [List.mem_append, List.mem_cons, List.not_mem_nil, or_false]
        constructor
        · rintro ⟨e, he | he, ht⟩
          · obtain ⟨d', h1, h2⟩ := (i5 t).1 ⟨e, he, ht⟩
            exact ⟨d', .inr h1, h2⟩
          · subst he
            exact ⟨d, .inl rfl, hl.1 ht⟩
        · rintro ⟨d', rfl | h1, h2⟩
          · exact ⟨_, .inr rfl, hl.2 h2⟩
          · obtain ⟨e, h3, h4⟩ := (i5 t).2 ⟨d', h1, h2⟩
            exact ⟨e, .inl h3, h4⟩

theorem mem_tags {evs : List (Event K)} (h : ∀ e ∈ evs, e.1 > 0) (t : Str) : t ∈ tags evs ↔ ∃ e ∈ evs, t ∈ e.2.map Prod.fst := by
  rw [tags, (List.mergeSort_perm _ _).mem_iff, List.mem_dedup, List.mem_flatMap]
  constructor
  · rintro ⟨e, he, ht⟩
    rw [if_pos (h e he)] at ht
    exact ⟨e, he, ht⟩
  · rintro ⟨e, he, ht⟩
    exact ⟨e, he, by rw [if_pos (h e he)]; exact ht⟩

/-- **C117 (tensorboard).** What `read_tb` reads from the events of one run is the table of its dumps: a row per dump in order, a column for every key
that ever had a number, each exactly once, and in each cell the number of that dump, nothing where there was none.  (The list of dumps starts with the latest.) -/
theorem C117_tensorboard (E : Env K) (ds : List (Dict (Val K))) (hd : ∀ d ∈ ds, (d.map Prod.fst).Nodup) (st : ℕ) (evs : List (Event K))
    (h : tbRun E ds = some (st, evs)) :
    (readTb [evs]).1.Nodup ∧ (∀ t, t ∈ (readTb [evs]).1 ↔ ∃ d ∈ ds, Number E d t ≠ none) ∧
    (readTb [evs]).2 = ds.reverse.map fun d => (readTb [evs]).1.map (Number E d) := by
  obtain ⟨i1, i2, i3, i4, i5⟩ := tb_inv E ds hd st evs h
  have e0 : [evs].flatten = evs := by simp
  simp only [readTb, e0]
  refine ⟨?_, ?_, ?_⟩
  · rw [tags, (List.mergeSort_perm _ _).nodup_iff]
    exact List.nodup_dedup _
  · intro t
    rw [mem_tags i4, i5]
  · rw [i2]
    apply List.ext_getElem
    · simp
    · intro i h1 h2
      simp only [List.getElem_map, List.getElem_range]
      apply List.map_congr_left
      intro t _
      have := i3 t (i + 1)
      simp only [List.length_map, List.length_reverse] at h2
      simp only [Nat.succ_ne_zero, if_false, Nat.add_sub_cancel] at this
      rw [List.getElem?_eq_getElem (by simpa using h2)] at this
      exact this

/-- **C117 (version).** Events with step 0, such as the version that TensorFlow writes at the head of every file, do not count. -/
theorem C117_version (files : List (List (Event K))) : readTb (files.map fun l => l.filter fun e => decide (0 < e.1)) = readTb files := by
  have e0 : (files.map fun l => l.filter fun e => decide (0 < e.1)).flatten = files.flatten.filter fun e => decide (0 < e.1) := by
    rw [List.filter_flatten]
  have fm : ∀ {B : Type} (f : Event K → List B) (l : List (Event K)), ((l.filter fun e => decide (0 < e.1)).flatMap fun e => if e.1 > 0 then f e else []) = l.flatMap fun e => if e.1 > 0 then f e else [] := by
    intro B f l
    induction l with
    | nil => rfl
    | cons e l ih =>
      by_cases h : 0 < e.1
      · rw [List.filter_cons_of_pos (by simpa using h), List.flatMap_cons, List.flatMap_cons, ih]
      · rw [List.filter_cons_of_neg (by simpa using h), List.flatMap_cons, ih, if_neg (by simpa using h)]; rfl
  have ms : ∀ (l : List (Event K)) (m : ℕ), (l.filter fun e => decide (0 < e.1)).foldl (fun m e => if e.1 > 0 then max e.1 m else m) m = l.foldl (fun m e => if e.1 > 0 then max e.1 m else m) m := by
    intro l
    induction l with
    | nil => intro m; rfl
    | cons e l ih =>
      intro m
      by_cases h : 0 < e.1
      · rw [List.filter_cons_of_pos (by simpa using h), List.foldl_cons, List.foldl_cons, ih]
      · rw [List.filter_cons_of_neg (by simpa using h), List.foldl_cons, ih, if_neg (by simpa using h)]
  simp only [readTb, e0, tags, maxstep, pairs, fm, ms]

/-- **C117 (two_runs, defect).** `read_tb` of a directory that holds the events of two runs mixes them: in each cell the later run hides the earlier one,
but where it has nothing the number of the earlier run is shown. -/
theorem C117_two_runs (a b : List (Event K)) (i : ℕ) (hi : i < (readTb [a, b]).2.length) :
    (readTb [a, b]).2[i] = (readTb [a, b]).1.map fun t => (lastAt b t (i + 1)).or (lastAt a t (i + 1)) := by
  have e0 : [a, b].flatten = a ++ b := by simp
  simp only [readTb, e0, List.getElem_map, List.getElem_range]
  apply List.map_congr_left
  intro t _
  exact lastAt_append a b t (i + 1)

/-! ### Dumping -/

/-- **C117 (dump).** A dump that succeeds hands the same values to every format and forgets them; when logging is disabled nothing is written and nothing forgotten.
(Without JSON among the formats, for which see `C117_json`.) -/
theorem C117_dump (E : Env K) (s : Logger K) :
    (s.level = 50 → dump E s = (s, none)) ∧
    (s.level ≠ 50 → (∀ f ∈ s.fmts, ∀ out, f ≠ .json out) → (∀ f ∈ s.fmts, (f.write E s.val).2.2 = none) →
      dump E s = ({ s with fmts := s.fmts.map fun f => (f.write E s.val).1, val := [], cnt := [] }, none)) := by
  refine ⟨fun h => by simp [dump, h], fun hl hj hok => ?_⟩
  have key : ∀ fs : List (Fmt K), (∀ f ∈ fs, ∀ out, f ≠ .json out) → (∀ f ∈ fs, (f.write E s.val).2.2 = none) →
      writeAll E fs s.val = (fs.map fun f => (f.write E s.val).1, s.val, none) := by
    intro fs
    induction fs with
    | nil => intros; rfl
    | cons f fs ih =>
      intro hj hok
      have hd : (f.write E s.val).2.1 = s.val := by
        cases f with
        | json out => exact absurd rfl (hj _ (by simp) out)
        | tb st ev => simp only [Fmt.write]; cases summary E s.val <;> rfl
        | _ => rfl
      have h1 : f.write E s.val = ((f.write E s.val).1, s.val, none) := by
        conv_lhs => rw [← Prod.eta (f.write E s.val), ← Prod.eta (f.write E s.val).2]
        rw [hd, hok f (by simp)]
      have h2 := ih (fun f h => hj f (by simp [h])) (fun f h => hok f (by simp [h]))
      simp only [writeAll]
      rw [h1]
      simp only [h2, List.map_cons]
  simp only [dump, hl, if_false, key s.fmts hj hok]

/-- **C117 (converted, defect).** The JSON format converts the arrays in the dictionary itself: the formats after it write numbers and lists where
the formats before it write arrays. -/
theorem C117_converted (E : Env K) (s : Logger K) (hl : s.level ≠ 50) (f g : Fmt K) (out : List (Dict (Val K))) (hf : s.fmts = [f, .json out, g])
    (hd : (s.val.map Prod.fst).Nodup) (hw : ∀ kv ∈ s.val, Writable kv.2) (hfj : ∀ o, f ≠ .json o) (hf0 : (f.write E s.val).2.2 = none)
    (hg : (g.write E (s.val.map fun kv => (kv.1, Plainly kv.2))).2.2 = none) :
    (dump E s).1.fmts = [(f.write E s.val).1, .json (out ++ [s.val.map fun kv => (kv.1, Plainly kv.2)]), (g.write E (s.val.map fun kv => (kv.1, Plainly kv.2))).1] := by
  have h0 : (f.write E s.val).2.1 = s.val := by
    cases f with
    | json o => exact absurd rfl (hfj o)
    | tb st ev => simp only [Fmt.write]; cases summary E s.val <;> rfl
    | _ => rfl
  have h1 : f.write E s.val = ((f.write E s.val).1, s.val, none) := by
    conv_lhs => rw [← Prod.eta (f.write E s.val), ← Prod.eta (f.write E s.val).2]
    rw [h0, hf0]
  have h2 := C117_json E s.val hd hw out
  set d' := s.val.map fun kv => (kv.1, Plainly kv.2) with hd'
  have h3 : g.write E d' = ((g.write E d').1, (g.write E d').2.1, none) := by
    conv_lhs => rw [← Prod.eta (g.write E d'), ← Prod.eta (g.write E d').2]
    rw [hg]
  have h4 : writeAll E [g] d' = ([(g.write E d').1], (g.write E d').2.1, none) := by
    simp only [writeAll]
    rw [h3]
  have h5 : writeAll E [f, .json out, g] s.val = ([(f.write E s.val).1, .json (out ++ [d']), (g.write E d').1], (g.write E d').2.1, none) := by
    simp only [writeAll]
    rw [h1]
    simp only
    rw [h2]
    simp only
    rw [h3]
  simp only [dump, hl, if_false, hf, h5]

/-- **C117 (repeat, defect).** A text that is no numeral makes the TensorBoard format raise a `ValueError`; the formats before it have then written,
and the next dump writes the same values again. -/
theorem C117_repeat (E : Env K) (s : Logger K) (hl : s.level ≠ 50) (out : List Str) (st : ℕ) (evs : List (Event K)) (k : Str) (t : Str) (r : Dict (Val K))
    (hf : s.fmts = [.human out, .tb st evs]) (hv : s.val = (k, .text t) :: r) (ht : E.parse t = none) :
    dump E s = ({ s with fmts := [.human (out ++ table E s.val), .tb st evs] }, some .valueError) ∧
    (dump E (dump E s).1).1.fmts = [.human (out ++ table E s.val ++ table E s.val), .tb st evs] := by
  have hs : summary E s.val = .error .valueError := by rw [hv]; simp [summary, floatOf, ht]
  have h1 : dump E s = ({ s with fmts := [.human (out ++ table E s.val), .tb st evs] }, some .valueError) := by
    simp [dump, hl, hf, writeAll, Fmt.write, hs]
  refine ⟨h1, ?_⟩
  rw [h1]
  simp [dump, hl, writeAll, Fmt.write, hs]

/-! ### A whole training run -/

/-- A run: calls, then a dump, again and again (the latest iteration first). -/
def session (E : Env K) (fmts : List (Fmt K)) : List (List (Op K)) → Py (Logger K)
  | [] => .ok (start fmts)
  | os :: r => do
    let s ← session E fmts r
    let s ← calls s os
    match dump E s with
    | (s, none) => .ok s
    | (_, some e) => .error e

theorem calls_keeps : ∀ (os : List (Op K)) (s s' : Logger K), calls s os = .ok s' → s'.fmts = s.fmts ∧ s'.level = s.level ∧
    ((s.val.map Prod.fst).Nodup → (s'.val.map Prod.fst).Nodup) ∧ (∀ k, k ∈ s'.val.map Prod.fst ↔ k ∈ s.val.map Prod.fst ∨ ∃ o ∈ os, o.key = k) ∧
    ∀ t : Logger K, t.val = s.val → t.cnt = s.cnt → ∃ t', calls t os = .ok t' ∧ t'.val = s'.val ∧ t'.cnt = s'.cnt
  | [], s, s', h => by
    simp only [calls, Except.ok.injEq] at h
    subst h
    exact ⟨rfl, rfl, id, by simp, fun t h1 h2 => ⟨t, rfl, h1, h2⟩⟩
  | o :: os, s, s', h => by
    simp only [calls] at h
    split at h
    swap
    · cases h
    rename_i s1 hs
    obtain ⟨i1, i2, i3, i4, i5⟩ := calls_keeps os s1 s' h
    have hone : s1.fmts = s.fmts ∧ s1.level = s.level ∧ (∃ v, s1.val = put s.val o.key v) ∧
        ∀ t : Logger K, t.val = s.val → t.cnt = s.cnt → ∃ t', step t o = .ok t' ∧ t'.val = s1.val ∧ t'.cnt = s1.cnt := by
      cases o with
      | log k v =>
        simp only [step, Except.ok.injEq] at hs
        subst hs
        exact ⟨rfl, rfl, ⟨v, rfl⟩, fun t h1 h2 => ⟨logkv t k v, rfl, by simp [logkv, h1], by simp [logkv, h2]⟩⟩
      | mean k x =>
        cases x with
        | none =>
          simp only [step, logkvMean, Except.ok.injEq] at hs
          subst hs
          exact ⟨rfl, rfl, ⟨_, rfl⟩, fun t h1 h2 => ⟨_, rfl, by simp [h1], by simp [h2]⟩⟩
        | some x =>
          simp only [step, logkvMean] at hs
          split at hs <;> try cases hs
          all_goals
            rename_i hg
            refine ⟨rfl, rfl, ⟨_, rfl⟩, fun t h1 h2 => ?_⟩
            simp only [step, logkvMean, h1, h2, hg]
            exact ⟨_, rfl, rfl, rfl⟩
    obtain ⟨j1, j2, ⟨v, j3⟩, j4⟩ := hone
    refine ⟨i1.trans j1, i2.trans j2, fun h => i3 (by rw [j3]; exact put_nodup h _ _), ?_, ?_⟩
    · intro k
      rw [i4, j3, put_keys]
      simp only [List.mem_cons, exists_eq_or_imp]
      split
      · rename_i hm
        constructor
        · rintro (h | h)
          · exact .inl h
          · exact .inr (.inr h)
        · rintro (h | h | h)
          · exact .inl h
          · exact .inl (h ▸ hm)
          · exact .inr h
      · simp only [List.mem_append, List.mem_singleton]
        constructor
        · rintro ((h | h) | h)
          · exact .inl h
          · exact .inr (.inl h.symm)
          · exact .inr (.inr h)
        · rintro (h | h | h)
          · exact .inl (.inl h)
          · exact .inl (.inr h.symm)
          · exact .inr h
    · intro t h1 h2
      obtain ⟨t1, k1, k2, k3⟩ := j4 t h1 h2
      obtain ⟨t', l1, l2, l3⟩ := i5 t1 k2 k3
      exact ⟨t', by simp only [calls, k1]; exact l1, l2, l3⟩

theorem session_inv (E : Env K) (hE : ∀ v, Plain (E.str v)) (ho : ∀ l, (E.ord l).Perm l) : ∀ (oss : List (List (Op K))) (s : Logger K),
    (∀ os ∈ oss, ∀ o ∈ os, Plain o.key) → session E [.csv [] ⟨[], 0⟩] oss = .ok s →
    s.val = [] ∧ s.cnt = [] ∧ s.level = 20 ∧ ∃ ds : List (Dict (Val K)),
      List.Forall₂ (fun os d => (∃ t, calls (start []) os = .ok t ∧ t.val = d) ∧ (d = [] → os = [])) oss ds ∧ (∀ d ∈ ds, Fine (E, d)) ∧
      s.fmts = [.csv (csvRun (ds.map fun d => (E, d))).1 (csvRun (ds.map fun d => (E, d))).2]
  | [], s, _, h => by
    simp only [session, Except.ok.injEq] at h
    subst h
    exact ⟨rfl, rfl, rfl, [], .nil, by simp, rfl⟩
  | os :: oss, s, hp, h => by
    simp only [session, bind, Except.bind] at h
    split at h
    · cases h
    rename_i s0 h0
    obtain ⟨i1, i2, i3, ds, i4, i5, i6⟩ := session_inv E hE ho oss s0 (fun os h => hp os (by simp [h])) h0
    split at h
    · cases h
    rename_i s1 h1
    obtain ⟨c1, c2, c3, c4, c5⟩ := calls_keeps os s0 s1 h1
    obtain ⟨t, t1, t2, _⟩ := c5 (start []) (by rw [i1]; rfl) (by rw [i2]; rfl)
    have hlev : s1.level ≠ 50 := by rw [c2, i3]; decide
    have hd : dump E s1 = ({ s1 with fmts := s1.fmts.map fun f => (f.write E s1.val).1, val := [], cnt := [] }, none) := by
      apply (C117_dump E s1).2 hlev
      · intro f hf out
        rw [c1, i6] at hf
        simp only [List.mem_singleton] at hf
        subst hf
        simp
      · intro f hf
        rw [c1, i6] at hf
        simp only [List.mem_singleton] at hf
        subst hf
        rfl
    rw [hd] at h
    simp only [Except.ok.injEq] at h
    subst h
    refine ⟨rfl, rfl, c2.trans i3, s1.val :: ds, .cons ⟨⟨t, t1, t2⟩, ?_⟩ i4, ?_, ?_⟩
    · intro he
      cases os with
      | nil => rfl
      | cons o os =>
        have := (c4 o.key).2 (.inr ⟨o, by simp, rfl⟩)
        rw [he] at this
        simp at this
    · intro d hd
      rcases List.mem_cons.1 hd with rfl | hd
      · refine ⟨c3 (by rw [i1]; simp), ?_, ho⟩
        intro kv hkv
        refine ⟨?_, hE _⟩
        rcases (c4 kv.1).1 (List.mem_map_of_mem (f := Prod.fst) hkv) with h | ⟨o, ho, e⟩
        · rw [i1] at h; simp at h
        · rw [← e]; exact hp os (by simp) o ho
      · exact i5 d hd
    · simp [c1, i6, Fmt.write, csvRun]

/-- **C117 (session).** The CSV file of a whole run, end to end: the row of every iteration holds, under each key, what was logged in that iteration alone
(by `C117_last` and `C117_mean` the last value or the mean).  (The list of iterations starts with the latest; the first one logs something.) -/
theorem C117_session (E : Env K) (hE : ∀ v, Plain (E.str v)) (ho : ∀ l, (E.ord l).Perm l) (oss : List (List (Op K))) (s : Logger K)
    (hp : ∀ os ∈ oss, ∀ o ∈ os, Plain o.key) (hne : oss ≠ []) (hl : oss.getLast hne ≠ []) (h : session E [.csv [] ⟨[], 0⟩] oss = .ok s) :
    ∃ (keys : List Str) (file : File) (ds : List (Dict (Val K))), s.fmts = [.csv keys file] ∧
      List.Forall₂ (fun os d => ∃ t, calls (start []) os = .ok t ∧ t.val = d) oss ds ∧
      ∃ header : List Str, header.Nodup ∧ (∀ k, k ∈ header ↔ ∃ d ∈ ds, k ∈ d.map Prod.fst) ∧
        parse file.text = header :: ds.reverse.map fun d => header.map (Entry E d) := by
  obtain ⟨_, _, _, ds, h1, h2, h3⟩ := session_inv E hE ho oss s hp h
  have hlen := h1.length_eq
  have hdn : ds ≠ [] := by
    intro e
    rw [e] at hlen
    exact hne (List.length_eq_zero_iff.1 (by simpa using hlen))
  have hlast : ds.getLast hdn ≠ [] := by
    intro e
    rw [List.getLast_eq_getElem] at e hl
    have hr := List.Forall₂.get h1 (i := oss.length - 1) (by have := List.length_pos_iff.2 hne; omega) (by have := List.length_pos_iff.2 hne; omega)
    simp only [List.get_eq_getElem] at hr
    refine hl (hr.2 ?_)
    simpa [hlen] using e
  refine ⟨_, _, ds, h3, h1.imp fun _ _ h => h.1, ?_⟩
  obtain ⟨keys, k1, k2, k3⟩ := C117_csv (ds.map fun d => (E, d)) (by
    intro x hx
    obtain ⟨d, hd, rfl⟩ := List.mem_map.1 hx
    exact h2 d hd) (by simpa using hdn) (by simpa [List.getLast_map] using hlast)
  refine ⟨keys, k1, ?_, ?_⟩
  · intro k
    rw [k2]
    simp
  · rw [k3, ← List.map_reverse, List.map_map]
    rfl

/-- Two keys of 25 characters that look the same in the table. -/
example : truncate "ep_reward_mean_over_train".toList = truncate "ep_reward_mean_over_valid".toList ∧
    "ep_reward_mean_over_train".toList ≠ "ep_reward_mean_over_valid".toList := by decide +kernel

/-- Two dumps and the events made of them; `None` is left out. -/
example : tbRun exEnv [[("a".toList, .none), ("b".toList, .arr [1] [7])], [("a".toList, .num 3)]] =
    some (3, [(1, [("a".toList, 3)]), (2, [("b".toList, 7)])]) := rfl

/-- A number logged as array and a vector, as JSON gets them. -/
example : (⟨Plainly (Val.arr [] [(3 : ℚ)]), Plainly (Val.arr [2] [(3 : ℚ), 4])⟩ : Val ℚ × Val ℚ) = (.num 3, .list [2] [3, 4]) ∧
    Writable (Val.arr [] [(3 : ℚ)]) ∧ Writable (Val.arr [2] [(3 : ℚ), 4]) := by
  simp [Plainly, Writable]

/-- Two iterations of a run. -/
example : (session exEnv [.csv [] ⟨[], 0⟩] [[.log "a".toList (.text "5".toList)], [.log "b".toList (.text "1".toList), .log "b".toList (.text "2".toList)]]).toOption.map
    (fun s => s.fmts.map fun f => match f with | .csv _ f => f.text | _ => []) = some ["b,a\n2,\n,5\n".toList] := by decide +kernel

end Neorl.TextLog

import Verif.RunId

/-!
# C116: logs of different runs go to different directories
-/

set_option linter.unusedSectionVars false
set_option linter.unusedVariables false

namespace Neorl.RunId

/-- `f` is the directory of run `i` of `name`: the name, an underscore and a decimal numeral. -/
def IsRun (name : Str) (i : ℕ) (f : Str) : Prop := ∃ ds : Str, f = name ++ '_' :: ds ∧ ds ≠ [] ∧ (∀ c ∈ ds, c.isDigit = true) ∧ Nat.ofDigitChars 10 ds 0 = i

theorem digit_ne {c : Char} (h : c.isDigit = true) : c ≠ '_' := by
  rintro rfl
  revert h
  decide

theorem takeWhile_digits (l r : Str) (h : ∀ c ∈ l, c ≠ '_') : (l ++ '_' :: r).takeWhile (fun c => decide (c ≠ '_')) = l ∧ (l ++ '_' :: r).dropWhile (fun c => decide (c ≠ '_')) = '_' :: r := by
  induction l with
  | nil => simp
  | cons a l ih =>
    have ha := h a List.mem_cons_self
    have := ih fun c hc => h c (List.mem_cons_of_mem _ hc)
    refine ⟨?_, ?_⟩
    · rw [List.cons_append, List.takeWhile_cons, if_pos (by simpa using ha), this.1]
    · rw [List.cons_append, List.dropWhile_cons, if_pos (by simpa using ha), this.2]

theorem split_eq (name ds : Str) (h : ∀ c ∈ ds, c ≠ '_') : ext (name ++ '_' :: ds) = ds ∧ stem (name ++ '_' :: ds) = name := by
  have e : (name ++ '_' :: ds).reverse = ds.reverse ++ '_' :: name.reverse := by simp
  have := takeWhile_digits ds.reverse name.reverse fun c hc => h c (List.mem_reverse.1 hc)
  unfold ext stem
  rw [e, this.1, this.2]
  simp

theorem first_split : ∀ g : Str, '_' ∈ g → ∃ l r, g = l ++ '_' :: r ∧ ∀ c ∈ l, c ≠ '_'
  | [], h => by simp at h
  | a :: g, h => by
    by_cases ha : a = '_'
    · exact ⟨[], g, by rw [ha]; rfl, by simp⟩
    · obtain ⟨l, r, h1, h2⟩ := first_split g ((List.mem_cons.1 h).resolve_left (Ne.symm ha))
      refine ⟨a :: l, r, by rw [h1]; rfl, fun c hc => ?_⟩
      rcases List.mem_cons.1 hc with rfl | hc
      · exact ha
      · exact h2 c hc

/-- Conversely: the text is put together from its two parts, if there is an underscore. -/
theorem split_join (f : Str) (h : '_' ∈ f) : f = stem f ++ '_' :: ext f := by
  obtain ⟨l, r, h1, h2⟩ := first_split f.reverse (List.mem_reverse.2 h)
  have e : f = r.reverse ++ '_' :: l.reverse := by
    have := congrArg List.reverse h1
    simpa using this
  have := split_eq r.reverse l.reverse fun c hc => h2 c (List.mem_reverse.1 hc)
  rw [← e] at this
  rw [this.1, this.2]
  exact e

theorem accepted_iff (name f : Str) (i : ℕ) : (globbed name f = true ∧ name = stem f ∧ isDigits (ext f) = true ∧ value (ext f) = i) ↔ IsRun name i f := by
  constructor
  · rintro ⟨h1, h2, h3, h4⟩
    have hm : '_' ∈ f := by
      unfold globbed at h1
      rw [Bool.and_eq_true] at h1
      obtain ⟨t, rfl⟩ := List.isPrefixOf_iff_prefix.1 h1.1
      simp
    refine ⟨ext f, ?_, ?_, ?_, h4⟩
    · rw [h2]
      exact split_join f hm
    · intro h
      rw [h] at h3
      simp [isDigits] at h3
    · unfold isDigits at h3
      rw [Bool.and_eq_true] at h3
      exact List.all_eq_true.1 h3.2
  · rintro ⟨ds, rfl, hne, hd, hv⟩
    have hs := split_eq name ds fun c hc => digit_ne (hd c hc)
    rw [hs.1, hs.2]
    refine ⟨?_, rfl, ?_, hv⟩
    · unfold globbed
      rw [Bool.and_eq_true]
      refine ⟨List.isPrefixOf_iff_prefix.2 ⟨ds, by simp⟩, ?_⟩
      have : (name ++ '_' :: ds).drop (name.length + 1) = ds := by
        rw [List.drop_append]
        simp
      rw [this]
      cases ds with
      | nil => exact absurd rfl hne
      | cons c ds => exact hd c List.mem_cons_self
    · unfold isDigits
      rw [Bool.and_eq_true]
      exact ⟨by simpa using hne, List.all_eq_true.2 hd⟩

theorem runName_isRun (name : Str) (i : ℕ) : IsRun name i (runName name i) :=
  ⟨_, rfl, Nat.toDigits_ne_nil, fun c hc => Nat.isDigit_of_mem_toDigits (by decide) (by decide) hc, Nat.ofDigitChars_ten_toDigits⟩

theorem isRun_unique {name f : Str} {i j : ℕ} (h1 : IsRun name i f) (h2 : IsRun name j f) : i = j := by
  obtain ⟨-, -, -, h⟩ := (accepted_iff name f i).2 h1
  obtain ⟨-, -, -, h'⟩ := (accepted_iff name f j).2 h2
  exact h.symm.trans h'

theorem fold_spec (name : Str) : ∀ (l : List Str) (m : ℕ), (∀ f ∈ l, globbed name f = true) →
    let r := l.foldl (fun m f => if name = stem f ∧ isDigits (ext f) ∧ value (ext f) > m then value (ext f) else m) m
    m ≤ r ∧ (r = m ∨ ∃ f ∈ l, IsRun name r f) ∧ ∀ f ∈ l, ∀ i, IsRun name i f → i ≤ r
  | [], m, _ => ⟨le_refl _, Or.inl rfl, fun f hf => by simp at hf⟩
  | f :: l, m, hg => by
    have hgl : ∀ x ∈ l, globbed name x = true := fun x hx => hg x (List.mem_cons_of_mem _ hx)
    rw [List.foldl_cons]
    by_cases h : name = stem f ∧ isDigits (ext f) ∧ value (ext f) > m
    · rw [if_pos h]
      have ih := fold_spec name l (value (ext f)) hgl
      have hr := (accepted_iff name f (value (ext f))).1 ⟨hg f List.mem_cons_self, h.1, h.2.1, rfl⟩
      refine ⟨(le_of_lt h.2.2).trans ih.1, ?_, fun x hx i hi => ?_⟩
      · rcases ih.2.1 with h2 | ⟨x, hx, h2⟩
        · exact Or.inr ⟨f, List.mem_cons_self, by rw [h2]; exact hr⟩
        · exact Or.inr ⟨x, List.mem_cons_of_mem _ hx, h2⟩
      · rcases List.mem_cons.1 hx with rfl | hx
        · rw [isRun_unique hi hr]
          exact ih.1
        · exact ih.2.2 x hx i hi
    · rw [if_neg h]
      have ih := fold_spec name l m hgl
      refine ⟨ih.1, ?_, fun x hx i hi => ?_⟩
      · rcases ih.2.1 with h2 | ⟨x, hx, h2⟩
        · exact Or.inl h2
        · exact Or.inr ⟨x, List.mem_cons_of_mem _ hx, h2⟩
      · rcases List.mem_cons.1 hx with rfl | hx
        · obtain ⟨-, h1, h2, h3⟩ := (accepted_iff name x i).2 hi
          have : i ≤ m := by
            by_contra hc
            exact h ⟨h1, h2, by omega⟩
          exact this.trans ih.1
        · exact ih.2.2 x hx i hi

/-- **C116.** The latest run is the greatest number of a run of this name, and 0 if there is none. Directories of other names do not count. -/
theorem C116_latest (name : Str) (files : List Str) :
    (latest name files = 0 ∨ ∃ f ∈ files, IsRun name (latest name files) f) ∧ ∀ f ∈ files, ∀ i, IsRun name i f → i ≤ latest name files := by
  have h := fold_spec name (files.filter (globbed name)) 0 fun f hf => (List.mem_filter.1 hf).2
  refine ⟨?_, fun f hf i hi => h.2.2 f (List.mem_filter.2 ⟨hf, ((accepted_iff name f i).2 hi).1⟩) i hi⟩
  rcases h.2.1 with h2 | ⟨f, hf, h2⟩
  · exact Or.inl h2
  · exact Or.inr ⟨f, (List.mem_filter.1 hf).1, h2⟩

/-- **C116.** A new run never writes into a directory that is already there, and its number is greater than that of any earlier run. -/
theorem C116_fresh (name : Str) (files : List Str) :
    enter name true files ∉ files ∧ ∃ i, IsRun name i (enter name true files) ∧ ∀ f ∈ files, ∀ j, IsRun name j f → j < i := by
  have h := (C116_latest name files).2
  have hr : IsRun name (latest name files + 1) (enter name true files) := runName_isRun name _
  refine ⟨fun hm => ?_, _, hr, fun f hf j hj => ?_⟩
  · have := h _ hm _ hr
    omega
  · have := h f hf j hj
    omega

theorem latest_append (name : Str) (files : List Str) (i : ℕ) (h : latest name files < i) : latest name (files ++ [runName name i]) = i := by
  have hr := runName_isRun name i
  have h1 := C116_latest name (files ++ [runName name i])
  have h2 := C116_latest name files
  have h3 : i ≤ latest name (files ++ [runName name i]) := h1.2 _ (by simp) i hr
  rcases h1.1 with h4 | ⟨f, hf, h4⟩
  · omega
  · rcases List.mem_append.1 hf with hf | hf
    · have := h2.2 f hf _ h4
      omega
    · rw [List.mem_singleton] at hf
      subst hf
      exact (isRun_unique hr h4).symm

/-- **C116.** Consecutive new runs are numbered consecutively and all their directories are different. -/
theorem C116_sequence (name : Str) (files : List Str) (k : ℕ) :
    (session name true)^[k] files = files ++ (List.range k).map fun t => runName name (latest name files + 1 + t) := by
  have key : ∀ k, (session name true)^[k] files = files ++ (List.range k).map (fun t => runName name (latest name files + 1 + t)) ∧ latest name ((session name true)^[k] files) = latest name files + k := by
    intro k
    induction k with
    | zero => simp
    | succ k ih =>
      have e : (session name true)^[k + 1] files = (session name true)^[k] files ++ [runName name (latest name files + 1 + k)] := by
        have hs : ∀ g, session name true g = g ++ [runName name (latest name g + 1)] := fun g => by
          rw [session, if_neg (C116_fresh name g).1]
          rfl
        rw [Function.iterate_succ_apply', hs, ih.2, show latest name files + k + 1 = latest name files + 1 + k by omega]
      refine ⟨?_, ?_⟩
      · rw [e, ih.1, List.range_succ, List.map_append, List.append_assoc]
        rfl
      · rw [e, latest_append name _ _ (by rw [ih.2]; omega)]
        omega
  exact (key k).1

/-- **C116.** A run that is continued (`reset_num_timesteps=False`) writes where the latest new run wrote, however many runs of other names there were in between. -/
theorem C116_continue (name : Str) (files others : List Str) (h : ∀ f ∈ others, ∀ i, ¬IsRun name i f) : enter name false (session name true files ++ others) = enter name true files := by
  have h1 : latest name (session name true files) = latest name files + 1 := by
    unfold session
    rw [if_neg (C116_fresh name files).1]
    exact latest_append name files _ (Nat.lt_succ_self _)
  have h2 : latest name (session name true files ++ others) = latest name files + 1 := by
    have a := C116_latest name (session name true files ++ others)
    have b := C116_latest name (session name true files)
    rw [h1] at b
    have c : latest name files + 1 ≤ latest name (session name true files ++ others) := by
      rcases b.1 with hb | ⟨f, hf, hb⟩
      · omega
      · exact a.2 f (List.mem_append_left _ hf) _ hb
    rcases a.1 with ha | ⟨f, hf, ha⟩
    · omega
    · rcases List.mem_append.1 hf with hf | hf
      · have := b.2 f hf _ ha
        omega
      · exact absurd ha (h f hf _)
  unfold enter
  rw [h2]
  rfl

/-! ### A run -/

example : enter "PPO2".toList true ["PPO2_1".toList, "PPO2_10".toList, "PPO2_9".toList, "PPO2_x_77".toList, "DQN_80".toList] = "PPO2_11".toList := by decide

end Neorl.RunId

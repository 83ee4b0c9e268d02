import Verif.RunFiles
import Verif.Props.InputFile
import Mathlib.Tactic.Ring
import Mathlib.Data.List.Nodup

/-!
# C125: the start of a run from an input file
-/

set_option linter.unusedSectionVars false
set_option linter.unusedVariables false

namespace Neorl.RunFiles

open Neorl.InputFile (Str split Alg Setup Parsed Chars Table Val dget setup)

/-! ### Specification -/

/-- Directories lie in directories. -/
def WF (fs : FS) : Prop := ∀ p q, p <+: q → (fs q).isSome → (fs p).isSome

/-- The text of a file. -/
def readF (fs : FS) (path : Str) : Option Str := (fs (comps path).dropLast).bind fun d => (comps path).getLast?.bind d

/-! ### Lemmas about paths -/

theorem split_ne (c : Char) : ∀ s, split c s ≠ []
  | [] => by simp [split]
  | x :: xs => by
    rw [split]
    split_ifs
    · simp
    · cases split c xs <;> simp

theorem split_pre (c : Char) : ∀ (l s h : Str) (t : List Str), c ∉ l → split c s = h :: t → split c (l ++ s) = (l ++ h) :: t
  | [], s, h, t, _, e => by simpa using e
  | x :: l, s, h, t, hl, e => by
    have hx : x ≠ c := fun hh => hl (by simp [hh])
    rw [List.cons_append, split, if_neg hx, split_pre c l s h t (fun hh => hl (by simp [hh])) e]
    rfl

theorem split_mid (c : Char) : ∀ (a b : Str), split c (a ++ c :: b) = split c a ++ split c b
  | [], b => by simp [split]
  | x :: a, b => by
    rw [List.cons_append, split, split, split_mid c a b]
    split_ifs
    · rfl
    · cases h : split c a with
      | nil => exact absurd h (split_ne c a)
      | cons y ys => simp

theorem split_none' {c : Char} {l : Str} (h : c ∉ l) : split c l = [l] := InputFile.split_none l h

theorem comps_ne (s : Str) : ∃ c cs, comps s = c :: cs := by
  unfold comps
  cases h : split '/' s with
  | nil => exact absurd h (split_ne _ _)
  | cons x xs => exact ⟨_, _, rfl⟩

theorem comps_pre {l s c : Str} {cs : List Str} (hl : '/' ∉ l) (h : comps s = c :: cs) : comps (l ++ s) = (l ++ c) :: cs := by
  unfold comps at h ⊢
  cases e : split '/' s with
  | nil => exact absurd e (split_ne _ _)
  | cons x xs =>
    rw [e] at h
    rw [split_pre '/' l s x xs hl e]
    simp only [List.cons.injEq] at h ⊢
    exact ⟨by rw [h.1], h.2⟩

theorem comps_old {log c : Str} {cs : List Str} (h : comps log = c :: cs) : comps (oldName log) = ("old_".toList ++ c) :: cs := comps_pre (by decide) h

/-- A file in the directory `l/`. -/
theorem comps_file {l f : Str} (hf : '/' ∉ f) (h0 : f ≠ []) : comps (l ++ ['/'] ++ f) = comps (l ++ ['/']) ++ [f] := by
  unfold comps
  have e1 : l ++ ['/'] ++ f = l ++ '/' :: f := by simp
  rw [e1, split_mid, split_none' hf, split_mid]
  cases h : split '/' l with
  | nil => exact absurd h (split_ne _ _)
  | cons x xs =>
    simp [List.filter_append, split, h0]

theorem old_ne (c : Str) : "old_".toList ++ c ≠ c := fun h => by
  have := congrArg List.length h
  simp at this
  omega

theorem not_pre {a b : Str} {as bs q : List Str} (h : a ≠ b) (h1 : (a :: as) <+: q) : ¬ (b :: bs) <+: q := by
  rintro ⟨r, rfl⟩
  obtain ⟨r', h'⟩ := h1
  simp only [List.cons_append, List.cons.injEq] at h'
  exact h h'.1

theorem isSome_has {fs : FS} {p : List Str} : has fs p = true ↔ (fs p).isSome = true := Iff.rfl

theorem dropLast_not_pre {p : List Str} (h : p ≠ []) : ¬ p <+: p.dropLast := fun hh => by
  have := hh.length_le
  rw [List.length_dropLast] at this
  have : 0 < p.length := List.length_pos_iff.2 h
  omega

/-- The move of the log and the making of a new one. -/
theorem moveMake_ok {fs : FS} {c o : Str} {cs : List Str} (hc : o ≠ c) (hp : has fs (c :: cs) = true) (hd : has fs (o :: cs).dropLast = true) (ho : has fs (o :: cs) = false) :
    ∃ fs', moveMake fs (c :: cs) (o :: cs) = (fs', .ok ()) ∧ fs' (c :: cs) = some (fun _ => none) ∧ (∀ r, r ≠ [] → fs' (c :: cs ++ r) = none) ∧
      (∀ r, fs' (o :: cs ++ r) = fs (c :: cs ++ r)) ∧
      ∀ q, ¬ (c :: cs) <+: q → ¬ (o :: cs) <+: q → fs' q = if q <+: (c :: cs) ∧ fs q = none then some (fun _ => none) else fs q := by
  have no : ∀ r, ¬ (o :: cs) <+: (c :: cs ++ r) := fun r => not_pre (Ne.symm hc) (List.prefix_append _ _)
  have no' := no []
  rw [List.append_nil] at no'
  obtain ⟨f, e1, hf⟩ : ∃ f, rename fs (c :: cs) (o :: cs) = .ok f ∧ ∀ r, f r = if (o :: cs) <+: r then fs (c :: cs ++ r.drop (o :: cs).length) else if (c :: cs) <+: r then none else fs r := by
    unfold rename
    rw [if_neg (by rw [hp, hd, ho]; simp)]
    exact ⟨_, rfl, fun r => by simp only [List.isPrefixOf_iff_prefix]⟩
  have hn0 : f (c :: cs) = none := by rw [hf, if_neg no', if_pos (List.prefix_refl _)]
  obtain ⟨g, e2, hg⟩ : ∃ g, makedirs f (c :: cs) = .ok g ∧ ∀ q, g q = if q <+: (c :: cs) ∧ f q = none then some (fun _ => none) else f q := by
    unfold makedirs has
    rw [hn0, if_neg (by simp)]
    refine ⟨_, rfl, fun q => ?_⟩
    by_cases h3 : f q = none <;> simp [h3, List.isPrefixOf_iff_prefix]
  refine ⟨g, ?_, ?_, ?_, ?_, ?_⟩
  · unfold moveMake
    rw [e1]
    simp only [lift, andThen]
    rw [e2]
  · rw [hg, if_pos ⟨List.prefix_refl _, hn0⟩]
  · intro r hr
    rw [hg, if_neg (fun hh => by
      have h1 := hh.1.length_le
      have h2 := List.length_pos_iff.2 hr
      rw [List.length_append] at h1
      omega), hf, if_neg (no r), if_pos (List.prefix_append _ _)]
  · intro r
    rw [hg, if_neg (fun hh => by
      obtain ⟨t, ht⟩ := hh.1
      simp only [List.cons_append, List.cons.injEq] at ht
      exact hc ht.1), hf, if_pos (List.prefix_append _ _), List.drop_left]
  · intro q h1 h2
    have : f q = fs q := by rw [hf, if_neg h2, if_neg h1]
    rw [hg, this]

theorem shellRm_one {fs : FS} {s : Str} (h : ' ' ∉ s) (h0 : s ≠ []) : shellRm fs s = rm fs (comps s) := by
  unfold shellRm
  rw [split_none' h]
  simp [h0]

/-- The rotation of the log directories. -/
theorem rotate_ok {fs : FS} (wf : WF fs) {log c : Str} {cs : List Str} (hl : comps log = c :: cs) (hb : ' ' ∉ log)
    (hpar : has fs (c :: cs) = true → has fs (("old_".toList ++ c) :: cs).dropLast = true) :
    ∃ fs', rotate fs log = (fs', .ok ()) ∧ fs' (c :: cs) = some (fun _ => none) ∧ (∀ r, r ≠ [] → fs' (c :: cs ++ r) = none) ∧
      (∀ r, fs' (("old_".toList ++ c) :: cs ++ r) = if has fs (c :: cs) then fs (c :: cs ++ r) else fs (("old_".toList ++ c) :: cs ++ r)) ∧
      ∀ q, ¬ (c :: cs) <+: q → ¬ (("old_".toList ++ c) :: cs) <+: q → fs' q = if q <+: (c :: cs) ∧ fs q = none then some (fun _ => none) else fs q := by
  have ho := comps_old hl
  unfold rotate
  rw [hl, ho]
  generalize ho2 : "old_".toList ++ c = o at *
  have hc : o ≠ c := ho2 ▸ old_ne c
  have nc : ∀ r, ¬ (o :: cs) <+: (c :: cs ++ r) := fun r => not_pre (Ne.symm hc) (List.prefix_append _ _)
  by_cases h1 : has fs (c :: cs) = true
  · rw [if_pos h1]
    by_cases h2 : has fs (o :: cs) = true
    · rw [if_pos ⟨h1, h2⟩, shellRm_one (by
        unfold oldName
        rw [List.mem_append]
        rintro (h | h)
        · revert h; decide
        · exact hb h) (by unfold oldName; simp), ho]
      have hr : ∀ r, rm fs (o :: cs) (c :: cs ++ r) = fs (c :: cs ++ r) := fun r => by
        unfold rm
        rw [if_neg (by rw [List.isPrefixOf_iff_prefix]; exact nc r)]
      have hr0 : rm fs (o :: cs) (c :: cs) = fs (c :: cs) := by simpa using hr []
      obtain ⟨fs', e, a1, a2, a3, a4⟩ := moveMake_ok (fs := rm fs (o :: cs)) hc (by unfold has at h1 ⊢; rw [hr0]; exact h1)
        (by
          have := hpar h1
          unfold has at this ⊢
          unfold rm
          rw [if_neg (by rw [List.isPrefixOf_iff_prefix]; exact dropLast_not_pre (by simp))]
          exact this)
        (by unfold has rm; rw [if_pos (by rw [List.isPrefixOf_iff_prefix])]; rfl)
      refine ⟨fs', e, a1, a2, fun r => by rw [a3, hr, if_pos h1], fun q q1 q2 => ?_⟩
      rw [a4 q q1 q2]
      have : rm fs (o :: cs) q = fs q := by
        unfold rm
        rw [if_neg (by rw [List.isPrefixOf_iff_prefix]; exact q2)]
      rw [this]
    · rw [if_neg (fun h => h2 h.2)]
      obtain ⟨fs', e, a1, a2, a3, a4⟩ := moveMake_ok (fs := fs) hc h1 (hpar h1) (by simpa using h2)
      exact ⟨fs', e, a1, a2, fun r => by rw [a3, if_pos h1], a4⟩
  · rw [if_neg (fun h => h1 h.1), if_neg h1]
    unfold lift makedirs
    rw [if_neg h1]
    refine ⟨_, rfl, ?_, ?_, ?_, ?_⟩
    · rw [if_pos ⟨by rw [List.isPrefixOf_iff_prefix], by simpa using h1⟩]
    · intro r hr
      simp only [List.isPrefixOf_iff_prefix]
      rw [if_neg (fun hh => by
        have h1 := hh.1.length_le
        have h2 := List.length_pos_iff.2 hr
        rw [List.length_append] at h1
        omega)]
      by_contra h
      exact h1 (wf _ _ (List.prefix_append _ _) (Option.isSome_iff_ne_none.2 h))
    · intro r
      simp only [List.isPrefixOf_iff_prefix]
      rw [if_neg (fun hh => by
        obtain ⟨t, ht⟩ := hh.1
        simp only [List.cons_append, List.cons.injEq] at ht
        exact hc ht.1), if_neg h1]
    · intro q q1 q2
      simp only [List.isPrefixOf_iff_prefix, has]
      by_cases h3 : fs q = none <;> simp [h3]

theorem suffix_ne {a b s t : Str} (hl : s.length = t.length) (h : s ≠ t) : a ++ s ≠ b ++ t := fun e => h (List.append_inj_right' e hl)

theorem writeAll_aux {l inp out si so : Str} (ei : "_inp.csv".toList = si) (eo : "_out.csv".toList = so) (i1 : '/' ∉ si) (i2 : si ≠ []) (o1 : '/' ∉ so) (o2 : so ≠ [])
    (hlen : si.length = so.length) (hio : si ≠ so) : ∀ (ms : List Str) (fs : FS) (d : Str → Option Str), (∀ m ∈ ms, '/' ∉ m) → fs (comps (l ++ ['/'])) = some d →
    ∃ fs' d', writeAll (l ++ ['/']) inp out ms fs = (fs', .ok ()) ∧ fs' (comps (l ++ ['/'])) = some d' ∧ (∀ q, q ≠ comps (l ++ ['/']) → fs' q = fs q) ∧
      (∀ m ∈ ms, d' (m ++ si) = some inp ∧ d' (m ++ so) = some out) ∧
      ∀ n, (∀ m ∈ ms, n ≠ m ++ si ∧ n ≠ m ++ so) → d' n = d n
  | [], fs, d, _, h => ⟨fs, d, rfl, h, fun _ _ => rfl, by simp, fun _ _ => rfl⟩
  | m :: ms, fs, d, hm, h => by
    have hs : ∀ e : Str, '/' ∉ e → e ≠ [] → comps (l ++ ['/'] ++ m ++ e) = comps (l ++ ['/']) ++ [m ++ e] := fun e he h0 => by
      rw [List.append_assoc (l ++ ['/'])]
      exact comps_file (by
        rw [List.mem_append]
        rintro (hh | hh)
        · exact hm m (by simp) hh
        · exact he hh) (by simp [h0])
    have h1 := hs si i1 i2
    have h2 := hs so o1 o2
    have hne : m ++ si ≠ m ++ so := suffix_ne hlen hio
    obtain ⟨fs', d', e, a1, a2, a3, a4⟩ := writeAll_aux (l := l) (inp := inp) (out := out) ei eo i1 i2 o1 o2 hlen hio ms
      (fun q => if q = comps (l ++ ['/']) then some fun k => if k = m ++ so then some out else if k = m ++ si then some inp else d k else fs q)
      (fun k => if k = m ++ so then some out else if k = m ++ si then some inp else d k) (fun k hk => hm k (List.mem_cons_of_mem _ hk)) (if_pos rfl)
    refine ⟨fs', d', ?_, a1, ?_, ?_, ?_⟩
    · rw [← e]
      conv_lhs => rw [writeAll]
      unfold openW
      rw [ei, eo, h1]
      simp only [List.dropLast_concat, List.getLast?_concat]
      rw [h]
      simp only [lift, andThen]
      rw [h2]
      simp only [List.dropLast_concat, List.getLast?_concat, if_true]
      congr 1
      funext q
      by_cases hq : q = comps (l ++ ['/'])
      · rw [if_pos hq, if_pos hq]
      · rw [if_neg hq, if_neg hq, if_neg hq]
    · intro q hq
      rw [a2 q hq, if_neg hq]
    · intro k hk
      rcases List.mem_cons.1 hk with rfl | hk
      · by_cases hin : k ∈ ms
        · exact a3 k hin
        · constructor
          · rw [a4 (k ++ si) (fun m' hm' => ⟨fun e => hin (by rw [List.append_cancel_right e]; exact hm'), suffix_ne hlen hio⟩), if_neg hne, if_pos rfl]
          · rw [a4 (k ++ so) (fun m' hm' => ⟨suffix_ne hlen.symm hio.symm, fun e => hin (by rw [List.append_cancel_right e]; exact hm')⟩), if_pos rfl]
      · exact a3 k hk
    · intro n hn
      rw [a4 n (fun k hk => hn k (List.mem_cons_of_mem _ hk)), if_neg (hn m (by simp)).2, if_neg (hn m (by simp)).1]

theorem writeAll_ok {l inp out : Str} (ms : List Str) (fs : FS) (d : Str → Option Str) (hm : ∀ m ∈ ms, '/' ∉ m) (h : fs (comps (l ++ ['/'])) = some d) :
    ∃ fs' d', writeAll (l ++ ['/']) inp out ms fs = (fs', .ok ()) ∧ fs' (comps (l ++ ['/'])) = some d' ∧ (∀ q, q ≠ comps (l ++ ['/']) → fs' q = fs q) ∧
      (∀ m ∈ ms, d' (m ++ "_inp.csv".toList) = some inp ∧ d' (m ++ "_out.csv".toList) = some out) ∧
      ∀ n, (∀ m ∈ ms, n ≠ m ++ "_inp.csv".toList ∧ n ≠ m ++ "_out.csv".toList) → d' n = d n :=
  writeAll_aux rfl rfl (by decide) (by decide) (by decide) (by decide) (by decide) (by decide) ms fs d hm h

/-! ### The log directory -/

/-- **C125.** The log directory belongs to the part of the name before the first dot: input files that differ only after a dot share it, and a name that begins with a dot (`./case.inp`) logs to `_log/` in the
working directory whatever follows. -/
theorem C125_stem {s t : Str} (hs : '.' ∉ s) : logDir (s ++ '.' :: t) = s ++ "_log/".toList ∧ logDir s = s ++ "_log/".toList := by
  unfold logDir
  constructor
  · rw [split_mid, split_none' hs]; rfl
  · rw [split_none' hs]; rfl

example : logDir "cases/run.v1.inp".toList = "cases/run_log/".toList ∧ logDir "cases/run.v2.inp".toList = "cases/run_log/".toList ∧ logDir "./case.inp".toList = "_log/".toList := by decide

/-- **C125.** A successful start.  The log directory holds two files per method, with the header lines, and nothing else; what it held before, with all directories below, is now in the directory of the same
name with `old_` in front (whose older contents are gone), and nothing else has changed except that missing directories above the log are made. -/
theorem C125_start {fs : FS} (wf : WF fs) {s : Str} {c : Str} {cs : List Str} (hl : comps (s ++ "_log/".toList) = c :: cs) (hb : ' ' ∉ s)
    (hpar : (fs (c :: cs)).isSome → (fs (("old_".toList ++ c) :: cs).dropLast).isSome)
    {methods : List Str} (hm : ∀ m ∈ methods, '/' ∉ m) {nx ny : ℤ} {inpH outH : List Str} (h1 : headerOk ['x'] nx inpH = true) (h2 : headerOk ['y'] ny outH = true) :
    ∃ fs' d, initfiles methods nx ny inpH outH (s ++ "_log/".toList) fs = (fs', .ok ()) ∧
      fs' (c :: cs) = some d ∧
      (∀ m ∈ methods, d (m ++ "_inp.csv".toList) = some (line (names ['x'] nx inpH)) ∧ d (m ++ "_out.csv".toList) = some (line (names ['y'] ny outH))) ∧
      (∀ n, (∀ m ∈ methods, n ≠ m ++ "_inp.csv".toList ∧ n ≠ m ++ "_out.csv".toList) → d n = none) ∧
      (∀ r, r ≠ [] → fs' (c :: cs ++ r) = none) ∧
      (∀ r, fs' (("old_".toList ++ c) :: cs ++ r) = if (fs (c :: cs)).isSome then fs (c :: cs ++ r) else fs (("old_".toList ++ c) :: cs ++ r)) ∧
      ∀ q, ¬ (c :: cs) <+: q → ¬ (("old_".toList ++ c) :: cs) <+: q → fs' q = if q <+: (c :: cs) ∧ fs q = none then some (fun _ => none) else fs q := by
  obtain ⟨f1, e1, a1, a2, a3, a4⟩ := rotate_ok wf hl (by
    rw [List.mem_append]
    rintro (h | h)
    · exact hb h
    · revert h; decide) hpar
  have es : s ++ "_log/".toList = (s ++ "_log".toList) ++ ['/'] := by rw [List.append_assoc]; rfl
  rw [es] at hl e1 ⊢
  obtain ⟨f2, d, e2, b1, b2, b3, b4⟩ := writeAll_ok (l := s ++ "_log".toList) (inp := line (names ['x'] nx inpH)) (out := line (names ['y'] ny outH)) methods f1 _ hm (by rw [hl]; exact a1)
  rw [hl] at b1 b2
  have hc := old_ne c
  have ne1 : ∀ r, r ≠ [] → c :: cs ++ r ≠ c :: cs := fun r hr e => hr (by simpa using e)
  refine ⟨f2, d, ?_, b1, b3, b4, fun r hr => by rw [b2 _ (ne1 r hr), a2 r hr], fun r => ?_, fun q q1 q2 => ?_⟩
  · unfold initfiles
    rw [h1, h2, if_neg (by simp), if_neg (by simp), e1]
    simpa [andThen] using e2
  · rw [b2 _ (fun e => hc (by simpa using (List.cons.inj e).1)), a3 r]
    rfl
  · rw [b2 q (fun e => q1 (e ▸ List.prefix_refl _)), a4 q q1 q2]

/-- A file system given as a list of directories. -/
def ofList (l : List (List Str × (Str → Option Str))) : FS := fun p => (l.find? fun e => e.1 = p).map Prod.snd

theorem ofList_wf {l : List (List Str × (Str → Option Str))} (h : ∀ q ∈ l.map Prod.fst, ∀ k ∈ List.range q.length, q.take k ∈ l.map Prod.fst) : WF (ofList l) := by
  have key : ∀ p, (ofList l p).isSome ↔ p ∈ l.map Prod.fst := fun p => by
    unfold ofList
    rw [Option.isSome_map, List.find?_isSome, List.mem_map]
    simp
  intro p q hpq hq
  rw [key] at hq ⊢
  obtain ⟨r, rfl⟩ := hpq
  by_cases hr : r = []
  · simpa [hr] using hq
  · have := h _ hq p.length (List.mem_range.2 (by rw [List.length_append]; have := List.length_pos_iff.2 hr; omega))
    rwa [List.take_left] at this

/-- A working directory with an earlier log, an older one and another directory. -/
def exFs : FS := ofList [([], fun _ => none), (["data".toList], fun _ => none), (["run_log".toList], fun n => if n = "dqn_out.csv".toList then some "old".toList else none),
  (["old_run_log".toList], fun n => if n = "dqn_out.csv".toList then some "older".toList else none), (["run_log".toList, "plots".toList], fun _ => none)]

theorem exFs_wf : WF exFs := ofList_wf (by decide)

example : (initfiles ["dqn".toList] 2 1 [['x']] ["cost".toList] "run_log/".toList exFs).2.toOption.isSome = true ∧
    readF (initfiles ["dqn".toList] 2 1 [['x']] ["cost".toList] "run_log/".toList exFs).1 "run_log/dqn_inp.csv".toList = some "caseid,reward,x1,x2\n".toList ∧
    readF (initfiles ["dqn".toList] 2 1 [['x']] ["cost".toList] "run_log/".toList exFs).1 "run_log/dqn_out.csv".toList = some "caseid,reward,cost\n".toList ∧
    readF (initfiles ["dqn".toList] 2 1 [['x']] ["cost".toList] "run_log/".toList exFs).1 "old_run_log/dqn_out.csv".toList = some "old".toList := by decide +kernel

/-- The directory above meets the hypotheses. -/
example : ∃ fs' d, initfiles ["dqn".toList, "ga".toList] 2 1 [['x']] ["cost".toList] ("run".toList ++ "_log/".toList) exFs = (fs', .ok ()) ∧ fs' ["run_log".toList] = some d ∧
    d "ga_out.csv".toList = some "caseid,reward,cost\n".toList ∧ fs' ["old_run_log".toList, "plots".toList] = exFs ["run_log".toList, "plots".toList] := by
  obtain ⟨fs', d, e, a1, a2, a3, a4, a5, -⟩ := C125_start (fs := exFs) exFs_wf (s := "run".toList) (c := "run_log".toList) (cs := []) (by decide) (by decide) (by decide)
    (methods := ["dqn".toList, "ga".toList]) (by decide) (nx := 2) (ny := 1) (inpH := [['x']]) (outH := ["cost".toList]) (by decide) (by decide)
  refine ⟨fs', d, e, a1, (a2 "ga".toList (by decide)).2, ?_⟩
  have := a5 ["plots".toList]
  rw [if_pos (by decide)] at this
  exact this

/-- **C125 (defect).** With a directory in the name of the input file, `old_` goes in front of that directory.  Unless somebody made a directory of that name, a second run stops with an exception: the log
can be made once only. -/
theorem C125_subdir {fs : FS} {s c d : Str} {cs : List Str} (hl : comps (s ++ "_log/".toList) = c :: d :: cs) (h : (fs (c :: d :: cs)).isSome)
    (hno : fs (("old_".toList ++ c) :: (d :: cs)) = none) (hpar : fs (("old_".toList ++ c) :: (d :: cs).dropLast) = none)
    {methods : List Str} {nx ny : ℤ} {inpH outH : List Str} (h1 : headerOk ['x'] nx inpH = true) (h2 : headerOk ['y'] ny outH = true) :
    initfiles methods nx ny inpH outH (s ++ "_log/".toList) fs = (fs, .error .runtimeError) := by
  unfold initfiles
  rw [h1, h2, if_neg (by simp), if_neg (by simp)]
  unfold rotate
  rw [comps_old hl, hl]
  have e1 : has fs (c :: d :: cs) = true := h
  have e2 : has fs (("old_".toList ++ c) :: d :: cs) = false := by unfold has; rw [hno]; rfl
  have e3 : has fs (("old_".toList ++ c) :: d :: cs).dropLast = false := by
    unfold has
    rw [show (("old_".toList ++ c) :: d :: cs).dropLast = ("old_".toList ++ c) :: (d :: cs).dropLast from rfl, hpar]
    rfl
  rw [if_neg (by rw [e2]; simp), if_pos e1]
  unfold moveMake rename
  rw [if_pos (Or.inr (Or.inl e3))]
  rfl

/-- A working directory where `cases/run.inp` was run once. -/
def exFs2 : FS := ofList [([], fun _ => none), (["cases".toList], fun _ => none), (["cases".toList, "run_log".toList], fun _ => none)]

example : (initfiles ["dqn".toList] 2 1 [['x']] ["cost".toList] (logDir "cases/run.inp".toList) exFs2).2 = .error .runtimeError := by
  rw [show logDir "cases/run.inp".toList = "cases/run".toList ++ "_log/".toList by decide]
  rw [C125_subdir (c := "cases".toList) (d := "run_log".toList) (cs := []) (by decide) (by decide) (by decide) (by decide) (by decide) (by decide)]

/-- **C125 (defect).** A blank in the name of the input file: `rm -Rf` gets two arguments.  When a log and an older log exist, the run deletes the directory named after the part behind the blank, with everything below,
keeps the older log, and stops with an exception. -/
theorem C125_blank {fs : FS} {a b : Str} (ha : '/' ∉ a) (ha' : ' ' ∉ a) (hb : ' ' ∉ b)
    (hp : (fs (comps (a ++ ' ' :: b ++ "_log/".toList))).isSome) (ho : (fs (comps (oldName (a ++ ' ' :: b ++ "_log/".toList)))).isSome)
    {methods : List Str} {nx ny : ℤ} {inpH outH : List Str} (h1 : headerOk ['x'] nx inpH = true) (h2 : headerOk ['y'] ny outH = true) :
    (initfiles methods nx ny inpH outH (a ++ ' ' :: b ++ "_log/".toList) fs).2 = .error .runtimeError ∧
    (∀ q, comps (b ++ "_log/".toList) <+: q → (initfiles methods nx ny inpH outH (a ++ ' ' :: b ++ "_log/".toList) fs).1 q = none) ∧
    (initfiles methods nx ny inpH outH (a ++ ' ' :: b ++ "_log/".toList) fs).1 (comps (oldName (a ++ ' ' :: b ++ "_log/".toList))) = fs (comps (oldName (a ++ ' ' :: b ++ "_log/".toList))) := by
  obtain ⟨c, cs, hc⟩ := comps_ne (b ++ "_log/".toList)
  have hlog : a ++ ' ' :: b ++ "_log/".toList = (a ++ [' ']) ++ (b ++ "_log/".toList) := by simp
  have hbl : ' ' ∉ b ++ "_log/".toList := by
    rw [List.mem_append]
    rintro (h | h)
    · exact hb h
    · revert h; decide
  rw [hlog] at hp ho ⊢
  have ec : comps ((a ++ [' ']) ++ (b ++ "_log/".toList)) = ((a ++ [' ']) ++ c) :: cs := comps_pre (by simp [ha]) hc
  have eo := comps_old ec
  have er : shellRm fs (oldName ((a ++ [' ']) ++ (b ++ "_log/".toList))) = rm (rm fs (comps ("old_".toList ++ a))) (c :: cs) := by
    unfold shellRm oldName
    rw [show "old_".toList ++ ((a ++ [' ']) ++ (b ++ "_log/".toList)) = ("old_".toList ++ a) ++ ' ' :: (b ++ "_log/".toList) by simp, split_mid,
      split_none' (by
        rw [List.mem_append]
        rintro (h | h)
        · revert h; decide
        · exact ha' h), split_none' hbl]
    rw [List.filter_eq_self.2 (by
      intro w hw
      simp only [List.singleton_append, List.mem_cons, List.not_mem_nil, or_false] at hw
      rcases hw with rfl | rfl <;> simp)]
    simp only [List.singleton_append, List.foldl_cons, List.foldl_nil, hc]
  have hoa : comps ("old_".toList ++ a) = ["old_".toList ++ a] := by
    unfold comps
    rw [split_none' (by
      rw [List.mem_append]
      rintro (h | h)
      · revert h; decide
      · exact ha h)]
    rfl
  have hkeep : ∀ x : Str, x = (a ++ [' ']) ++ c ∨ x = "old_".toList ++ ((a ++ [' ']) ++ c) → rm (rm fs ["old_".toList ++ a]) (c :: cs) (x :: cs) = fs (x :: cs) := by
    intro x hx
    unfold rm
    have n1 : ¬ (c :: cs) <+: (x :: cs) := fun h => by
      obtain ⟨r, hr⟩ := h
      simp only [List.cons_append, List.cons.injEq] at hr
      have := congrArg List.length hr.1
      rcases hx with rfl | rfl <;> simp at this <;> omega
    have n2 : ¬ ["old_".toList ++ a] <+: (x :: cs) := fun h => by
      obtain ⟨r, hr⟩ := h
      simp only [List.cons_append, List.cons.injEq, List.nil_append] at hr
      rcases hx with rfl | rfl
      · have h3 := hr.1
        have h4 : ' ' ∈ "old_".toList ++ a := by rw [h3]; simp
        rw [List.mem_append] at h4
        rcases h4 with h | h
        · revert h; decide
        · exact ha' h
      · have := congrArg List.length hr.1
        simp at this
    rw [if_neg (by rw [List.isPrefixOf_iff_prefix]; exact n1), if_neg (by rw [List.isPrefixOf_iff_prefix]; exact n2)]
  have hres : initfiles methods nx ny inpH outH ((a ++ [' ']) ++ (b ++ "_log/".toList)) fs = (rm (rm fs ["old_".toList ++ a]) (c :: cs), .error .runtimeError) := by
    unfold initfiles
    rw [h1, h2, if_neg (by simp), if_neg (by simp)]
    unfold rotate
    rw [if_pos ⟨hp, ho⟩, er, hoa, eo, ec]
    unfold moveMake rename
    rw [if_pos (Or.inr (Or.inr (by unfold has; rw [hkeep _ (Or.inr rfl)]; rw [eo] at ho; exact ho)))]
    rfl
  rw [hres]
  refine ⟨rfl, fun q hq => ?_, ?_⟩
  · rw [hc] at hq
    simp only [rm]
    rw [if_pos (by rw [List.isPrefixOf_iff_prefix]; exact hq)]
  · rw [eo]
    exact hkeep _ (Or.inr rfl)

/-- A working directory with the logs of `case.inp` and of two runs of `my case.inp`. -/
def exFs3 : FS := ofList [([], fun _ => none), (["case_log".toList], fun _ => none), (["my case_log".toList], fun _ => none), (["old_my case_log".toList], fun _ => none)]

/-- The third run of `my case.inp` deletes the log of `case.inp`. -/
example : (initfiles ["dqn".toList] 2 1 [['x']] ["cost".toList] (logDir "my case.inp".toList) exFs3).2 = .error .runtimeError ∧ (exFs3 ["case_log".toList]).isSome ∧
    (initfiles ["dqn".toList] 2 1 [['x']] ["cost".toList] (logDir "my case.inp".toList) exFs3).1 ["case_log".toList] = none := by
  have h := C125_blank (fs := exFs3) (a := "my".toList) (b := "case".toList) (by decide) (by decide) (by decide) (by decide) (by decide) (methods := ["dqn".toList]) (nx := 2) (ny := 1)
    (inpH := [['x']]) (outH := ["cost".toList]) (by decide) (by decide)
  have e : logDir "my case.inp".toList = "my".toList ++ ' ' :: "case".toList ++ "_log/".toList := by decide
  rw [e]
  exact ⟨h.1, by decide, h.2.1 _ ⟨[], by decide⟩⟩

/-- **C125.** A refused number of names leaves the file system alone. -/
theorem C125_refused {methods : List Str} {nx ny : ℤ} {inpH outH : List Str} {log : Str} {fs : FS} (h : headerOk ['x'] nx inpH = false ∨ headerOk ['y'] ny outH = false) :
    initfiles methods nx ny inpH outH log fs = (fs, .error .assertion) := by
  unfold initfiles
  rcases h with h | h
  · rw [h]
    split_ifs <;> first | rfl | contradiction
  · rw [h]; simp

/-! ### The header -/

/-- **C125.** The header line ends with its only newline, and reading it at the commas gives the names back. -/
theorem C125_header : ∀ {ns : List Str}, ns ≠ [] → (∀ n ∈ ns, ',' ∉ n ∧ '\n' ∉ n) → ∃ t, line ns = t ++ ['\n'] ∧ '\n' ∉ t ∧ split ',' t = ns
  | [], h, _ => absurd rfl h
  | [a], _, h => ⟨a, rfl, (h a (by simp)).2, split_none' (h a (by simp)).1⟩
  | a :: b :: l, _, h => by
    obtain ⟨t, h1, h2, h3⟩ := C125_header (ns := b :: l) (by simp) (fun n hn => h n (by simp [hn]))
    refine ⟨a ++ ',' :: t, by rw [line, h1]; simp, ?_, ?_⟩
    · rw [List.mem_append, List.mem_cons]
      rintro (hh | hh | hh)
      · exact (h a (by simp)).2 hh
      · revert hh; decide
      · exact h2 hh
    · rw [split_mid, split_none' (h a (by simp)).1, h3]
      rfl

theorem toDigits_inj {m n : ℕ} (h : Nat.toDigits 10 m = Nat.toDigits 10 n) : m = n := by
  have := congrArg (Nat.ofDigitChars 10 · 0) h
  simpa [Nat.ofDigitChars_ten_toDigits] using this

/-- **C125.** The columns: `caseid` and `reward`, then the names of the user, as many as declared; or, for the single default name, as many numbered names as declared, all different.
**Defect**: a list of several names that begins with the default letter is never counted. -/
theorem C125_columns (d : Str) (n : ℤ) (hs : List Str) :
    (names d n hs).take 2 = ["caseid".toList, "reward".toList] ∧
    (hs ≠ [d] → (names d n hs).drop 2 = hs) ∧
    (∀ h t, hs = h :: t → h ≠ d → (headerOk d n hs = true ↔ ((names d n hs).length : ℤ) = n + 2)) ∧
    (hs = [d] → headerOk d n hs = true ∧ (0 ≤ n → ((names d n hs).length : ℤ) = n + 2) ∧ (names d n hs).drop 2 = (List.range n.toNat).map (fun i => d ++ Nat.toDigits 10 (i + 1)) ∧ ((names d n hs).drop 2).Nodup) ∧
    (∀ t, t ≠ [] → hs = d :: t → headerOk d n hs = true) := by
  refine ⟨by unfold names; rfl, fun h => by unfold names; rw [if_neg h]; rfl, ?_, ?_, ?_⟩
  · rintro h t rfl hd
    have : (h :: t) ≠ [d] := by simp [hd]
    unfold names headerOk
    rw [if_neg this]
    have hd' : (h == d) = false := by simpa using hd
    simp only [hd', Bool.false_or, beq_iff_eq, List.length_cons, List.length_append, List.length_nil]
    push_cast
    constructor <;> intro hh <;> omega
  · rintro rfl
    refine ⟨by unfold headerOk; simp, fun hn => by unfold names; simp; omega, by unfold names; simp, ?_⟩
    unfold names
    simp only [if_true, List.drop_append, List.length_cons, List.length_nil]
    refine List.Nodup.map (fun i j hij => ?_) List.nodup_range
    have := toDigits_inj (List.append_cancel_left hij)
    omega
  · rintro t - rfl
    unfold headerOk
    simp

/-- Three names, none of them counted: the header has three columns, the data five. -/
example : headerOk ['x'] 5 [['x'], "flow".toList, "temp".toList] = true ∧ (names ['x'] 5 [['x'], "flow".toList, "temp".toList]).length = 5 ∧ headerOk ['x'] 5 ["flow".toList, "temp".toList] = false := by decide

/-! ### From the checked input to the files -/

variable {D : Type} {C : Chars} {num : Str → Option ℚ}

/-- **C125.** Every agent finds its files: after the start, for each card of the checked input the files named after its `casename` exist in the log directory with the two header lines. -/
theorem C125_found {cpus : ℤ} {genT : Table D} {tab : Alg → Table D} {p : Parsed D} {st : Setup D} (h : setup C num cpus genT tab p = .ok st) {methods : List Str}
    (hms : st.methods = methods.map Val.str) {fs : FS} (wf : WF fs) {s c : Str} {cs : List Str} (hl : comps (s ++ "_log/".toList) = c :: cs) (hb : ' ' ∉ s)
    (hpar : (fs (c :: cs)).isSome → (fs (("old_".toList ++ c) :: cs).dropLast).isSome) (hm : ∀ m ∈ methods, '/' ∉ m)
    {nx ny : ℤ} {inpH outH : List Str} (h1 : headerOk ['x'] nx inpH = true) (h2 : headerOk ['y'] ny outH = true) :
    (initfiles methods nx ny inpH outH (s ++ "_log/".toList) fs).2 = .ok () ∧
    ∀ card ∈ st.cards, ∃ m, dget card.2 "casename".toList = some (.str m) ∧
      readF (initfiles methods nx ny inpH outH (s ++ "_log/".toList) fs).1 (s ++ "_log/".toList ++ m ++ "_inp.csv".toList) = some (line (names ['x'] nx inpH)) ∧
      readF (initfiles methods nx ny inpH outH (s ++ "_log/".toList) fs).1 (s ++ "_log/".toList ++ m ++ "_out.csv".toList) = some (line (names ['y'] ny outH)) := by
  obtain ⟨fs', d, e, a1, a2, -⟩ := C125_start wf hl hb hpar hm h1 h2
  rw [e]
  refine ⟨rfl, fun card hcard => ?_⟩
  obtain ⟨-, -, -, hf, -⟩ := InputFile.C109_cores h
  obtain ⟨v, hv, hcv⟩ : ∃ v ∈ st.methods, dget card.2 "casename".toList = some v := by
    clear h hms e
    generalize st.cards = l1 at *
    generalize st.methods = l2 at *
    induction hf with
    | nil => simp at hcard
    | cons hh _ ih =>
      rcases List.mem_cons.1 hcard with rfl | hc'
      · exact ⟨_, by simp, hh⟩
      · obtain ⟨v, hv, h'⟩ := ih hc'
        exact ⟨v, by simp [hv], h'⟩
  rw [hms] at hv
  obtain ⟨m, hmm, rfl⟩ := List.mem_map.1 hv
  have es : s ++ "_log/".toList = (s ++ "_log".toList) ++ ['/'] := by rw [List.append_assoc]; rfl
  have hs : ∀ x : Str, '/' ∉ x → x ≠ [] → comps (s ++ "_log/".toList ++ m ++ x) = (c :: cs) ++ [m ++ x] := fun x hx h0 => by
    rw [← hl, es, List.append_assoc _ m x]
    exact comps_file (by
      rw [List.mem_append]
      rintro (hh | hh)
      · exact hm m hmm hh
      · exact hx hh) (by simp [h0])
  refine ⟨m, hcv, ?_, ?_⟩
  · unfold readF
    rw [hs _ (by decide) (by decide)]
    simp only [List.dropLast_concat, List.getLast?_concat, a1, Option.bind_some]
    exact (a2 m hmm).1
  · unfold readF
    rw [hs _ (by decide) (by decide)]
    simp only [List.dropLast_concat, List.getLast?_concat, a1, Option.bind_some]
    exact (a2 m hmm).2

/-! ### Processes, modes and the command line -/

/-- **C125.** One process per method with its flag set, none else, none twice, in the order of the code. -/
theorem C125_procs (flag : Alg → Bool) : (∀ a, a ∈ runAll flag ↔ flag a = true) ∧ (runAll flag).Nodup ∧ (runAll flag).Sublist [Alg.dqn, .ppo, .a2c, .acer, .ga, .sa] := by
  refine ⟨fun a => ?_, ?_, ?_⟩
  · unfold runAll
    rw [List.mem_filter]
    exact ⟨fun h => h.2, fun h => ⟨by cases a <;> decide, h⟩⟩
  · exact List.Nodup.filter _ (by decide)
  · exact List.filter_sublist

/-- **C125.** The mode decides the job only.  **Defect**: the files are made, and the earlier log moved away, also when the mode is `test` ("check input only") or is refused. -/
theorem C125_mode (methods : List Str) (nx ny : ℤ) (inpH outH : List Str) (log mode : Str) (flag : Alg → Bool) (fs : FS) :
    (regular methods nx ny inpH outH log mode flag fs).1 = (initfiles methods nx ny inpH outH log fs).1 ∧
    ((initfiles methods nx ny inpH outH log fs).2 = .ok () →
      (mode = "run".toList → (regular methods nx ny inpH outH log mode flag fs).2 = .ok (.procs (runAll flag))) ∧
      (mode = "test".toList → (regular methods nx ny inpH outH log mode flag fs).2 = .ok .nothing) ∧
      (mode = "env_only".toList → (regular methods nx ny inpH outH log mode flag fs).2 = .ok .makeEnv) ∧
      (mode ≠ "run".toList → mode ≠ "test".toList → mode ≠ "env_only".toList → (regular methods nx ny inpH outH log mode flag fs).2 = .error .runtimeError)) := by
  unfold regular
  rcases h : initfiles methods nx ny inpH outH log fs with ⟨f, r⟩
  cases r with
  | error e => exact ⟨rfl, fun hh => by cases hh⟩
  | ok u =>
    refine ⟨by dsimp only; split_ifs <;> rfl, fun _ => ⟨?_, ?_, ?_, ?_⟩⟩
    · rintro rfl; rfl
    · rintro rfl; rfl
    · rintro rfl; rfl
    · intro h1 h2 h3
      simp only
      rw [if_neg h1, if_neg h2, if_neg h3]

/-- The example above in mode `test`: the earlier log has moved. -/
example : readF (regular ["dqn".toList] 2 1 [['x']] ["cost".toList] "run_log/".toList "test".toList (fun _ => true) exFs).1 "old_run_log/dqn_out.csv".toList = some "old".toList := by decide +kernel

/-- **C125.** The command line: the example first, then the tests, then the input file; without one, the help.  **Defect**: `-c` is accepted and ignored, with an input file and without. -/
theorem C125_command (a : Args) :
    (a.example_ = true → dispatch a = .printExample) ∧ (a.example_ = false → a.test = true → dispatch a = .unitTests) ∧
    (a.example_ = false → a.test = false → ∀ f, f ≠ [] → a.input = some f → dispatch a = .run f) ∧
    (a.example_ = false → a.test = false → a.input = none ∨ a.input = some [] → dispatch a = .help) ∧
    ∀ c, dispatch { a with check := c } = dispatch a := by
  refine ⟨fun h => ?_, fun h1 h2 => ?_, fun h1 h2 f hf hi => ?_, fun h1 h2 hi => ?_, fun c => rfl⟩
  · simp [dispatch, h]
  · simp [dispatch, h1, h2]
  · cases f with
    | nil => exact absurd rfl hf
    | cons x f => simp [dispatch, h1, h2, hi]
  · rcases hi with hi | hi <;> simp [dispatch, h1, h2, hi]

/-- **C125.** The tuning methods and modes: exactly five methods are known; cases are run without a mode or with `run`, only generated with `test`, and with another mode the exception comes after they are generated. -/
theorem C125_tune (method : Str) (mode : Option Str) :
    ((∃ r, tuneJob method mode = .ok r) ↔ method ∈ ["gridtune".toList, "randtune".toList, "gatune".toList, "bayestune".toList, "estune".toList]) ∧
    ∀ c r, tuneJob method mode = .ok (c, r) →
      ((c = .grid ↔ method = "gridtune".toList) ∧ (c = .rand ↔ method = "randtune".toList) ∧ (c = .bayes ↔ method = "bayestune".toList) ∧ (∀ n, c = .es n ↔ n = method ∧ (method = "gatune".toList ∨ method = "estune".toList))) ∧
      (r = .ok true ↔ mode = none ∨ mode = some "run".toList) ∧ (r = .ok false ↔ mode = some "test".toList) ∧ ∀ e, r = .error e → e = .runtimeError := by
  have hm : (modeJob mode = .ok true ↔ mode = none ∨ mode = some "run".toList) ∧ (modeJob mode = .ok false ↔ mode = some "test".toList) ∧ ∀ e, modeJob mode = .error e → e = .runtimeError := by
    cases mode with
    | none => simp [modeJob]
    | some m =>
      unfold modeJob
      by_cases h1 : m = "run".toList
      · subst h1; simp
      · by_cases h2 : m = "test".toList
        · subst h2; simp
        · simp only [if_neg h1, if_neg h2]
          refine ⟨⟨fun h => (by cases h), fun h => ?_⟩, ⟨fun h => (by cases h), fun h => ?_⟩, fun e h => by cases h; rfl⟩
          · rcases h with h | h
            · cases h
            · exact absurd (Option.some.inj h) h1
          · exact absurd (Option.some.inj h) h2
  unfold tuneJob
  cases hc : tuneClass method with
  | error e =>
    refine ⟨⟨fun ⟨r, hr⟩ => (by cases hr), fun h => ?_⟩, fun c r h => (by cases h)⟩
    simp only [List.mem_cons, List.not_mem_nil, or_false] at h
    rcases h with rfl | rfl | rfl | rfl | rfl <;> exact absurd hc (by cases e <;> decide)
  | ok c0 =>
    have key : method ∈ ["gridtune".toList, "randtune".toList, "gatune".toList, "bayestune".toList, "estune".toList] ∧
        (c0 = .grid ↔ method = "gridtune".toList) ∧ (c0 = .rand ↔ method = "randtune".toList) ∧ (c0 = .bayes ↔ method = "bayestune".toList) ∧
        (∀ n, c0 = .es n ↔ n = method ∧ (method = "gatune".toList ∨ method = "estune".toList)) := by
      unfold tuneClass at hc
      split_ifs at hc with h1 h2 h3 h4 h5
      · cases hc; subst h1; simp
      · cases hc; subst h2; simp
      · cases hc; subst h3; exact ⟨by decide, by decide, by decide, by decide, fun n => ⟨fun h => ⟨by cases h; rfl, Or.inl rfl⟩, fun h => by rw [h.1]⟩⟩
      · cases hc; subst h4; simp
      · cases hc; subst h5; exact ⟨by decide, by decide, by decide, by decide, fun n => ⟨fun h => ⟨by cases h; rfl, Or.inr rfl⟩, fun h => by rw [h.1]⟩⟩
    refine ⟨⟨fun _ => key.1, fun _ => ⟨_, rfl⟩⟩, fun c r h => ?_⟩
    cases h
    exact ⟨key.2, hm⟩

example : tuneJob "gatune".toList none = .ok (.es "gatune".toList, .ok true) ∧ tuneJob "gridtune".toList (some "check".toList) = .ok (.grid, .error .runtimeError) := by decide

end Neorl.RunFiles

import Verif.MonLoad
import Mathlib.Tactic.Linarith
import Mathlib.Data.List.Sort

/-!
# C133: the files of `Monitor`
-/

set_option linter.unusedSectionVars false
set_option linter.unusedVariables false

namespace Neorl.MonLoad

open Neorl.InputFile (Str)

/-! ### Names -/

theorem mem_glob {e : Str} {names : List Str} {n : Str} : n ∈ globEnd e names ↔ n ∈ names ∧ e <:+ n ∧ n.head? ≠ some '.' := by
  simp [globEnd]

/-- **C133**: a log is found again: for every name that is not empty and does not begin with a dot the file is in the directory asked for, ends in `monitor.csv` and is found there. -/
theorem C133_found (isdir : Bool) (dir : List Str) (last : Str) (h0 : last ≠ []) (hd : last.head? ≠ some '.') (names : List Str) (hn : (fileName isdir dir last).2 ∈ names) :
    (fileName isdir dir last).2 ∈ monitorFiles names ∧ (fileName isdir dir last).2 ∈ allFiles names ∧
      ((fileName isdir dir last).1 = dir ∨ isdir = true ∧ (fileName isdir dir last).1 = dir ++ [last]) := by
  have key : ext <:+ (fileName isdir dir last).2 ∧ (fileName isdir dir last).2.head? ≠ some '.' ∧
      ((fileName isdir dir last).1 = dir ∨ isdir = true ∧ (fileName isdir dir last).1 = dir ++ [last]) := by
    unfold fileName
    split
    · rename_i h
      exact ⟨List.isSuffixOf_iff_suffix.mp h, hd, Or.inl rfl⟩
    · cases isdir with
      | true => exact ⟨List.suffix_refl _, (by decide : ext.head? ≠ some '.'), Or.inr ⟨rfl, rfl⟩⟩
      | false =>
        refine ⟨⟨last ++ ['.'], by simp⟩, ?_, Or.inl rfl⟩
        obtain ⟨a, t, rfl⟩ := List.exists_cons_of_ne_nil h0
        simpa using hd
  have hm : (fileName isdir dir last).2 ∈ monitorFiles names := mem_glob.mpr ⟨hn, key.1, key.2.1⟩
  exact ⟨hm, List.mem_append_right _ hm, key.2.2⟩

/-- **C133** (defect): the log for an empty name is written to `.monitor.csv` and is never found. -/
theorem C133_hidden (dir : List Str) (names : List Str) : (fileName false dir []).2 = ".monitor.csv".toList ∧ (fileName false dir []).2 ∉ allFiles names := by
  have e : (fileName false dir []).2 = ".monitor.csv".toList := by
    have : ext.isSuffixOf ([] : Str) = false := by decide
    simp only [fileName, this]; rfl
  refine ⟨e, ?_⟩
  rw [e]
  intro h
  rcases List.mem_append.mp h with h | h
  · exact (mem_glob.mp h).2.2 (by decide)
  · exact (mem_glob.mp h).2.2 (by decide)

/-- **C133**: no file is read twice, and only logs are read. -/
theorem C133_once (names : List Str) (h : names.Nodup) : (allFiles names).Nodup ∧ ∀ n ∈ allFiles names, n ∈ names ∧ ("monitor.json".toList <:+ n ∨ "monitor.csv".toList <:+ n) := by
  constructor
  · unfold allFiles
    rw [List.nodup_append]
    refine ⟨h.filter _, h.filter _, ?_⟩
    intro a ha b hb hab
    subst hab
    obtain ⟨_, ⟨s, hs⟩, _⟩ := mem_glob.mp ha
    obtain ⟨_, ⟨t, ht⟩, _⟩ := mem_glob.mp hb
    have h1 : a.getLast? = some 'n' := by rw [← hs, List.getLast?_append, (by decide : ("monitor.json".toList).getLast? = some 'n')]; rfl
    have h2 : a.getLast? = some 'v' := by rw [← ht, List.getLast?_append, (by decide : ext.getLast? = some 'v')]; rfl
    rw [h1] at h2
    exact absurd h2 (by decide)
  · intro n hn
    rcases List.mem_append.mp hn with hn | hn
    · exact ⟨(mem_glob.mp hn).1, Or.inl (mem_glob.mp hn).2.1⟩
    · exact ⟨(mem_glob.mp hn).1, Or.inr (mem_glob.mp hn).2.1⟩

/-! ### Contents -/

variable {K V : Type} [Field K] [LinearOrder K] [IsStrictOrderedRing K]

/-- A function that sorts by time, in whatever order for equal times. -/
def Sorts (srt : List (Out K V) → List (Out K V)) : Prop := ∀ l, (srt l).Perm l ∧ (srt l).Pairwise fun a b => a.t ≤ b.t

/-- What a readable file holds. -/
def holds (c : Content K V) (t0 : K) (rows : List (Row K V)) : Prop := c = .csv (.start t0) rows ∨ (c = .json (some t0) rows ∧ rows ≠ [])

theorem readFile_ok {c : Content K V} {t0 : K} {rows : List (Row K V)} : readFile c = .ok (t0, rows) ↔ holds c t0 rows := by
  unfold holds
  rcases c with ⟨_ | _ | t, r⟩ | ⟨_ | t, _ | ⟨a, r⟩⟩ <;> simp [readFile]
  rintro _ rfl; simp

theorem readAll_ok : ∀ {cs : List (Content K V)} {xs : List (K × List (Row K V))}, readAll cs = .ok xs ↔ List.Forall₂ (fun c x => holds c x.1 x.2) cs xs
  | [], xs => by
    simp only [readAll, Except.ok.injEq]
    constructor
    · rintro rfl; exact .nil
    · intro h; cases h; rfl
  | c :: cs, xs => by
    rw [readAll]
    constructor
    · intro h
      cases hc : readFile c with
      | error e => rw [hc] at h; cases h
      | ok x =>
        rw [hc] at h
        simp only [] at h
        cases hs : readAll cs with
        | error e => rw [hs] at h; cases h
        | ok ys =>
          rw [hs] at h; cases h
          exact .cons (readFile_ok.mp hc) (readAll_ok.mp hs)
    · intro h
      cases h with
      | cons h1 h2 =>
        rw [readFile_ok.mpr h1]
        simp only []
        rw [readAll_ok.mpr h2]

theorem least_spec : ∀ (l : List K) (a : K), (∀ b ∈ a :: l, least a l ≤ b) ∧ least a l ∈ a :: l
  | [], a => by simp [least]
  | b :: t, a => by
    obtain ⟨h1, h2⟩ := least_spec t (min a b)
    rw [least]
    constructor
    · intro c hc
      have hm := h1 _ List.mem_cons_self
      rcases List.mem_cons.mp hc with rfl | hc
      · exact hm.trans (min_le_left _ _)
      · rcases List.mem_cons.mp hc with rfl | hc
        · exact hm.trans (min_le_right _ _)
        · exact h1 c (List.mem_cons_of_mem _ hc)
    · rcases List.mem_cons.mp h2 with h | h
      · rcases min_choice a b with e | e
        · rw [h, e]; simp
        · rw [h, e]; simp
      · simp [h]

/-- **C133**: the logs together. If all files are readable, the result has every row of every file exactly once, with its place in its file, and its time moved by the difference of the starts, so counted
from the earliest start of all; the rows are in the order of their times. -/
theorem C133_load {srt : List (Out K V) → List (Out K V)} (hs : Sorts srt) {files : List (Content K V)} (hne : files ≠ []) {xs : List (K × List (Row K V))}
    (hx : List.Forall₂ (fun c x => holds c x.1 x.2) files xs) :
    ∃ out t0, load srt files = .ok out ∧ (∀ x ∈ xs, t0 ≤ x.1) ∧ (∃ x ∈ xs, t0 = x.1) ∧ out.Pairwise (fun a b => a.t ≤ b.t) ∧
      out.Perm (xs.flatMap fun x => x.2.mapIdx fun i r => ⟨i, (x.1 - t0) + r.t, r.data⟩) := by
  have hr := readAll_ok.mpr hx
  cases hx with
  | nil => exact absurd rfl hne
  | @cons c x cs xs h1 h2 =>
    obtain ⟨hl, hm⟩ := least_spec (xs.map (·.1)) x.1
    refine ⟨_, least x.1 (xs.map (·.1)), by rw [load, if_neg hne, hr], ?_, ?_, ?_, ?_⟩
    · intro y hy
      rcases List.mem_cons.mp hy with rfl | hy
      · exact hl _ (by simp)
      · exact hl _ (List.mem_cons_of_mem _ (List.mem_map_of_mem hy))
    · rcases List.mem_cons.mp hm with h | h
      · exact ⟨x, by simp, h⟩
      · obtain ⟨y, hy, e⟩ := List.mem_map.mp h
        exact ⟨y, by simp [hy], e.symm⟩
    · rw [List.pairwise_map]
      exact (hs _).2.imp fun h => by simpa using h
    · refine ((hs _).1.map _).trans (List.Perm.of_eq ?_)
      generalize least x.1 (xs.map (·.1)) = t0
      rw [joined, List.map_flatMap]
      congr 1
      funext y
      rw [List.map_map, List.mapIdx_eq_zipIdx_map]
      refine List.map_congr_left fun p _ => ?_
      simp only [Function.comp]
      congr 1
      ring

/-- **C133**: if every row says how long after the start of its monitor the clock showed `clock`, then in the result it says how long after the earliest start of all; so rows of different environments come in
the order in which their episodes ended. -/
theorem C133_clock {srt : List (Out K V) → List (Out K V)} (hs : Sorts srt) {files : List (Content K V)} (hne : files ≠ []) {xs : List (K × List (Row K V))} {clock : V → K}
    (hx : List.Forall₂ (fun c x => holds c x.1 x.2) files xs) (hc : ∀ x ∈ xs, ∀ r ∈ x.2, r.t = clock r.data - x.1) :
    ∃ out t0, load srt files = .ok out ∧ (∀ o ∈ out, o.t = clock o.data - t0) ∧ out.Pairwise fun a b => clock a.data ≤ clock b.data := by
  obtain ⟨out, t0, h, _, _, hp, hperm⟩ := C133_load hs hne hx
  have ht : ∀ o ∈ out, o.t = clock o.data - t0 := by
    intro o ho
    have := hperm.subset ho
    simp only [List.mem_flatMap] at this
    obtain ⟨x, hx', h2⟩ := this
    rw [List.mapIdx_eq_zipIdx_map, List.mem_map] at h2
    obtain ⟨⟨r, i⟩, hr, rfl⟩ := h2
    have hrm : r ∈ x.2 := by
      have := List.mem_zipIdx hr
      rw [this.2.2]; exact List.getElem_mem _
    simp only [hc x hx' r hrm]; ring
  refine ⟨out, t0, h, ht, ?_⟩
  refine hp.imp_of_mem fun {a b} ha hb hab => ?_
  rw [ht a ha, ht b hb] at hab
  linarith

/-- **C133**: one log with increasing times comes back as it is. -/
theorem C133_single {srt : List (Out K V) → List (Out K V)} (hs : Sorts srt) {c : Content K V} {t0 : K} {rows : List (Row K V)} (hc : holds c t0 rows)
    (hr : rows.Pairwise fun a b => a.t < b.t) : load srt [c] = .ok (rows.mapIdx fun i r => ⟨i, r.t, r.data⟩) := by
  obtain ⟨out, t, h, _, ⟨x, hx, ht⟩, hp, hperm⟩ := C133_load hs (List.cons_ne_nil c []) (.cons (b := (t0, rows)) hc .nil)
  have : t = t0 := by simp only [List.mem_singleton] at hx; rw [ht, hx]
  subst this
  simp only [List.flatMap_cons, List.flatMap_nil, List.append_nil, sub_self, zero_add] at hperm
  rw [h]
  congr 1
  have hsorted : (rows.mapIdx fun i r => (⟨i, r.t, r.data⟩ : Out K V)).Pairwise fun a b => a.t < b.t := by
    rw [List.pairwise_iff_getElem] at hr ⊢
    intro i j hi hj hij
    simp only [List.getElem_mapIdx]
    simp only [List.length_mapIdx] at hi hj
    exact hr i j hi hj hij
  have hnd : ∀ a ∈ out, ∀ b ∈ out, a.t = b.t → a = b := by
    intro a ha b hb e
    have ha' := hperm.subset ha
    have hb' := hperm.subset hb
    obtain ⟨i, hi, rfl⟩ := List.mem_iff_getElem.mp ha'
    obtain ⟨j, hj, rfl⟩ := List.mem_iff_getElem.mp hb'
    rw [List.pairwise_iff_getElem] at hsorted
    rcases lt_trichotomy i j with h | h | h
    · exact absurd e (hsorted i j hi hj h).ne
    · subst h; rfl
    · exact absurd e.symm (hsorted j i hj hi h).ne
  refine List.Perm.eq_of_pairwise (le := fun a b => a.t ≤ b.t) ?_ hp (hsorted.imp fun h => h.le) hperm
  intro a b ha hb h1 h2
  exact hnd a ha b (hperm.symm.subset hb) (le_antisymm h1 h2)

/-- **C133**: without files there is an error; one file that cannot be read makes the whole fail. -/
theorem C133_refused (srt : List (Out K V) → List (Out K V)) : load srt ([] : List (Content K V)) = .error .runtimeError ∧
    ∀ files : List (Content K V), (∃ c ∈ files, ∀ t0 rows, ¬ holds c t0 rows) → ∃ e, load srt files = .error e := by
  refine ⟨rfl, ?_⟩
  rintro files ⟨c, hc, hn⟩
  have hne : files ≠ [] := List.ne_nil_of_mem hc
  cases hr : readAll files with
  | error e => exact ⟨e, by rw [load, if_neg hne, hr]⟩
  | ok xs =>
    exfalso
    have := readAll_ok.mp hr
    clear hr hne
    induction this with
    | nil => simp at hc
    | cons h1 _ ih =>
      rcases List.mem_cons.mp hc with rfl | hc
      · exact hn _ _ h1
      · exact ih hc

/-- **C133** (defect): a JSON log whose environment has not finished an episode yet makes the reading of all logs fail; a CSV log in the same state does not. -/
theorem C133_unfinished (srt : List (Out K V) → List (Out K V)) (t0 : K) : (∀ cs, load srt (.json (some t0) [] :: cs) = .error .keyError) ∧
    (Sorts srt → load srt [.csv (.start t0) []] = .ok ([] : List (Out K V))) := by
  refine ⟨fun cs => by simp [load, readAll, readFile], fun hs => ?_⟩
  have := C133_single hs (c := .csv (.start t0) []) (Or.inl rfl) (by simp)
  simpa using this

/-! ### Example -/

def exSort (l : List (Out ℚ ℕ)) : List (Out ℚ ℕ) := l.mergeSort fun a b => decide (a.t ≤ b.t)

theorem exSort_sorts : Sorts exSort := fun l => ⟨List.mergeSort_perm _ _, by
  have := List.pairwise_mergeSort (le := fun a b : Out ℚ ℕ => decide (a.t ≤ b.t)) (fun a b c h1 h2 => by simp at *; exact h1.trans h2) (fun a b => by simpa using le_total a.t b.t) l
  exact this.imp fun h => by simpa using h⟩

example : holds (.csv (.start 10) [⟨1, 0⟩, ⟨4, 1⟩] : Content ℚ ℕ) 10 [⟨1, 0⟩, ⟨4, 1⟩] ∧ holds (.csv (.start 8) [⟨5, 2⟩] : Content ℚ ℕ) 8 [⟨5, 2⟩] := ⟨Or.inl rfl, Or.inl rfl⟩

example : ∃ out, load exSort [.csv (.start 10) [⟨1, 0⟩, ⟨4, 1⟩], .csv (.start 8) [⟨5, 2⟩]] = .ok out ∧ out.length = 3 ∧ out.map (·.t) = [3, 5, 6] := by
  obtain ⟨out, t0, h, h1, ⟨x, hx, h2⟩, hp, hperm⟩ := C133_load (files := [.csv (.start 10) [⟨1, 0⟩, ⟨4, 1⟩], .csv (.start 8) [⟨5, 2⟩]]) exSort_sorts (by simp)
    (xs := [(10, [⟨1, 0⟩, ⟨4, 1⟩]), (8, [⟨5, 2⟩])]) (.cons (Or.inl rfl) (.cons (Or.inl rfl) .nil))
  have ht : t0 = 8 := by
    have := h1 (8, [⟨5, 2⟩]) (by simp)
    simp only [List.mem_cons, List.not_mem_nil, or_false] at hx
    rcases hx with rfl | rfl
    · rw [h2] at this; norm_num at this
    · exact h2
  subst ht
  have hperm2 := hperm.map (·.t)
  refine ⟨out, h, by simpa using hperm.length_eq, ?_⟩
  have hs : (out.map (·.t)).Pairwise (· ≤ ·) := List.pairwise_map.mpr hp
  refine List.Perm.eq_of_pairwise (le := (· ≤ ·)) (fun a b _ _ => le_antisymm) hs (by norm_num) (hperm2.trans ?_)
  norm_num [List.mapIdx]
  decide +kernel

end Neorl.MonLoad

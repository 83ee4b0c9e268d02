import Verif.MakeEnv
import Verif.Props.MonLoad

/-!
# Property theorems C154: seeds and log files of the environments made
-/

set_option linter.unusedSectionVars false
set_option linter.unusedVariables false

namespace Neorl.MakeEnv

open Neorl.InputFile (Str)

theorem not_suffix (r : ℕ) : MonLoad.ext.isSuffixOf (Nat.toDigits 10 r) = false := by
  rw [Bool.eq_false_iff]
  intro h
  obtain ⟨t, ht⟩ := List.isSuffixOf_iff_suffix.1 h
  have hv : 'v' ∈ Nat.toDigits 10 r := by
    rw [← ht]
    exact List.mem_append_right _ (by decide)
  have := Nat.isDigit_of_mem_toDigits (by omega) (by omega) hv
  revert this
  decide

theorem logFile_eq (isdir : ℕ → Bool) (dir : List Str) (r : ℕ) :
    logFile isdir dir r = if isdir r then (dir ++ [Nat.toDigits 10 r], "monitor.csv".toList) else (dir, Nat.toDigits 10 r ++ ".monitor.csv".toList) := by
  have : ".monitor.csv".toList = '.' :: MonLoad.ext := by decide
  unfold logFile MonLoad.fileName
  rw [not_suffix r, this]
  cases isdir r <;> rfl

theorem digits_inj {r q : ℕ} (h : Nat.toDigits 10 r = Nat.toDigits 10 q) : r = q := by
  have := congrArg (fun l => Nat.ofDigitChars 10 l 0) h
  simpa [Nat.ofDigitChars_toDigits] using this

theorem logFile_inj {isdir : ℕ → Bool} {dir : List Str} {r q : ℕ} (h : logFile isdir dir r = logFile isdir dir q) : r = q := by
  rw [logFile_eq, logFile_eq] at h
  have hl : ∀ x : Str, dir ++ [x] ≠ dir := fun x e => by simpa using congrArg List.length e
  split_ifs at h with h1 h2 h2
  · exact digits_inj (by simpa using (Prod.mk.inj h).1)
  · exact absurd (Prod.mk.inj h).1 (hl _)
  · exact absurd (Prod.mk.inj h).1.symm (hl _)
  · exact digits_inj (List.append_cancel_right (Prod.mk.inj h).2)

/-- **C154, seeds and files.** `make_vec_env` makes `n_envs` environments; number `i` and its action space are seeded with `seed + start_index + i` (not at all without a
seed), its log is `<start_index + i>.monitor.csv` in the folder (`monitor.csv` in the directory of that name if there is one, none without a folder), and the wrapper is around it. -/
theorem C154_vec (byName : Bool) (nkw n : ℕ) (seed : Option ℤ) (start : ℕ) (isdir : ℕ → Bool) (dir : Option (List Str)) (wrapper : Bool) :
    (makeVec byName nkw n seed start isdir dir wrapper).length = n ∧
    ∀ i, i < n → ∃ m, (makeVec byName nkw n seed start isdir dir wrapper)[i]? = some m ∧
      (∀ s, seed = some s → m.seed = some (s + start + i) ∧ m.actSeed = some (s + start + i)) ∧ (seed = none → m.seed = none ∧ m.actSeed = none) ∧
      (∀ d, dir = some d → m.file = some (if isdir (start + i) then (d ++ [Nat.toDigits 10 (start + i)], "monitor.csv".toList)
        else (d, Nat.toDigits 10 (start + i) ++ ".monitor.csv".toList))) ∧ (dir = none → m.file = none) ∧
      m.wrapped = wrapper ∧ (m.kwargs = true ↔ byName = false) ∧ (m.warned = true ↔ byName = true ∧ 0 < nkw) := by
  refine ⟨by simp [makeVec], fun i hi => ⟨vecOne byName nkw seed isdir dir wrapper (i + start), by simp [makeVec, hi], ?_, ?_, ?_, ?_, rfl, ?_, ?_⟩⟩
  · rintro s rfl
    have : s + ((i + start : ℕ) : ℤ) = s + start + i := by push_cast; ring
    simp only [vecOne, Option.map_some, this]
    exact ⟨trivial, trivial⟩
  · rintro rfl; exact ⟨rfl, rfl⟩
  · rintro d rfl
    simp only [vecOne, Option.map_some, Nat.add_comm i start, logFile_eq]
  · rintro rfl; rfl
  · simp [vecOne]
  · simp [vecOne]

/-- **C154, nothing shared.** Two environments made by one call, or by two calls with the same seed and folder, have the same seed, or the same log file, exactly if
they have the same number: calls whose ranges of numbers are disjoint share neither. -/
theorem C154_distinct (byName : Bool) (nkw n n' : ℕ) (s : ℤ) (start start' : ℕ) (isdir : ℕ → Bool) (d : List Str) (wrapper : Bool) (i j : ℕ) (a b : Made)
    (ha : (makeVec byName nkw n (some s) start isdir (some d) wrapper)[i]? = some a) (hb : (makeVec byName nkw n' (some s) start' isdir (some d) wrapper)[j]? = some b) :
    (a.seed = b.seed ↔ start + i = start' + j) ∧ (a.actSeed = b.actSeed ↔ start + i = start' + j) ∧ (a.file = b.file ↔ start + i = start' + j) := by
  have get : ∀ (n start i : ℕ) (a : Made), (makeVec byName nkw n (some s) start isdir (some d) wrapper)[i]? = some a →
      a = vecOne byName nkw (some s) isdir (some d) wrapper (i + start) := fun n start i a h => by
    unfold makeVec at h
    rw [List.getElem?_map] at h
    obtain ⟨k, hk, rfl⟩ := Option.map_eq_some_iff.1 h
    have : k = i := by
      obtain ⟨h1, h2⟩ := List.getElem?_eq_some_iff.1 hk
      simpa using h2.symm
    rw [this]
  rw [get n start i a ha, get n' start' j b hb]
  simp only [vecOne, Option.map_some, Option.some.injEq]
  refine ⟨by omega, by omega, fun h => ?_, fun h => ?_⟩
  · have := logFile_inj h; omega
  · rw [show i + start = j + start' by omega]

/-- **C154, Atari and robotics.** `make_atari_env` seeds the global generators with the seed itself and the environments like `make_vec_env`, with different log files, but
does not seed their action spaces. -/
theorem C154_atari (n : ℕ) (s : ℤ) (start : ℕ) (isdir : ℕ → Bool) (dir : Option (List Str)) (byName wrapper : Bool) (nkw : ℕ) :
    (makeAtari n s start isdir dir).1 = s ∧
    (makeAtari n s start isdir dir).2.map Made.seed = (makeVec byName nkw n (some s) start isdir dir wrapper).map Made.seed ∧
    (makeAtari n s start isdir dir).2.map Made.file = (makeVec byName nkw n (some s) start isdir dir wrapper).map Made.file ∧
    (∀ m ∈ (makeAtari n s start isdir dir).2, m.actSeed = none) ∧
    (∀ rank, (makeRobotics s rank isdir dir).1 = s ∧ (makeRobotics s rank isdir dir).2.seed = some s ∧
      (∀ d, dir = some d → ∀ rank', (makeRobotics s rank isdir dir).2.file = (makeRobotics s rank' isdir dir).2.file ↔ rank = rank')) := by
  refine ⟨rfl, ?_, ?_, ?_, fun rank => ⟨rfl, rfl, ?_⟩⟩
  · simp [makeAtari, makeVec, vecOne]
  · simp [makeAtari, makeVec, vecOne]
  · intro m hm
    obtain ⟨i, -, rfl⟩ := List.mem_map.1 hm
    rfl
  · rintro d rfl rank'
    exact ⟨fun h => logFile_inj (Option.some.inj h), fun h => by rw [h]⟩

/-- **C154, MuJoCo (defect).** In all processes `make_mujoco_env` gives the environment the same seed and opens the same log file `0.monitor.csv`; only the global generators differ.
Without a log directory it fails with a `TypeError`, whereas the other functions then write no log. -/
theorem C154_mujoco (s : ℤ) (isdir : ℕ → Bool) (d : List Str) (mpi mpi' : ℕ) :
    (∃ m, makeMujoco mpi s isdir (some d) = .ok (s + 10000 * mpi, m) ∧ makeMujoco mpi' s isdir (some d) = .ok (s + 10000 * mpi', m) ∧ m.seed = some s ∧
      (isdir 0 = false → m.file = some (d, "0.monitor.csv".toList))) ∧
    (mpi ≠ mpi' → s + 10000 * (mpi : ℤ) ≠ s + 10000 * mpi') ∧
    makeMujoco mpi s isdir none = .error .typeError ∧ (makeRobotics s mpi isdir none).2.file = none ∧
    ∀ n start, ∀ m ∈ (makeAtari n s start isdir none).2, m.file = none := by
  refine ⟨⟨_, rfl, rfl, rfl, fun h => ?_⟩, by omega, rfl, rfl, fun n start m hm => ?_⟩
  · show some (logFile isdir d 0) = _
    rw [logFile_eq, h]
    simp [Nat.toDigits, Nat.toDigitsCore, Nat.digitChar]
  · obtain ⟨i, -, rfl⟩ := List.mem_map.1 hm
    rfl

/-- Three environments from number 9 on. -/
example : (makeVec false 2 3 (some 5) 9 (fun _ => false) (some ["logs".toList]) true).map (fun m => (m.seed, m.file)) =
    [(some 14, some (["logs".toList], "9.monitor.csv".toList)), (some 15, some (["logs".toList], "10.monitor.csv".toList)),
     (some 16, some (["logs".toList], "11.monitor.csv".toList))] := by decide +kernel

end Neorl.MakeEnv

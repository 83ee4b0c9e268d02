import Mathlib.Data.List.Perm.Basic
import Mathlib.Data.List.Range
import Mathlib.Data.List.GetD
import Mathlib.Data.List.Nodup
import Mathlib.Tactic.Ring
import Mathlib.Tactic.Linarith

/-!
# Minibatches

`neorl/rl/baselines/shared/dataset.py`: class `Dataset` (lines 4-77) and `iterbatches` (lines 80-101).
A dataset is a list of columns (the values of `data_map`), each with `n` samples; `np.random.shuffle(np.arange(n))` is a list `perm` that is a permutation of `0 .. n-1`.
-/

set_option linter.unusedSectionVars false
set_option linter.unusedVariables false

namespace Neorl.Dataset

variable {α : Type}

/-- Fancy indexing `col[perm]`. -/
def reindex (col : List α) (perm : List ℕ) : List α := perm.filterMap (fun i => col[i]?)

/-- The attributes, lines 14-17. -/
structure Data (α : Type) where
  cols : List (List α)
  shuffle : Bool
  n : ℕ
  nextId : ℕ

/-- `shuffle_dataset`, lines 21-29: the same permutation for every column. -/
def shuffleData (d : Data α) (perm : List ℕ) : Data α := { d with cols := d.cols.map (fun c => reindex c perm) }

/-- `__init__`, lines 5-19. -/
def mk (cols : List (List α)) (shuffle : Bool) (perm : List ℕ) : Data α :=
  let d := { cols := cols, shuffle := shuffle, n := (cols.headD []).length, nextId := 0 }
  if shuffle then shuffleData d perm else d

/-- `next_batch`, lines 31-50: the batch (one slice per column) and the dataset afterwards. -/
def nextBatch (d : Data α) (b : ℕ) (perm : List ℕ) : List (List α) × Data α :=
  let d := if d.nextId ≥ d.n then (if d.shuffle then shuffleData { d with nextId := 0 } perm else { d with nextId := 0 }) else d
  let cur := d.nextId
  let size := min b (d.n - d.nextId)
  (d.cols.map (fun c => (c.drop cur).take size), { d with nextId := d.nextId + size })

/-- The loop of `iterate_once`, lines 62-63; `fuel` bounds the number of rounds. -/
def iterLoop (b : ℕ) (perm : List ℕ) : ℕ → Data α → List (List (List α)) × Data α
  | 0, d => ([], d)
  | fuel + 1, d =>
    if d.nextId + b ≤ d.n then
      let r := nextBatch d b perm
      let rest := iterLoop b perm fuel r.2
      (r.1 :: rest.1, rest.2)
    else ([], d)

/-- `iterate_once`, lines 52-64, run to the end. -/
def iterateOnce (d : Data α) (b : ℕ) (perm perm' : List ℕ) : List (List (List α)) × Data α :=
  let d := if d.shuffle then shuffleData d perm else d
  let r := iterLoop b perm' (d.n + 1) d
  (r.1, { r.2 with nextId := 0 })

/-- `subset`, lines 66-77. -/
def subset (d : Data α) (k : ℕ) (shuffle : Bool) (perm : List ℕ) : Data α := mk (d.cols.map (fun c => c.take k)) shuffle perm

/-! ### `iterbatches` -/

/-- `np.split` at the given indices, starting at `start`. -/
def splitAtIdx (l : List ℕ) : ℕ → List ℕ → List (List ℕ)
  | start, [] => [l.drop start]
  | start, i :: is => ((l.drop start).take (i - start)) :: splitAtIdx l i is

/-- `np.array_split(l, sections)` with a list of indices. -/
def arraySplitAt (l : List ℕ) (idx : List ℕ) : List (List ℕ) := splitAtIdx l 0 idx

/-- `np.arange(0, n, b)[1:]` for `b > 0`. -/
def cuts (n b : ℕ) : List ℕ := ((List.range ((n + b - 1) / b)).map (fun i => i * b)).tail

/-- The cut points of `np.array_split(l, k)` for an integer `k > 0`: `n % k` parts of size `n / k + 1`, the others of size `n / k`. -/
def evenCuts (n k : ℕ) : List ℕ := (List.range (k - 1)).map (fun i => (i + 1) * (n / k) + min (i + 1) (n % k))

/-- `iterbatches`, lines 80-101, for arrays of equal length `n` (asserted in line 94); exactly one of `numBatches`, `batchSize` is given. -/
def iterbatches (arrays : List (List α)) (n : ℕ) (numBatches batchSize : Option ℕ) (inclPartial : Bool) (inds : List ℕ) : List (List (List α)) :=
  let parts := match numBatches, batchSize with
    | some k, _ => arraySplitAt inds (evenCuts n k)
    | none, some b => arraySplitAt inds (cuts n b)
    | none, none => []
  (parts.filter (fun p => inclPartial || decide (batchSize = some p.length))).map (fun p => arrays.map (fun a => reindex a p))

end Neorl.Dataset

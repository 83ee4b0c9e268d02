import Verif.Py
import Mathlib.Data.List.Lex
import Mathlib.Data.Char
import Mathlib.Data.List.Dedup

/-!
# The training log: console table, JSON, CSV and TensorBoard

Model of `neorl/rl/baselines/shared/logger.py` lines 53-245 (output formats), 457-516 (class `Logger`) and 707-745 (`read_tb`).
Numbers are taken from an ordered field (no rounding), text is a list of characters, a dictionary is the list of its items in insertion order.
How a value is printed (`str`, `'%-8.3g'`) and whether a text is a numeral are parameters (`Env`), so is the order in which Python walks through a set.
Files are written by the logger alone; carriage returns, which text mode would translate, do not occur.  `writeseq` and the clock are not modelled; `configure` and closing are in the model of the current logger.
-/

set_option linter.unusedSectionVars false
set_option linter.unusedVariables false

namespace Neorl.TextLog

variable {K : Type} [Field K] [LinearOrder K] [IsStrictOrderedRing K]

/-- Text. -/
abbrev Str := List Char

/-- A logged value: a Python number, `None`, a text, a numpy array or scalar (shape and entries in C order), or nested lists (`value.tolist()`). -/
inductive Val (K : Type)
  | num (x : K)
  | none
  | text (s : Str)
  | arr (shape : List ℕ) (data : List K)
  | list (shape : List ℕ) (data : List K)

/-- A dictionary with text keys: its items in insertion order. -/
abbrev Dict (V : Type) := List (Str × V)

/-- `d.get(key)`. -/
def get {V : Type} : Dict V → Str → Option V
  | [], _ => .none
  | (a, v) :: r, k => if a = k then some v else get r k

/-- `d[key] = val`: an existing key keeps its place, a new one goes last. -/
def put {V : Type} : Dict V → Str → V → Dict V
  | [], k, v => [(k, v)]
  | (a, w) :: r, k, v => if a = k then (a, v) :: r else (a, w) :: put r k v

/-- `sorted(d.items())`; keys are distinct, so only the keys are compared. -/
def sorted {V : Type} (d : Dict V) : Dict V := d.mergeSort fun a b => decide (a.1 ≤ b.1)

/-- What is left to Python: printing for the table (lines 72-75), `str` (line 184), `float` of a text (line 212), the order of a set (line 166). -/
structure Env (K : Type) where
  human : Val K → Str
  str : Val K → Str
  parse : Str → Option K
  ord : List Str → List Str

/-! ### The console table, lines 68-104 -/

/-- `_truncate`, lines 103-104. -/
def truncate (s : Str) : Str := if s.length > 23 then s.take 20 ++ "...".toList else s

/-- `key2str`, lines 70-76. -/
def key2str (E : Env K) (kvs : Dict (Val K)) : Dict Str :=
  (sorted kvs).foldl (fun d kv => put d (truncate kv.1) (truncate (E.human kv.2))) []

/-- `max(map(len, l))`, lines 83-84. -/
def width (l : List Str) : ℕ := l.foldr (fun s m => max s.length m) 0

/-- One line `'| %s%s | %s%s |'`, lines 90-95. -/
def tableRow (kw vw : ℕ) (k v : Str) : Str :=
  "| ".toList ++ k ++ List.replicate (kw - k.length) ' ' ++ " | ".toList ++ v ++ List.replicate (vw - v.length) ' ' ++ " |".toList

/-- The lines of the table, lines 78-96; an empty dictionary gives a warning and nothing else. -/
def table (E : Env K) (kvs : Dict (Val K)) : List Str :=
  let d := key2str E kvs
  if d = [] then [] else
    let kw := width (d.map Prod.fst)
    let vw := width (d.map Prod.snd)
    let dashes := List.replicate (kw + vw + 7) '-'
    dashes :: (sorted d).map (fun kv => tableRow kw vw kv.1 kv.2) ++ [dashes]

/-! ### JSON, lines 132-142 -/

/-- Lines 134-140: what an array is replaced by; `float` of an array with several entries is a `TypeError`. -/
def conv : Val K → Py (Val K)
  | .arr sh d => if sh = [] ∨ sh.head? = some 1 then (match d with | [x] => .ok (.num x) | _ => .error .typeError) else .ok (.list sh d)
  | v => .ok v

/-- The loop of lines 133-140; it assigns to the dictionary it was given. -/
def convLoop : Dict (Val K) → Dict (Val K) → Dict (Val K) × Option PyErr
  | [], d => (d, .none)
  | (k, .arr sh x) :: r, d =>
    match conv (.arr sh x) with
    | .error e => (d, some e)
    | .ok v => convLoop r (put d k v)
  | _ :: r, d => convLoop r d

/-! ### CSV, lines 151-186 -/

/-- A text file opened for reading and writing: its contents and the position. -/
structure File where
  text : Str
  pos : ℕ

/-- `file.write(t)`: overwrites from the position on. -/
def File.write (f : File) (t : Str) : File :=
  { text := f.text.take f.pos ++ t ++ f.text.drop (f.pos + t.length), pos := f.pos + t.length }

/-- `file.readlines()` from the beginning: every line keeps its newline. -/
def readlines : Str → List Str
  | [] => []
  | c :: r => if c = '\n' then ['\n'] :: readlines r else
      match readlines r with
      | [] => [[c]]
      | l :: ls => (c :: l) :: ls

/-- Entries separated by commas, lines 171-174 and 179-184. -/
def commas (l : List Str) : Str := List.intercalate [','] l

/-- Lines 180-184: the text under a column; nothing for `None` and for a key that was not logged. -/
def cell (E : Env K) (kvs : Dict (Val K)) (k : Str) : Str :=
  match get kvs k with
  | some .none => []
  | some v => E.str v
  | .none => []

/-- The new text of the file when columns are added, lines 168-178. -/
def rewrite (keys : List Str) (added : ℕ) (old : Str) : Str :=
  commas keys ++ ['\n'] ++ ((readlines old).drop 1).flatMap (fun l => l.dropLast ++ List.replicate added ',' ++ ['\n'])

/-- `CSVOutputFormat.writekvs`, lines 162-186. -/
def csvWrite (E : Env K) (keys : List Str) (f : File) (kvs : Dict (Val K)) : List Str × File :=
  let extra := E.ord ((kvs.map Prod.fst).filter fun k => decide (k ∉ keys))
  let keys' := keys ++ extra
  let f' := if extra = [] then f else { f with pos := 0 }.write (rewrite keys' extra.length f.text)
  (keys', (f'.write (commas (keys'.map (cell E kvs)))).write ['\n'])

/-! ### TensorBoard, lines 195-240 and 707-745 -/

/-- `float(value)`, lines 200, 212. -/
def floatOf (E : Env K) : Val K → Py K
  | .num x => .ok x
  | .none => .error .typeError
  | .text s => match E.parse s with | some x => .ok x | .none => .error .valueError
  | .arr _ d => match d with | [x] => .ok x | _ => .error .typeError
  | .list _ _ => .error .typeError

/-- The summary of line 233: `valid_float_value` (lines 204-215) only catches `TypeError`. -/
def summary (E : Env K) : Dict (Val K) → Py (List (Str × K))
  | [] => .ok []
  | (k, v) :: r =>
    match floatOf E v with
    | .ok x => (match summary E r with | .ok l => .ok ((k, x) :: l) | .error e => .error e)
    | .error .typeError => summary E r
    | .error e => .error e

/-- An event: its step and its values. -/
abbrev Event (K : Type) := ℕ × List (Str × K)

/-- `tag2pairs[tag]` after lines 728-735: the values of a tag with their steps, in the order of the files and events. -/
def pairs (evs : List (Event K)) (t : Str) : List (ℕ × K) :=
  evs.flatMap fun e => if e.1 > 0 then (e.2.filter fun p => decide (p.1 = t)).map fun p => (e.1, p.2) else []

/-- `sorted(tag2pairs.keys())`, line 738. -/
def tags (evs : List (Event K)) : List Str :=
  ((evs.flatMap fun e => if e.1 > 0 then e.2.map Prod.fst else []).dedup).mergeSort fun a b => decide (a ≤ b)

/-- `maxstep`, lines 727-735. -/
def maxstep (evs : List (Event K)) : ℕ := evs.foldl (fun m e => if e.1 > 0 then max e.1 m else m) 0

/-- `read_tb`, lines 723-745: a row per step and a column per tag; `none` is `nan`; of several assignments to a cell the last one counts. -/
def readTb (files : List (List (Event K))) : List Str × List (List (Option K)) :=
  let evs := files.flatten
  (tags evs, (List.range (maxstep evs)).map fun i => (tags evs).map fun t =>
    (((pairs evs t).reverse.find? fun p => decide (p.1 = i + 1)).map Prod.snd))

/-! ### The logger, lines 457-516 -/

/-- An output format with what it has written: lines of the table, one dictionary per JSON line, the CSV file with its columns, the events with the next step. -/
inductive Fmt (K : Type)
  | human (out : List Str)
  | json (out : List (Dict (Val K)))
  | csv (keys : List Str) (file : File)
  | tb (step : ℕ) (events : List (Event K))

/-- `fmt.writekvs(kvs)`: the format afterwards, the dictionary afterwards, the exception if any. -/
def Fmt.write (E : Env K) (kvs : Dict (Val K)) : Fmt K → Fmt K × Dict (Val K) × Option PyErr
  | .human out => (.human (out ++ table E kvs), kvs, .none)
  | .json out =>
    match convLoop (sorted kvs) kvs with
    | (d, some e) => (.json out, d, some e)
    | (d, .none) => (.json (out ++ [d]), d, .none)
  | .csv keys f => (.csv (csvWrite E keys f kvs).1 (csvWrite E keys f kvs).2, kvs, .none)
  | .tb step evs =>
    match summary E kvs with
    | .ok l => (.tb (step + 1) (evs ++ [(step, l)]), kvs, .none)
    | .error e => (.tb step evs, kvs, some e)

/-- The loop of lines 510-512. -/
def writeAll (E : Env K) : List (Fmt K) → Dict (Val K) → List (Fmt K) × Dict (Val K) × Option PyErr
  | [], d => ([], d, .none)
  | f :: fs, d =>
    match f.write E d with
    | (f', d', some e) => (f' :: fs, d', some e)
    | (f', d', .none) => (f' :: (writeAll E fs d').1, (writeAll E fs d').2)

/-- The attributes of `Logger`, lines 471-475. -/
structure Logger (K : Type) where
  val : Dict (Val K)
  cnt : Dict ℕ
  level : ℕ
  fmts : List (Fmt K)

/-- `Logger.__init__`, lines 464-475. -/
def start (fmts : List (Fmt K)) : Logger K := { val := [], cnt := [], level := 20, fmts := fmts }

/-- `logkv`, lines 479-488. -/
def logkv (s : Logger K) (k : Str) (v : Val K) : Logger K := { s with val := put s.val k v }

/-- Line 501. -/
def blend (c : ℕ) (o x : K) : K := o * c / (c + 1) + x / (c + 1)

/-- `logkv_mean`, lines 490-502, for a number or `None`; `defaultdict` supplies 0 for a key that is not there. -/
def logkvMean (s : Logger K) (k : Str) : Option K → Py (Logger K)
  | .none => .ok { s with val := put s.val k .none }
  | some x =>
    let c := (get s.cnt k).getD 0
    match (get s.val k).getD (.num 0) with
    | .num o => .ok { s with val := put s.val k (.num (blend c o x)), cnt := put s.cnt k (c + 1) }
    | .arr sh d => .ok { s with val := put s.val k (.arr sh (d.map fun o => blend c o x)), cnt := put s.cnt k (c + 1) }
    | _ => .error .typeError

/-- `dumpkvs`, lines 504-514 (`DISABLED` is 50). -/
def dump (E : Env K) (s : Logger K) : Logger K × Option PyErr :=
  if s.level = 50 then (s, .none) else
    match writeAll E s.fmts s.val with
    | (fs, d, some e) => ({ s with fmts := fs, val := d }, some e)
    | (fs, d, .none) => ({ s with fmts := fs, val := [], cnt := [] }, .none)

/-- A call of the logging functions. -/
inductive Op (K : Type)
  | log (k : Str) (v : Val K)
  | mean (k : Str) (x : Option K)

/-- The key an operation is about. -/
def Op.key : Op K → Str
  | .log k _ => k
  | .mean k _ => k

/-- One call. -/
def step (s : Logger K) : Op K → Py (Logger K)
  | .log k v => .ok (logkv s k v)
  | .mean k x => logkvMean s k x

/-- A sequence of calls. -/
def calls : Logger K → List (Op K) → Py (Logger K)
  | s, [] => .ok s
  | s, o :: r => match step s o with | .ok s' => calls s' r | .error e => .error e

/-! ### Lemmas on dictionaries -/

theorem get_put_self {V : Type} (d : Dict V) (k : Str) (v : V) : get (put d k v) k = some v := by
  induction d with
  | nil => simp [put, get]
  | cons a r ih =>
    obtain ⟨a, w⟩ := a
    by_cases h : a = k <;> simp [put, get, h, ih]

theorem get_put_ne {V : Type} (d : Dict V) {k j : Str} (v : V) (h : j ≠ k) : get (put d k v) j = get d j := by
  induction d with
  | nil => simp [put, get, Ne.symm h]
  | cons a r ih =>
    obtain ⟨a, w⟩ := a
    by_cases h1 : a = k
    · subst h1; simp [put, get, Ne.symm h]
    · by_cases h2 : a = j
      · subst h2; simp [put, get, h1]
      · simp [put, get, h1, h2, ih]

theorem get_none {V : Type} {d : Dict V} {k : Str} : get d k = none ↔ k ∉ d.map Prod.fst := by
  induction d with
  | nil => simp [get]
  | cons a r ih =>
    obtain ⟨a, w⟩ := a
    by_cases h : a = k
    · simp [get, h]
    · simp only [get, h, if_false, ih, List.map_cons, List.mem_cons]
      simp [Ne.symm h]

theorem get_mem {V : Type} {d : Dict V} (hd : (d.map Prod.fst).Nodup) {k : Str} {v : V} : get d k = some v ↔ (k, v) ∈ d := by
  induction d with
  | nil => simp [get]
  | cons a r ih =>
    obtain ⟨a, w⟩ := a
    simp only [List.map_cons, List.nodup_cons] at hd
    by_cases h : a = k
    · subst h
      simp only [get, if_true, Option.some.injEq, List.mem_cons, Prod.mk.injEq, true_and]
      constructor
      · intro h; exact .inl h.symm
      · rintro (h | h)
        · exact h.symm
        · exact absurd (List.mem_map_of_mem (f := Prod.fst) h) hd.1
    · simp only [get, h, if_false, ih hd.2, List.mem_cons, Prod.mk.injEq]
      simp [Ne.symm h]

theorem put_keys {V : Type} (d : Dict V) (k : Str) (v : V) : (put d k v).map Prod.fst = if k ∈ d.map Prod.fst then d.map Prod.fst else d.map Prod.fst ++ [k] := by
  induction d with
  | nil => simp [put]
  | cons a r ih =>
    obtain ⟨a, w⟩ := a
    by_cases h : a = k
    · subst h; simp [put]
    · simp only [put, h, if_false, List.map_cons, ih, List.mem_cons, Ne.symm h, false_or]
      split <;> simp

theorem put_nodup {V : Type} {d : Dict V} (hd : (d.map Prod.fst).Nodup) (k : Str) (v : V) : ((put d k v).map Prod.fst).Nodup := by
  rw [put_keys]
  split
  · exact hd
  · rename_i h
    refine List.Nodup.append hd (by simp) ?_
    intro x hx hx'
    simp only [List.mem_singleton] at hx'
    exact h (hx' ▸ hx)

theorem sorted_perm {V : Type} (d : Dict V) : (sorted d).Perm d := List.mergeSort_perm _ _

theorem sorted_keys {V : Type} (d : Dict V) : ((sorted d).map Prod.fst).Perm (d.map Prod.fst) := (sorted_perm d).map _

theorem sorted_sorted {V : Type} (d : Dict V) : (sorted d).Pairwise fun a b => a.1 ≤ b.1 := by
  have := List.pairwise_mergeSort (le := fun a b : Str × V => decide (a.1 ≤ b.1)) (by
    intro a b c h1 h2; simp only [decide_eq_true_eq] at *; exact le_trans h1 h2) (by
    intro a b; simp only [Bool.or_eq_true, decide_eq_true_eq]; exact le_total _ _) d
  simpa [sorted] using this

/-! ### Lemmas on files -/

theorem File.write_end (f : File) (h : f.pos = f.text.length) (t : Str) : f.write t = ⟨f.text ++ t, (f.text ++ t).length⟩ := by
  simp [File.write, h]

theorem readlines_line (l : Str) (h : '\n' ∉ l) (r : Str) : readlines (l ++ '\n' :: r) = (l ++ ['\n']) :: readlines r := by
  induction l with
  | nil => simp [readlines]
  | cons c l ih =>
    simp only [List.mem_cons, not_or] at h
    simp only [List.cons_append, readlines, Ne.symm h.1, if_false, ih h.2]

/-- Lines of text, each ended by a newline. -/
def unlines (ls : List Str) : Str := ls.flatMap fun l => l ++ ['\n']

theorem readlines_unlines (ls : List Str) (h : ∀ l ∈ ls, '\n' ∉ l) : readlines (unlines ls) = ls.map fun l => l ++ ['\n'] := by
  induction ls with
  | nil => rfl
  | cons l ls ih =>
    have e : unlines (l :: ls) = l ++ '\n' :: unlines ls := by simp [unlines]
    rw [e, readlines_line l (h l (by simp)), ih fun l hl => h l (by simp [hl])]
    rfl

theorem unlines_cons (l : Str) (ls : List Str) : unlines (l :: ls) = l ++ ['\n'] ++ unlines ls := by simp [unlines]

theorem unlines_append (a b : List Str) : unlines (a ++ b) = unlines a ++ unlines b := by simp [unlines]

theorem commas_cons (a : Str) {l : List Str} (h : l ≠ []) : commas (a :: l) = a ++ ',' :: commas l := by
  cases l with
  | nil => exact absurd rfl h
  | cons b l => simp [commas, List.intercalate, List.intersperse]

theorem commas_single (a : Str) : commas [a] = a := by simp [commas, List.intercalate]

theorem commas_pad {l : List Str} (h : l ≠ []) (n : ℕ) : commas (l ++ List.replicate n []) = commas l ++ List.replicate n ',' := by
  induction l with
  | nil => exact absurd rfl h
  | cons a l ih =>
    rcases eq_or_ne l [] with rfl | hl
    · clear ih h
      induction n generalizing a with
      | zero => simp
      | succ n ih =>
        rw [List.replicate_succ, List.cons_append, List.nil_append, commas_cons _ (by simp)]
        have := ih []
        rw [List.cons_append, List.nil_append] at this
        rw [this, commas_single, commas_single]
        simp [List.replicate_succ]
    · rw [List.cons_append, commas_cons _ (by simp [hl]), ih hl, commas_cons _ hl]
      simp

theorem mem_commas {l : List Str} {c : Char} (h : c ∈ commas l) : c = ',' ∨ ∃ s ∈ l, c ∈ s := by
  induction l with
  | nil => simp [commas, List.intercalate] at h
  | cons a l ih =>
    rcases eq_or_ne l [] with rfl | hl
    · rw [commas_single] at h
      exact .inr ⟨a, by simp, h⟩
    · rw [commas_cons _ hl, List.mem_append, List.mem_cons] at h
      rcases h with h | h | h
      · exact .inr ⟨a, by simp, h⟩
      · exact .inl h
      · rcases ih h with h | ⟨s, hs, hc⟩
        · exact .inl h
        · exact .inr ⟨s, by simp [hs], hc⟩

theorem commas_length_le {l m : List Str} : (commas l).length ≤ (commas (l ++ m)).length := by
  induction l with
  | nil => simp [commas, List.intercalate]
  | cons a l ih =>
    rcases eq_or_ne l [] with rfl | hl
    · rcases eq_or_ne m [] with rfl | hm
      · simp
      · rw [List.singleton_append, commas_cons _ hm, commas_single]; simp
    · rw [List.cons_append, commas_cons a (l := l ++ m) (by simp [hl]), commas_cons a hl]
      simpa using ih

end Neorl.TextLog

import Verif.Py
import Verif.InputFile
import Mathlib.Algebra.Order.Ring.Nat
import Mathlib.Data.Nat.Sqrt
import Mathlib.Data.List.OfFn
import Mathlib.Data.Fintype.BigOperators
import Mathlib.Logic.Function.Basic

/-!
# Attributes, structured observations, images and construction of vectors of environments

Model of the parts of `neorl/rl/baselines/shared/vec_env/` that the module on `VecEnv` leaves out:

* `get_attr`, `set_attr`, `env_method` of `DummyVecEnv` (dummy_vec_env.py lines 99-117) and `SubprocVecEnv` (subproc_vec_env.py lines 12-49, 145-176), `_get_indices` (base_vec_env.py lines 201-212), with the processes in any
  interleaving.  A call on an environment is a function from its state to the new state and the answer, and does not raise;
* `obs_space_info`, `dict_to_obs` (util.py), `_save_obs`, `_obs_from_buf` (dummy_vec_env.py lines 89-97) and `_flatten_obs` (subproc_vec_env.py lines 179-206) for one entry per space; `cast` is the conversion to the type of the buffer;
* the attributes of wrappers: `__getattr__`, `getattr_recursive`, `getattr_depth_check` (base_vec_env.py lines 189-199, 262-319) and of `_UnvecWrapper` (`shared/base_class.py` lines 1072-1084).  A layer is what `name in all_attributes` and
  `getattr` say about it;
* `tile_images` (tile_images.py) on flat arrays;
* `make_vec_env` (cmd_util.py lines 18-72).
-/

set_option linter.unusedSectionVars false
set_option linter.unusedVariables false

namespace Neorl.VecAttr

open Neorl.InputFile (Str)

/-! ### Which environments -/

/-- The argument `indices`; `other` is an integer of NumPy, which is no `int`. -/
inductive Idx
  | all | int (i : ℤ) | list (l : List ℤ) | other

/-- `_get_indices`, base_vec_env.py lines 201-212, and the iteration over the result. -/
def getIndices (n : ℕ) : Idx → Py (List ℤ)
  | .all => .ok ((List.range n).map fun (i : ℕ) => (i : ℤ))
  | .int i => .ok [i]
  | .list l => .ok l
  | .other => .error .typeError

/-- Indexing a list or tuple of length `n`. -/
def resolve (n : ℕ) (i : ℤ) : Py (Fin n) :=
  if h : 0 ≤ i ∧ i < n then .ok ⟨i.toNat, by omega⟩
  else if h : -n ≤ i ∧ i < 0 then .ok ⟨(i + n).toNat, by omega⟩
  else .error .indexError

def resolveAll (n : ℕ) : List ℤ → Py (List (Fin n))
  | [] => .ok []
  | i :: t =>
    match resolve n i with
    | .error e => .error e
    | .ok k =>
      match resolveAll n t with
      | .error e => .error e
      | .ok ks => .ok (k :: ks)

/-- `_get_target_envs`, dummy_vec_env.py lines 115-117; `_get_target_remotes`, subproc_vec_env.py lines 167-176. -/
def targets (n : ℕ) (idx : Idx) : Py (List (Fin n)) :=
  match getIndices n idx with
  | .error e => .error e
  | .ok l => resolveAll n l

/-! ### `DummyVecEnv` -/

section Calls
variable {S R : Type} {n : ℕ}

/-- One call after the other, dummy_vec_env.py lines 102, 107-108, 113. -/
def dummyLoop (f : S → S × R) : List (Fin n) → (Fin n → S) → (Fin n → S) × List R
  | [], σ => (σ, [])
  | i :: t, σ => let r := dummyLoop f t (Function.update σ i (f (σ i)).1); (r.1, (f (σ i)).2 :: r.2)

/-- `get_attr`, `set_attr` and `env_method` of `DummyVecEnv`, lines 99-113. -/
def dummyCall (f : S → S × R) (idx : Idx) (σ : Fin n → S) : Py ((Fin n → S) × List R) :=
  match targets n idx with
  | .error e => .error e
  | .ok ts => .ok (dummyLoop f ts σ)

/-! ### `SubprocVecEnv` -/

/-- What the main program does on the pipes; a message is what the worker will do with its environment (subproc_vec_env.py lines 15-45). -/
inductive Op (n : ℕ) (S R : Type)
  | send (i : Fin n) (f : S → S × R)
  | recv (i : Fin n)

/-- A process: its environment and the two queues of its pipe. -/
structure Worker (S R : Type) where
  s : S
  inbox : List (S → S × R)
  outbox : List R

/-- The whole system: the processes, what the main program still has to do, and what it has received. -/
structure Sys (n : ℕ) (S R : Type) where
  ws : Fin n → Worker S R
  ops : List (Op n S R)
  log : List R

/-- One step of the main program or of one process. -/
inductive Step : Sys n S R → Sys n S R → Prop
  | send (ws : Fin n → Worker S R) (log : List R) (i : Fin n) (f : S → S × R) (ops : List (Op n S R)) :
      Step ⟨ws, .send i f :: ops, log⟩ ⟨Function.update ws i { ws i with inbox := (ws i).inbox ++ [f] }, ops, log⟩
  | recv (ws : Fin n → Worker S R) (log : List R) (i : Fin n) (r : R) (out : List R) (ops : List (Op n S R)) (hr : (ws i).outbox = r :: out) :
      Step ⟨ws, .recv i :: ops, log⟩ ⟨Function.update ws i { ws i with outbox := out }, ops, log ++ [r]⟩
  | work (ws : Fin n → Worker S R) (ops : List (Op n S R)) (log : List R) (i : Fin n) (f : S → S × R) (rest : List (S → S × R)) (h : (ws i).inbox = f :: rest) :
      Step ⟨ws, ops, log⟩ ⟨Function.update ws i { s := (f (ws i).s).1, inbox := rest, outbox := (ws i).outbox ++ [(f (ws i).s).2] }, ops, log⟩

/-- Any number of steps. -/
inductive Steps : Sys n S R → Sys n S R → Prop
  | refl (y : Sys n S R) : Steps y y
  | tail {y z w : Sys n S R} (h : Steps y z) (s : Step z w) : Steps y w

/-- `get_attr`, `set_attr`, `env_method`, lines 145-165: send to all targets, then receive from all. -/
def callOps (f : S → S × R) (ts : List (Fin n)) : List (Op n S R) := ts.map (fun i => .send i f) ++ ts.map .recv

/-- `step_async`, lines 103-106: `fs i` is what the worker does for the action of environment `i`. -/
def stepAsync (fs : Fin n → S → S × R) : List (Op n S R) := (List.finRange n).map fun i => .send i (fs i)

/-- `[remote.recv() for remote in self.remotes]`, lines 109. -/
def recvAll : List (Op n S R) := (List.finRange n).map .recv

/-- No pending messages. -/
def idle (σ : Fin n → S) (ops : List (Op n S R)) : Sys n S R := ⟨fun i => ⟨σ i, [], []⟩, ops, []⟩

end Calls

/-! ### Structured observations -/

section Structured
variable {Key V : Type} [DecidableEq Key]

/-- The observation spaces: `Dict` with its keys, `Tuple` with its length, or unstructured. -/
inductive Space (Key : Type)
  | dict (keys : List Key) | tuple (k : ℕ) | plain

/-- An observation of one environment. -/
inductive Obs (Key V : Type)
  | dict (l : List (Key × V)) | tuple (l : List V) | plain (v : V)

/-- The observations of all environments. -/
inductive Batch (Key V : Type)
  | dict (l : List (Key × List V)) | tuple (l : List (List V)) | plain (l : List V)
deriving DecidableEq

/-- The keys of the buffers. -/
inductive BufKey (Key : Type)
  | name (k : Key) | pos (i : ℕ) | none
deriving DecidableEq

/-- `obs_space_info`, util.py lines 44-74: the keys. -/
def spaceKeys : Space Key → List (BufKey Key)
  | .dict keys => keys.map .name
  | .tuple k => (List.range k).map .pos
  | .plain => [.none]

/-- `obs` or `obs[key]`, dummy_vec_env.py lines 91-94. -/
def entry (o : Obs Key V) : BufKey Key → Py V
  | .none =>
    match o with
    | .plain v => .ok v
    | _ => .error .valueError
  | .name k =>
    match o with
    | .dict l => match l.lookup k with | some v => .ok v | none => .error .keyError
    | _ => .error .typeError
  | .pos i =>
    match o with
    | .tuple l => match l[i]? with | some v => .ok v | none => .error .indexError
    | .dict _ => .error .keyError
    | .plain _ => .error .typeError

/-- The buffers: one row of entries, for all environments, under every key. -/
abbrev Buf (Key V : Type) := List (BufKey Key × List V)

/-- `_save_obs`, lines 89-94. -/
def saveObs (cast : BufKey Key → V → V) (idx : ℕ) (o : Obs Key V) : Buf Key V → Py (Buf Key V)
  | [] => .ok []
  | (k, row) :: t =>
    match entry o k with
    | .error e => .error e
    | .ok v =>
      match saveObs cast idx o t with
      | .error e => .error e
      | .ok t' => .ok ((k, row.set idx (cast k v)) :: t')

/-- The loop of `reset`, lines 60-62, over the observations of the environments. -/
def saveAll (cast : BufKey Key → V → V) : ℕ → List (Obs Key V) → Buf Key V → Py (Buf Key V)
  | _, [], b => .ok b
  | i, o :: t, b =>
    match saveObs cast i o b with
    | .error e => .error e
    | .ok b' => saveAll cast (i + 1) t b'

/-- `dict_to_obs`, util.py lines 22-41. -/
def dictToObs (sp : Space Key) (b : Buf Key V) : Py (Batch Key V) :=
  match sp with
  | .dict keys => .ok (.dict (b.filterMap fun p => match p.1 with | .name k => some (k, p.2) | _ => none))
  | .tuple k =>
    if b.length = k then
      match (List.range k).mapM fun i => b.lookup (.pos i) with
      | some l => .ok (.tuple l)
      | none => .error .keyError
    else .error .assertion
  | .plain =>
    match b with
    | [(.none, l)] => .ok (.plain l)
    | _ => .error .assertion

/-- `DummyVecEnv`: the buffers of lines 29-31 (filled with `v0`), `_save_obs` for every environment, `_obs_from_buf`. -/
def dummyObs (cast : BufKey Key → V → V) (v0 : V) (sp : Space Key) (obs : List (Obs Key V)) : Py (Batch Key V) :=
  match saveAll cast 0 obs ((spaceKeys sp).map fun k => (k, List.replicate obs.length v0)) with
  | .error e => .error e
  | .ok b => dictToObs sp b

/-- `np.stack([o[k] for o in obs])`. -/
def column (k : BufKey Key) : List (Obs Key V) → Py (List V)
  | [] => .ok []
  | o :: t =>
    match entry o k with
    | .error e => .error e
    | .ok v =>
      match column k t with
      | .error e => .error e
      | .ok l => .ok (v :: l)

/-- The columns of several keys. -/
def columns : List (BufKey Key) → List (Obs Key V) → Py (List (List V))
  | [], _ => .ok []
  | k :: t, obs =>
    match column k obs with
    | .error e => .error e
    | .ok c =>
      match columns t obs with
      | .error e => .error e
      | .ok cs => .ok (c :: cs)

/-- `_flatten_obs`, subproc_vec_env.py lines 179-206. -/
def flattenObs (sp : Space Key) (obs : List (Obs Key V)) : Py (Batch Key V) :=
  match obs with
  | [] => .error .assertion
  | o :: _ =>
    match sp, o with
    | .dict keys, .dict _ =>
      match columns (keys.map .name) obs with
      | .error e => .error e
      | .ok cs => .ok (.dict (keys.zip cs))
    | .dict _, _ => .error .assertion
    | .tuple k, .tuple _ =>
      match columns ((List.range k).map .pos) obs with
      | .error e => .error e
      | .ok cs => .ok (.tuple cs)
    | .tuple _, _ => .error .assertion
    | .plain, _ =>
      match column .none obs with
      | .error e => .error e
      | .ok c => .ok (.plain c)

end Structured

/-! ### Attributes of wrappers -/

section Wrappers
variable {Name V : Type}

/-- `getattr_depth_check`, base_vec_env.py lines 189-199 and 303-319: wrappers from the outside in, then the vector itself; the number of the layer that is hidden. -/
def depthCheck (base : Name → Option V) (name : Name) : List (Name → Option V) → ℕ → Bool → Option ℕ
  | [], i, found => if (base name).isSome && found then some i else none
  | w :: ws, i, found =>
    if (w name).isSome && found then some i
    else if (w name).isSome && !found then depthCheck base name ws (i + 1) true
    else depthCheck base name ws (i + 1) found

/-- `getattr_recursive`, lines 285-301. -/
def getRecursive (base : Name → Option V) (name : Name) : List (Name → Option V) → Py V
  | [] => match base name with | some v => .ok v | none => .error .attributeError
  | w :: ws => match w name with | some v => .ok v | none => getRecursive base name ws

/-- Reading an attribute of a wrapper: its own, else `__getattr__`, lines 262-274. -/
def getAttr (base : Name → Option V) (ws : List (Name → Option V)) (name : Name) : Py V :=
  match ws with
  | [] => match base name with | some v => .ok v | none => .error .attributeError
  | w :: _ =>
    match w name with
    | some v => .ok v
    | none => if (depthCheck base name ws 0 false).isSome then .error .attributeError else getRecursive base name ws

/-- `_UnvecWrapper.__getattr__`, base_class.py lines 1075-1078: from the vector, `venv`. -/
def unvecGet (own venv : Name → Option V) (name : Name) : Py V :=
  match own name with
  | some v => .ok v
  | none => match venv name with | some v => .ok v | none => .error .attributeError

/-- An assignment to an attribute of `_UnvecWrapper`: `__set_attr__` (lines 1080-1084) is not a name that Python calls, so that the attribute of the wrapper itself is set. -/
def unvecSet [DecidableEq Name] (own venv : Name → Option V) (name : Name) (v : V) : (Name → Option V) × (Name → Option V) :=
  (fun m => if m = name then some v else own m, venv)

end Wrappers

/-! ### `tile_images` -/

/-- `int(np.ceil(np.sqrt(n)))`, tile_images.py line 17. -/
def tileHeight (n : ℕ) : ℕ := if Nat.sqrt n * Nat.sqrt n = n then Nat.sqrt n else Nat.sqrt n + 1

/-- `int(np.ceil(float(n) / new_height))`, line 19. -/
def tileWidth (n : ℕ) : ℕ := (n + tileHeight n - 1) / tileHeight n

/-- Lines 20-27: the entry of the result at a flat position; `flat` are the entries of the images one after the other, `h`, `w`, `c` their shape.  The positions are those of an array of shape `(H, h, W, w, c)`; `transpose(0, 2, 1, 3, 4)`
has exchanged the second and third axis of an array of shape `(H, W, h, w, c)`. -/
def tileFlat {V : Type} (zero : V) (n h w c : ℕ) (flat : ℕ → V) (p : ℕ) : V :=
  let W := tileWidth n
  let e := p % c
  let d := p / c % w
  let b := p / c / w % W
  let a := p / c / w / W % h
  let q := p / c / w / W / h
  let src := (((q * W + b) * h + a) * w + d) * c + e
  if src < n * (h * w * c) then flat src else zero

/-- `tile_images`: the result as an array of shape `(H * h, W * w, c)`; without images there is no shape to unpack (line 15). -/
def tileImages {V : Type} (zero : V) (n h w c : ℕ) (img : ℕ → ℕ → ℕ → ℕ → V) : Py ((ℕ × ℕ × ℕ) × (ℕ → ℕ → ℕ → V)) :=
  if n = 0 then .error .valueError
  else
    let flat := fun p => img (p / c / w / h) (p / c / w % h) (p / c % w) (p % c)
    .ok ((tileHeight n * h, tileWidth n * w, c), fun r s e => tileFlat zero n h w c flat ((r * (tileWidth n * w) + s) * c + e))

/-! ### `make_vec_env` -/

/-- How an environment of the vector is made: from an id or a class with keywords, with a seed and a file for its monitor. -/
structure Made (Kw : Type) where
  kwargs : Option Kw
  seed : Option ℤ
  file : Option (Str × Str)
deriving DecidableEq

/-- `make_env(rank)()`, cmd_util.py lines 43-65; `byId`: `env_id` is a string.  The path is the directory and the name in it. -/
def makeEnv {Kw : Type} (byId : Bool) (kwargs : Kw) (seed : Option ℤ) (dir : Option Str) (rank : ℕ) : Made Kw :=
  { kwargs := if byId then none else some kwargs
    seed := seed.map fun s => s + (rank : ℤ)
    file := dir.map fun d => (d, Nat.toDigits 10 rank) }

/-- `make_vec_env`, lines 67-72; the class of the vector fails without environments. -/
def makeVecEnv {Kw : Type} (byId : Bool) (kwargs : Kw) (n : ℕ) (seed : Option ℤ) (start : ℕ) (dir : Option Str) : Py (List (Made Kw)) :=
  if n = 0 then .error .indexError else .ok ((List.range n).map fun i => makeEnv byId kwargs seed dir (i + start))

end Neorl.VecAttr

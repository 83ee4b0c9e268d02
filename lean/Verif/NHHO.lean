import Verif.HHO
import Verif.Latin
import Verif.Round

/-!
# Neural Harris hawks optimisation

Model of `neorl/hybrid/nhho.py` with `neorl/hybrid/nhhocore/hho.py` (the same moves as `evolu/hho.py`, but the fitness is not negated for
maximisation) and the data handling of `neorl/hybrid/nhhocore/nnmodel.py`.  The network itself is an arbitrary function of the (scaled) training and
validation samples; predictions are made row by row.  Grid variables are covered by `Verif/Grid.lean` (fitness is a function of the encoded
vector).  Not modelled: files, plots, printing, worker processes.
-/

set_option linter.unusedSectionVars false
set_option linter.unusedVariables false

namespace Neorl.NHHO

open Swarm (select)

section
variable {K : Type} [Field K] [LinearOrder K] [IsStrictOrderedRing K] [FloorRing K]

/-- Arguments, `neorl/hybrid/nhho.py` lines 70-71 and 149.  `plot`, `save` are `nn_params.get('plot')`, `nn_params.get('save_models')`;
`split` is the `test_split` parameter.  `net gen i train valid` is the network that training number `gen` of model `i` produces (for `gen = 0` the
checkpoint that is saved); `stdX` is the standard scaler fitted to the inputs of the training part; `perm gen i n` is the shuffle of `train_test_split`. -/
structure Conf (K : Type) where
  S : Space K
  nhawks : ℕ
  warmups : Option ℕ
  ngen : ℕ
  plot : Option Bool
  save : Option Bool
  split : K
  net : ℕ → ℕ → List (List K × K) → List (List K × K) → List K → K
  stdX : List (List K) → List K → List K
  perm : ℕ → ℕ → ℕ → List ℕ

/-- The internal HHO object, lines 79-81. -/
def Conf.hho (c : Conf K) : HHO.Conf K := { S := c.S, nhawks := c.nhawks, ngen := c.ngen, kwE1 := none }

/-- `init_sample`, `neorl/hybrid/nhhocore/hho.py` lines 221-230: Latin design, integer variables rounded.  A design refused by `latin` is `None`, and
indexing it raises. -/
def initSample (S : Space K) (n : ℕ) (u : ℕ → ℕ → K) (sh : ℕ → List K → List K) : Py (List (List K)) :=
  match Latin.latin n S.bounds u sh with
  | .error e => .error e
  | .ok none => .error .typeError
  | .ok (some rows) => .ok (rows.map fun r => r.mapIdx fun d x => if S.types[d]? = some VType.int then ((roundHE x : ℤ) : K) else x)

/-- Part `i` of `np.array_split(l, 3)`, lines 178-179. -/
def part {α : Type} (l : List α) (i : ℕ) : List α :=
  let cut := fun j => j * (l.length / 3) + min j (l.length % 3)
  (l.drop (cut i)).take (cut (i + 1) - cut i)

/-- `MinMaxScaler` fitted to `ys`, `neorl/hybrid/nhhocore/nnmodel.py` lines 59 and 63 (a constant column is shifted only). -/
def scaleY (ys : List K) (y : K) : K :=
  match ys with
  | [] => y
  | a :: as =>
    let lo := as.foldl min a
    let hi := as.foldl max a
    if hi = lo then y - lo else (y - lo) / (hi - lo)

/-- The entries of `l` at the indices `is`. -/
def pickAt {α : Type} (l : List α) (is : List ℕ) : List α := is.filterMap (l[·]?)

/-- `NNmodel.fit`, `neorl/hybrid/nhhocore/nnmodel.py` lines 49-104: split, scale, train.  The scalers are local to the method: the returned
network maps scaled inputs to scaled outputs.  `train_test_split` raises unless `0 < test_size < 1` and a training sample is left. -/
def nnFit (c : Conf K) (gen i : ℕ) (data : List (List K × K)) : Py (List K → K) :=
  let nt := ⌈c.split * (data.length : K)⌉.toNat
  if ¬ (0 < c.split ∧ c.split < 1) then .error .valueError else
  if data.length ≤ nt then .error .valueError else
  let p := c.perm gen i data.length
  let test := pickAt data (p.take nt)
  let train := pickAt data (p.drop nt)
  let sx := c.stdX (train.map fun e => e.1)
  let sy := scaleY (train.map fun e => e.2)
  .ok (c.net gen i (train.map fun e => (sx e.1, sy e.2)) (test.map fun e => (sx e.1, sy e.2)))

/-- The three models of generation 0, lines 184-196. -/
def warmModels (c : Conf K) (data : List (List K × K)) : Py ((List K → K) × (List K → K) × (List K → K)) :=
  match nnFit c 0 1 (part data 0) with
  | .error e => .error e
  | .ok m1 =>
    match nnFit c 0 2 (part data 1) with
    | .error e => .error e
    | .ok m2 =>
      match nnFit c 0 3 (part data 2) with
      | .error e => .error e
      | .ok m3 => .ok (m1, m2, m3)

/-- `neural_worker`, lines 347-359: the hawk on which models `a` and `b` agree most joins part `i`, labelled with their mean prediction; model `i` is
trained again. -/
def neuralWorker (c : Conf K) (data : List (List K × K)) (gen i : ℕ) (a b : List K → K) (pos : List (List K)) : Py (List K → K) :=
  match select (fun x => |a x - b x|) pos with
  | .error e => .error e
  | .ok h => nnFit c gen (i + 1) (part data i ++ [(h.2, (a h.2 + b h.2) / 2)])

/-- `update_model`, lines 361-389: the models of generation 0 are loaded, each is retrained, the predictions are averaged. -/
def surrogate (c : Conf K) (data : List (List K × K)) (m : (List K → K) × (List K → K) × (List K → K)) (gen : ℕ) (pos : List (List K)) :
    Py (List K → K) :=
  match neuralWorker c data gen 0 m.2.1 m.2.2 pos with
  | .error e => .error e
  | .ok p1 =>
    match neuralWorker c data gen 1 m.2.2 m.1 pos with
    | .error e => .error e
    | .ok p2 =>
      match neuralWorker c data gen 2 m.1 m.2.1 pos with
      | .error e => .error e
      | .ok p3 => .ok fun x => (p1 x + p2 x + p3 x) / 3

/-- Ghost record of a generation: its surrogate, its hawks and the points evaluated with the real fitness in its dives. -/
structure Block (K : Type) where
  sur : List K → K
  pop : List (List K)
  dives : List (List K)

/-- State between generations. -/
structure State (K : Type) where
  pos : List (List K)
  rabbit : WithTop K × List K
  hawks : List (List K)
  locals : List K
  runs : List (Block K)

/-- One generation, lines 214-273.  Note that the internal HHO gets `fit` itself, whatever the mode. -/
def gen (c : Conf K) (m : Bool) (fit : List K → K) (data : List (List K × K)) (ms : (List K → K) × (List K → K) × (List K → K)) (t : ℕ)
    (dr : ℕ → HHO.Draw K) (s : State K) : Py (State K) :=
  match surrogate c data ms (t + 1) s.pos with
  | .error e => .error e
  | .ok sur =>
    let rabbit := updAll (fun p => sgn m (sur p)) s.rabbit s.pos
    match select sur s.pos with
    | .error e => .error e
    | .ok b =>
      match HHO.updTo c.hho fit t (2 * (1 - (t : K) / (c.ngen : K))) dr rabbit.2 (s.pos.map sur) c.nhawks s.pos with
      | .error e => .error e
      | .ok (p, ev) =>
        match mapRows (fun i row => HHO.repair c.hho t (dr i).dF row) 0 p with
        | .error e => .error e
        | .ok pos' =>
          .ok { pos := pos', rabbit := rabbit, hawks := s.hawks ++ [b.2], locals := s.locals ++ [sgn m b.1]
                runs := s.runs ++ [{ sur := sur, pop := s.pos, dives := ev }] }

/-- `g` generations. -/
def run (c : Conf K) (m : Bool) (fit : List K → K) (data : List (List K × K)) (ms : (List K → K) × (List K → K) × (List K → K))
    (dr : ℕ → ℕ → HHO.Draw K) (pos0 : List (List K)) : ℕ → Py (State K)
  | 0 => .ok { pos := pos0, rabbit := (⊤, List.replicate c.S.bounds.length 0), hawks := [], locals := [], runs := [] }
  | g + 1 =>
    match run c m fit data ms dr pos0 g with
    | .error e => .error e
    | .ok s => gen c m fit data ms g (dr g) s

/-- The draws of a call: the two Latin designs and the hawk moves. -/
structure Draws (K : Type) where
  uW : ℕ → ℕ → K
  shW : ℕ → List K → List K
  uP : ℕ → ℕ → K
  shP : ℕ → List K → List K
  hawk : ℕ → ℕ → HHO.Draw K

/-- What `evolute` returns, plus ghosts: the warmup samples with their fitness and the generations. -/
structure Result (K : Type) where
  hawks : List (List K)
  locals : List K
  data : List (List K × K)
  runs : List (Block K)

/-- Constructor, lines 116-138: both keys are read. -/
def checkArgs (c : Conf K) : Py Unit :=
  match c.plot, c.save with
  | some _, some _ => .ok ()
  | _, _ => .error .keyError

/-- `self.hho.init_sample(num_hawks=self.num_warmups)`, line 172: `None` means `nhawks`. -/
def Conf.nwarm (c : Conf K) : ℕ := c.warmups.getD c.nhawks

/-- The initial hawks, lines 201-212. -/
def startPos (c : Conf K) (x0 : Option (List (List K))) (d : Draws K) : Py (List (List K)) :=
  match x0 with
  | some (x :: xs) => if (x :: xs).length ≠ c.nhawks then .error .assertion else .ok (x :: xs)
  | _ => initSample c.S c.nhawks d.uP d.shP

/-- `evolute`, lines 149-286; `m` is `mode == 'min'`. -/
def evolute (c : Conf K) (m : Bool) (fit : List K → K) (x0 : Option (List (List K))) (d : Draws K) : Py (Result K) :=
  match checkArgs c with
  | .error e => .error e
  | .ok _ =>
  match initSample c.S c.nwarm d.uW d.shW with
  | .error e => .error e
  | .ok warm =>
    let data := warm.map fun x => (x, fit (c.S.clip x))
    match warmModels c data with
    | .error e => .error e
    | .ok ms =>
      match startPos c x0 d with
      | .error e => .error e
      | .ok pos0 =>
        match run c m fit data ms d.hawk pos0 c.ngen with
        | .error e => .error e
        | .ok s => .ok { hawks := s.hawks, locals := s.locals, data := data, runs := s.runs }

end

end Neorl.NHHO

import Verif.Ortho

/-!
# The convolutional layer: shapes, formats and bias

Model of `conv` (`neorl/rl/baselines/shared/tf_layers.py` lines 64-107): the sizes of the filter, the two data formats, the shapes of the variables and the sum of the
bias and the convolution, with the broadcasting of tensorflow.  The convolution itself is a parameter (its values are in `Verif/ConvStats.lean`); shapes are known when the graph is built.
-/

set_option linter.unusedSectionVars false
set_option linter.unusedVariables false

namespace Neorl.ConvLayer

open Neorl.Ortho (Tensor)

/-- `filter_size`: a number, or a list or tuple. -/
inductive Size where
  | one (n : ℕ)
  | many (l : List ℕ)

/-- `data_format`. -/
inductive Format where
  | nhwc
  | nchw
  | other
deriving DecidableEq

/-- Lines 81-88. -/
def sizes : Size → Py (ℕ × ℕ)
  | .one n => .ok (n, n)
  | .many [h, w] => .ok (h, w)
  | .many _ => .error .assertion

/-- What lines 81-106 prepare: the strides, the shape of the weights and the bias as it is added. -/
structure Setup where
  strides : List ℕ
  wshape : List ℕ
  bvar : List ℕ
  bshape : List ℕ
deriving DecidableEq

/-- Lines 81-106 for an input of shape `inp`; `bshape` is the shape of the bias after the possible `tf.reshape` of line 106. -/
def setup (inp : List ℕ) (nf : ℕ) (fs : Size) (stride : ℕ) (fmt : Format) (oneDim : Bool) : Py Setup :=
  match sizes fs with
  | .error e => .error e
  | .ok (fh, fw) =>
    match fmt with
    | .other => .error .runtimeError
    | .nhwc =>
      match inp[3]? with
      | none => .error .indexError
      | some c =>
        let bvar := if oneDim then [nf] else [1, nf, 1, 1]
        .ok ⟨[1, stride, stride, 1], [fh, fw, c, nf], bvar, if oneDim then bvar else [1, 1, 1, nf]⟩
    | .nchw =>
      match inp[1]? with
      | none => .error .indexError
      | some c =>
        let bvar := if oneDim then [nf] else [1, nf, 1, 1]
        .ok ⟨[1, 1, stride, stride], [fh, fw, c, nf], bvar, bvar⟩

/-- Broadcasting of shapes, last dimension first: dimensions must agree or be one. -/
def bcastRev : List ℕ → List ℕ → Py (List ℕ)
  | [], t => .ok t
  | s, [] => .ok s
  | a :: s, b :: t =>
    match bcastRev s t with
    | .error e => .error e
    | .ok r => if a = b then .ok (a :: r) else if a = 1 then .ok (b :: r) else if b = 1 then .ok (a :: r) else .error .valueError

/-- The entry of a broadcast tensor an index reads, last dimension first: dimensions of size one are read at zero, missing ones dropped. -/
def readRev : List ℕ → List ℕ → List ℕ
  | [], _ => []
  | _, [] => []
  | a :: s, i :: l => (if a = 1 then 0 else i) :: readRev s l

/-- `s + t` of tensors. -/
def add {K : Type} [Add K] (s t : Tensor K) : Py (Tensor K) :=
  match bcastRev s.shape.reverse t.shape.reverse with
  | .error e => .error e
  | .ok sh => .ok ⟨sh.reverse, fun l => s.at_ (readRev s.shape.reverse l.reverse).reverse + t.at_ (readRev t.shape.reverse l.reverse).reverse⟩

/-- The bias with values `b` in a shape with one dimension of `nf` entries and else ones (lines 99, 104-106): the entries in their order. -/
def biasTensor {K : Type} (b : ℕ → K) (shape : List ℕ) : Tensor K := ⟨shape, fun l => b l.sum⟩

/-- `conv`, lines 64-107; `conv2d` gives the result of `tf.nn.conv2d` for strides and shape of the weights. -/
def conv {K : Type} [Add K] (conv2d : List ℕ → List ℕ → Tensor K) (b : ℕ → K) (inp : List ℕ) (nf : ℕ) (fs : Size) (stride : ℕ) (fmt : Format) (oneDim : Bool) : Py (Tensor K) :=
  match setup inp nf fs stride fmt oneDim with
  | .error e => .error e
  | .ok s => add (biasTensor b s.bshape) (conv2d s.strides s.wshape)

end Neorl.ConvLayer

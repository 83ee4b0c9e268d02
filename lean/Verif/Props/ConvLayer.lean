import Verif.ConvLayer
import Verif.Props.Ortho

/-!
# Property theorems C156: the convolutional layer
-/

set_option linter.unusedSectionVars false
set_option linter.unusedVariables false

namespace Neorl.ConvLayer

open Neorl.Ortho (Tensor)

/-- The position of the channels in a shape. -/
def channelAxis : Format → ℕ
  | .nchw => 1
  | _ => 3

/-- What `conv2d` promises: four dimensions, with the filters (the last size of the weights) as channels. -/
def Promise {K : Type} (fmt : Format) (conv2d : List ℕ → List ℕ → Tensor K) : Prop :=
  ∀ st fh fw c nf, (conv2d st [fh, fw, c, nf]).shape.length = 4 ∧ (conv2d st [fh, fw, c, nf]).shape[channelAxis fmt]? = some nf

theorem add_ok {K : Type} [Add K] {s t : Tensor K} {sh : List ℕ} (h : bcastRev s.shape.reverse t.shape.reverse = .ok sh) :
    add s t = .ok ⟨sh.reverse, fun l => s.at_ (readRev s.shape.reverse l.reverse).reverse + t.at_ (readRev t.shape.reverse l.reverse).reverse⟩ := by
  unfold add
  rw [h]

/-- **C156, bias.** In the format `NHWC`, and in `NCHW` with a bias of four dimensions, the layer is the convolution with strides in the two directions of the picture only,
filters of the sizes given, and bias number `k` added to every entry of channel `k` — for every index within the shape of the result. -/
theorem C156_bias {K : Type} [Add K] (conv2d : List ℕ → List ℕ → Tensor K) (b : ℕ → K) (n0 n1 n2 n3 nf : ℕ) (fs : Size) (fh fw stride : ℕ) (fmt : Format) (oneDim : Bool)
    (hs : fs = .many [fh, fw] ∨ fs = .one fh ∧ fw = fh) (hf : fmt = .nhwc ∨ fmt = .nchw ∧ oneDim = false) (hp : Promise fmt conv2d) :
    ∃ t, conv conv2d b [n0, n1, n2, n3] nf fs stride fmt oneDim = .ok t ∧
      let c := if fmt = .nhwc then n3 else n1
      let st := if fmt = .nhwc then [1, stride, stride, 1] else [1, 1, stride, stride]
      let y := conv2d st [fh, fw, c, nf]
      t.shape = y.shape ∧
      ∀ i0 i1 i2 i3, (∀ k : ℕ, ∀ d i, y.shape[k]? = some d → [i0, i1, i2, i3][k]? = some i → i < d) →
        t.at_ [i0, i1, i2, i3] = b (if fmt = .nhwc then i3 else i1) + y.at_ [i0, i1, i2, i3] := by
  have hsz : sizes fs = .ok (fh, fw) := by
    rcases hs with rfl | ⟨rfl, rfl⟩ <;> rfl
  have key : ∀ (y : Tensor K) (bs : List ℕ) (ax : ℕ), y.shape.length = 4 → y.shape[ax]? = some nf →
      (ax = 3 ∧ (bs = [nf] ∨ bs = [1, 1, 1, nf]) ∨ ax = 1 ∧ bs = [1, nf, 1, 1]) →
      ∃ t, add (biasTensor b bs) y = .ok t ∧ t.shape = y.shape ∧
      ∀ i0 i1 i2 i3, (∀ k : ℕ, ∀ d i, y.shape[k]? = some d → [i0, i1, i2, i3][k]? = some i → i < d) →
        t.at_ [i0, i1, i2, i3] = b (if ax = 3 then i3 else i1) + y.at_ [i0, i1, i2, i3] := by
    intro y bs ax hl hax hb
    obtain ⟨sh, at_⟩ := y
    match sh, hl with
    | [d0, d1, d2, d3], _ =>
    have rd : ∀ {d i : ℕ}, i < d → (if d = 1 then 0 else i) = i := fun {d i} h => by split_ifs <;> omega
    have fin : ∀ i0 i1 i2 i3, (∀ k : ℕ, ∀ d i, [d0, d1, d2, d3][k]? = some d → [i0, i1, i2, i3][k]? = some i → i < d) →
        i0 < d0 ∧ i1 < d1 ∧ i2 < d2 ∧ i3 < d3 := fun i0 i1 i2 i3 h => ⟨h 0 _ _ rfl rfl, h 1 _ _ rfl rfl, h 2 _ _ rfl rfl, h 3 _ _ rfl rfl⟩
    have one : ∀ (d : ℕ) (r : List ℕ), (if 1 = d then (.ok (1 :: r) : Py (List ℕ)) else .ok (d :: r)) = .ok (d :: r) := by
      intro d r
      by_cases h : 1 = d
      · rw [if_pos h, h]
      · rw [if_neg h]
    rcases hb with ⟨rfl, rfl | rfl⟩ | ⟨rfl, rfl⟩
    · obtain rfl : d3 = nf := by simpa using hax
      refine ⟨_, add_ok (sh := [d3, d2, d1, d0]) (by simp [biasTensor, bcastRev]), rfl, ?_⟩
      intro i0 i1 i2 i3 h
      obtain ⟨h0, h1, h2, h3⟩ := fin _ _ _ _ h
      simp [biasTensor, readRev, rd h0, rd h1, rd h2, rd h3]
    · obtain rfl : d3 = nf := by simpa using hax
      refine ⟨_, add_ok (sh := [d3, d2, d1, d0]) (by
        simp only [biasTensor, List.reverse_cons, List.reverse_nil, List.nil_append, List.cons_append, bcastRev, one, if_true]), rfl, ?_⟩
      intro i0 i1 i2 i3 h
      obtain ⟨h0, h1, h2, h3⟩ := fin _ _ _ _ h
      simp [biasTensor, readRev, rd h0, rd h1, rd h2, rd h3]
    · obtain rfl : d1 = nf := by simpa using hax
      refine ⟨_, add_ok (sh := [d3, d2, d1, d0]) (by
        simp only [biasTensor, List.reverse_cons, List.reverse_nil, List.nil_append, List.cons_append, bcastRev, one, if_true]), rfl, ?_⟩
      intro i0 i1 i2 i3 h
      obtain ⟨h0, h1, h2, h3⟩ := fin _ _ _ _ h
      simp [biasTensor, readRev, rd h0, rd h1, rd h2, rd h3]
  rcases hf with rfl | ⟨rfl, rfl⟩
  · obtain ⟨p1, p2⟩ := hp [1, stride, stride, 1] fh fw n3 nf
    obtain ⟨t, h1, h2, h3⟩ := key _ (if oneDim then [nf] else [1, 1, 1, nf]) 3 p1 p2 (Or.inl ⟨rfl, by cases oneDim <;> simp⟩)
    refine ⟨t, ?_, h2, h3⟩
    rw [← h1]
    cases oneDim <;> simp [conv, setup, hsz]
  · obtain ⟨p1, p2⟩ := hp [1, 1, stride, stride] fh fw n1 nf
    obtain ⟨t, h1, h2, h3⟩ := key _ [1, nf, 1, 1] 1 p1 p2 (Or.inr ⟨rfl, rfl⟩)
    refine ⟨t, ?_, h2, h3⟩
    rw [← h1]
    simp [conv, setup, hsz]

/-- **C156, defect.** With `data_format='NCHW'` and `one_dim_bias=True` the bias runs along the width: the layer cannot be made unless the width of the result is the number of filters
(or one of the two is one), and if it is, bias number `j` is added to column `j` of all channels. -/
theorem C156_width {K : Type} [Add K] (conv2d : List ℕ → List ℕ → Tensor K) (b : ℕ → K) (n0 n1 n2 n3 nf : ℕ) (fh fw stride : ℕ) (B h w : ℕ)
    (hy : (conv2d [1, 1, stride, stride] [fh, fw, n1, nf]).shape = [B, nf, h, w]) :
    (w ≠ nf → w ≠ 1 → nf ≠ 1 → conv conv2d b [n0, n1, n2, n3] nf (.many [fh, fw]) stride .nchw true = .error .valueError) ∧
    (w = nf → ∃ t, conv conv2d b [n0, n1, n2, n3] nf (.many [fh, fw]) stride .nchw true = .ok t ∧
      ∀ i c y x, i < B → c < nf → y < h → x < w → t.at_ [i, c, y, x] = b x + (conv2d [1, 1, stride, stride] [fh, fw, n1, nf]).at_ [i, c, y, x]) := by
  constructor
  · intro h1 h2 h3
    simp [conv, setup, sizes, add, biasTensor, hy, bcastRev, h2, h3, Ne.symm h1]
  · rintro rfl
    have rd : ∀ {d i : ℕ}, i < d → (if d = 1 then 0 else i) = i := fun {d i} h => by split_ifs <;> omega
    refine ⟨_, (show conv conv2d b [n0, n1, n2, n3] w (.many [fh, fw]) stride .nchw true = add (biasTensor b [w]) (conv2d [1, 1, stride, stride] [fh, fw, n1, w]) from rfl).trans
      (add_ok (sh := [w, h, w, B]) (by simp [biasTensor, hy, bcastRev])), ?_⟩
    intro i c y x hi hc hyy hx
    simp [biasTensor, hy, readRev, rd hi, rd hc, rd hyy, rd hx]

/-- **C156, refusals.** A list of sizes must have two entries, which is looked at first; then the format must be one of the two. -/
theorem C156_refused {K : Type} [Add K] (conv2d : List ℕ → List ℕ → Tensor K) (b : ℕ → K) (inp : List ℕ) (nf : ℕ) (stride : ℕ) (oneDim : Bool) :
    (∀ l fmt, l.length ≠ 2 → conv conv2d b inp nf (.many l) stride fmt oneDim = .error .assertion) ∧
    (∀ fs, (∀ l, fs = .many l → l.length = 2) → conv conv2d b inp nf fs stride .other oneDim = .error .runtimeError) := by
  constructor
  · intro l fmt hl
    have : sizes (.many l) = .error .assertion := by
      match l with
      | [] => rfl
      | [_] => rfl
      | [_, _] => simp at hl
      | _ :: _ :: _ :: _ => rfl
    simp [conv, setup, this]
  · intro fs h
    match fs with
    | .one n => rfl
    | .many [_, _] => rfl
    | .many [] => simpa using h _ rfl
    | .many [_] => simpa using h _ rfl
    | .many (_ :: _ :: _ :: _) => simpa using h _ rfl

/-- **C156, initial filters.** The shape of the weights is one `ortho_init` accepts, and the initial filters are perpendicular with squared length `scale²` if there are at most as many
as a filter has weights. -/
theorem C156_filters {K : Type} [Field K] [LinearOrder K] [IsStrictOrderedRing K] {svd : Ortho.Mat K → Ortho.Mat K × Ortho.Mat K} {noise : ℕ × ℕ → Ortho.Mat K}
    (hg : ∀ m n, (noise (m, n)).rows = m ∧ (noise (m, n)).cols = n) (hs : ∀ g, Ortho.IsSvd g (svd g).1 (svd g).2) (scale : K)
    {inp : List ℕ} {nf : ℕ} {fs : Size} {stride : ℕ} {fmt : Format} {oneDim : Bool} {s : Setup} (h : setup inp nf fs stride fmt oneDim = .ok s) :
    ∃ fh fw c w, sizes fs = .ok (fh, fw) ∧ inp[channelAxis fmt]? = some c ∧ Ortho.init svd noise scale s.wshape = .ok w ∧
      (nf ≤ fh * fw * c → ∀ p < nf, ∀ q < nf,
        ∑ i ∈ Finset.range fh, ∑ j ∈ Finset.range fw, ∑ k ∈ Finset.range c, w.at_ [i, j, k, p] * w.at_ [i, j, k, q] = if p = q then scale ^ 2 else 0) := by
  have main : ∀ fh fw c, ∃ w, Ortho.init svd noise scale [fh, fw, c, nf] = .ok w ∧
      (nf ≤ fh * fw * c → ∀ p < nf, ∀ q < nf,
        ∑ i ∈ Finset.range fh, ∑ j ∈ Finset.range fw, ∑ k ∈ Finset.range c, w.at_ [i, j, k, p] * w.at_ [i, j, k, q] = if p = q then scale ^ 2 else 0) := fun fh fw c => by
    obtain ⟨t, h1, _, h2, _⟩ := Ortho.C155_conv (a := fh) (b := fw) (c := c) (n := nf) (hg _ _) (hs _) scale
    exact ⟨t, h1, h2⟩
  unfold setup at h
  cases hz : sizes fs with
  | error e => simp [hz] at h
  | ok p =>
    obtain ⟨fh, fw⟩ := p
    rw [hz] at h
    cases fmt with
    | other => simp at h
    | nhwc =>
      cases hi : inp[3]? with
      | none => simp [hi] at h
      | some c =>
        simp only [hi] at h
        cases h
        obtain ⟨w, h1, h2⟩ := main fh fw c
        exact ⟨fh, fw, c, w, rfl, hi, h1, h2⟩
    | nchw =>
      cases hi : inp[1]? with
      | none => simp [hi] at h
      | some c =>
        simp only [hi] at h
        cases h
        obtain ⟨w, h1, h2⟩ := main fh fw c
        exact ⟨fh, fw, c, w, rfl, hi, h1, h2⟩

/-- A convolution meeting the assumption, and the first layer of the network for pictures. -/
example : Promise (K := ℤ) .nhwc (fun _ w => ⟨[1, 20, 20, w.getLastD 0], fun _ => 0⟩) := fun _ _ _ _ _ => ⟨rfl, rfl⟩

example : setup [1, 84, 84, 4] 32 (.one 8) 4 .nhwc false = .ok ⟨[1, 4, 4, 1], [8, 8, 4, 32], [1, 32, 1, 1], [1, 1, 1, 32]⟩ := rfl

/-- Factors with the assumed laws for every matrix. -/
example (g : Ortho.Mat ℚ) : Ortho.IsSvd g ⟨g.rows, min g.rows g.cols, fun i j => if i = j then 1 else 0⟩ ⟨min g.rows g.cols, g.cols, fun i j => if i = j then 1 else 0⟩ where
  urows := rfl
  ucols := rfl
  vrows := rfl
  vcols := rfl
  u := by
    intro a ha b hb
    have h : b < g.rows := lt_of_lt_of_le hb (min_le_left _ _)
    simp [h, eq_comm]
  v := by
    intro a ha b hb
    have h : b < g.cols := lt_of_lt_of_le hb (min_le_right _ _)
    simp [eq_comm]
    omega

end Neorl.ConvLayer

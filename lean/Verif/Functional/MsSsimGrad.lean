import Verif.Functional.Gradients
import Verif.Functional.MsSsim

/-!
Model of the gradients that autograd computes for `neuralcompression/functional/_multiscale_structural_similarity.py`.

Tensors of nodes (`Functional/Gradients`) stand in the place of tensors of numbers, with the same simplifications: real numbers for
floating point numbers, infinities and not-a-number as they come up, and gradients of a tensor that is used several times passed on
one by one.  The windows of the convolutions do not depend on the images.  The backward passes are those of torch 2.0.1.
-/

namespace Verif.Functional.MsSsimGrad

open Real Verif.Layers Verif.Functional.Gradients Verif.Functional.MsSsim

/-! ### Operations -/

/-- The sum of `f 0`, …, `f (n - 1)`. -/
noncomputable def sumN : ℕ → (ℕ → Node) → Node
  | 0, _ => Node.const 0
  | n + 1, f => (sumN n f).add (f n)

/-- `a / n` for a Python number; also the division of `mean`. -/
noncomputable def divc (n : ℝ) (a : Node) : Node := ⟨div a.val (.val n), fun g => a.back (div g (.val n))⟩

/-- `F.relu`: the backward pass puts zero where the result is not positive, whatever the gradient. -/
noncomputable def relu (a : Node) : Node :=
  ⟨onVal (max 0) a.val, fun g => a.back (match a.val with
    | .val x => if max 0 x ≤ 0 then .val 0 else g
    | _ => g)⟩

/-- `x ** f` for numbers that are not negative: zero to a negative power is infinite. -/
noncomputable def powF (f : ℝ) : F → F
  | .val x => if x = 0 ∧ f < 0 then .posInf else .val (x ^ f)
  | _ => .nan

/-- `a.pow(f)`: the backward pass is `grad * (f * a.pow(f - 1))`, and zero for `f = 0`. -/
noncomputable def pow (f : ℝ) (a : Node) : Node :=
  ⟨powF f a.val, fun g => a.back (if f = 0 then .val 0 else mul g (mul (.val f) (powF (f - 1) a.val)))⟩

/-- The value of `torch.prod`. -/
noncomputable def prodVal : List Node → F
  | [] => .val 1
  | a :: l => mul a.val (prodVal l)

open Classical in
/-- The backward pass of `torch.prod` along the first dimension: `grad * result / input` if no entry of the whole tensor is zero, and
otherwise `grad` times the product of the entries before and the product of the entries after. `pre` is the product of the entries
before the list. -/
noncomputable def prodBack (anyZero : Prop) (result pre g : F) : List Node → F
  | [] => .val 0
  | a :: l =>
    (a.back (if anyZero then mul g (mul pre (prodVal l)) else div (mul g result) a.val)).add
      (prodBack anyZero result (mul pre a.val) g l)

/-- `torch.prod`. -/
noncomputable def prod (anyZero : Prop) (l : List Node) : Node :=
  ⟨prodVal l, fun g => prodBack anyZero (prodVal l) (.val 1) g l⟩

/-- What tensors add that take part with the gradient zero. -/
noncomputable def zeros : List Node → F
  | [] => .val 0
  | a :: l => (a.back (.val 0)).add (zeros l)

/-- `a`, where the tensors of `l` get the gradient zero: the entries of `weighted_outputs` that an index leaves out. -/
noncomputable def also (l : List Node) (a : Node) : Node := ⟨a.val, fun g => (a.back g).add (zeros l)⟩

/-! ### The index -/

/-- A batch of images: `[batch, channels, height, width]`. -/
structure NBatch where
  batch : ℕ
  channels : ℕ
  height : ℕ
  width : ℕ
  pix : ℕ → ℕ → ℕ → ℕ → Node

/-- `F.conv2d(x, window)`: `_multiscale_structural_similarity.py:88-93`. -/
noncomputable def convN (p : Params) (x : ℕ → ℕ → Node) (i j : ℕ) : Node :=
  sumN p.windowSize fun u => sumN p.windowSize fun v => (x (i + u) (j + v)).scale (window p.windowSize p.gaussianStd u v)

/-- `luminance` at a position: `_multiscale_structural_similarity.py:85-107`. -/
noncomputable def luminanceN (p : Params) (x y : ℕ → ℕ → Node) (i j : ℕ) : Node :=
  let c1 := (p.k1 * p.dataRange) ^ 2
  let ux := convN p x i j
  let uy := convN p y i j
  (((ux.scale 2).times uy).shift c1).over ((ux.sq.add uy.sq).shift c1)

/-- `contrast_structure` at a position: `_multiscale_structural_similarity.py:86-108`. -/
noncomputable def contrastN (p : Params) (x y : ℕ → ℕ → Node) (i j : ℕ) : Node :=
  let c2 := (p.k2 * p.dataRange) ^ 2
  let ux := convN p x i j
  let uy := convN p y i j
  let uxx := convN p (fun a b => (x a b).times (x a b)) i j
  let uyy := convN p (fun a b => (y a b).times (y a b)) i j
  let uxy := convN p (fun a b => (x a b).times (y a b)) i j
  let vx := uxx.add ((ux.times ux).scale (-1))
  let vy := uyy.add ((uy.times uy).scale (-1))
  let vxy := uxy.add ((ux.times uy).scale (-1))
  ((vxy.scale 2).shift c2).over ((vx.add vy).shift c2)

/-- `.view(batch_size, -1).mean(dim=1)`: `_multiscale_structural_similarity.py:110-112`. -/
noncomputable def meanPosN (ws h w : ℕ) (f : ℕ → ℕ → Node) : Node :=
  divc ((h - ws + 1 : ℕ) * (w - ws + 1 : ℕ)) (sumN (h - ws + 1) fun i => sumN (w - ws + 1) fun j => f i j)

/-- `_ssim_single_channel` for one batch element: `_multiscale_structural_similarity.py:50-114`. -/
noncomputable def ssimSingleN (p : Params) (h w : ℕ) (x y : ℕ → ℕ → Node) : Node × Node :=
  (meanPosN p.windowSize h w fun i j => (luminanceN p x y i j).times (contrastN p x y i j),
    meanPosN p.windowSize h w fun i j => contrastN p x y i j)

/-- `_ssim_multichannel`: `_multiscale_structural_similarity.py:117-164`. -/
noncomputable def ssimMultichannelN (p : Params) (x y : NBatch) : Except Err (ℕ → ℕ → Node × Node) :=
  if x.channels = 0 then .error .runtime
  else if p.windowSize = 0 ∨ p.windowSize % 2 = 0 then .error .value
  else .ok fun c b => ssimSingleN p x.height x.width (x.pix b c) (y.pix b c)

/-- `_pad_and_downsample`: `_multiscale_structural_similarity.py:167-189`; `avg_pool2d` divides the sum of four pixels by four. -/
noncomputable def padAndDownsampleN (x : NBatch) : NBatch where
  batch := x.batch
  channels := x.channels
  height := (x.height + x.height % 2) / 2
  width := (x.width + x.width % 2) / 2
  pix := fun b c i j =>
    let padded := fun a d => x.pix b c (min a (x.height - 1)) (min d (x.width - 1))
    divc 4 ((((padded (2 * i) (2 * j)).add (padded (2 * i) (2 * j + 1))).add (padded (2 * i + 1) (2 * j))).add
      (padded (2 * i + 1) (2 * j + 1)))

/-- The loop over the scales: `_multiscale_structural_similarity.py:236-264`. -/
noncomputable def scaleOutputsN (p : Params) : List ℝ → ℕ → NBatch → NBatch → Except Err (List (ℕ → ℕ → Node × Node))
  | [], _, _, _ => .ok []
  | factor :: factors, scale, preds, target =>
    let preds := if scale ≠ 0 then padAndDownsampleN preds else preds
    let target := if scale ≠ 0 then padAndDownsampleN target else target
    if preds.height < p.windowSize ∨ preds.width < p.windowSize then .error .runtime
    else (ssimMultichannelN p preds target).bind fun s =>
      (scaleOutputsN p factors (scale + 1) preds target).map fun rest =>
        (fun c b => (pow factor (relu (s c b).1), pow factor (relu (s c b).2))) :: rest

/-- What is returned: one tensor without dimensions, or one per batch element. -/
inductive OutN
  | scalar (x : Node)
  | perImage (xs : List Node)

/-- `_get_reduction_op` applied to the scores: `_multiscale_structural_similarity.py:39-47`. -/
noncomputable def reduceN (reduction : String) (n : ℕ) (xs : ℕ → Node) : Except Err OutN :=
  if reduction = "mean" then .ok (.scalar (divc n (sumN n xs)))
  else if reduction = "sum" then .ok (.scalar (sumN n xs))
  else if reduction = "none" then .ok (.perImage ((List.range n).map xs))
  else .error .value

/-- The entries of `weighted_outputs`: `_multiscale_structural_similarity.py:267`. -/
def entries (channels batch : ℕ) (outs : List (ℕ → ℕ → Node × Node)) : List Node :=
  outs.flatMap fun o => (List.range channels).flatMap fun c => (List.range batch).flatMap fun b => [(o c b).1, (o c b).2]

/-- The score of one channel and batch element: `_multiscale_structural_similarity.py:270-272`. -/
noncomputable def combineN (anyZero : Prop) (outs : List (ℕ → ℕ → Node × Node)) (last : ℕ → ℕ → Node × Node) (c b : ℕ) : Node :=
  (last c b).1.times (prod anyZero (outs.dropLast.map fun o => (o c b).2))

/-- `multiscale_structural_similarity`: `_multiscale_structural_similarity.py:192-276`. -/
noncomputable def msSsimN (p : Params) (factors : List ℝ) (reduction : String) (preds target : NBatch) : Except Err OutN :=
  (scaleOutputsN p factors 0 preds target).bind fun outs =>
    match outs.getLast? with
    | none => .error .runtime
    | some last =>
      let anyZero := ∃ o ∈ outs.dropLast, ∃ c < preds.channels, ∃ b < preds.batch, (o c b).2.val = .val 0
      reduceN reduction preds.batch fun b =>
        also (entries preds.channels preds.batch outs)
          (divc preds.channels (sumN preds.channels fun c => combineN anyZero outs last c b))

end Verif.Functional.MsSsimGrad

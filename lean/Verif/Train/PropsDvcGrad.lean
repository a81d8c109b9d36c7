import Verif.Train.DvcGrad
import Verif.Train.PropsAutograd

/-!
C127: what a P-frame teaches the networks of deep video compression.
-/

namespace Verif.Train.DvcGrad

open Autograd

variable {W I Fl La P : Type} [NormedAddCommGroup W] [NormedSpace ℝ W] [NormedAddCommGroup I] [NormedSpace ℝ I]
  [NormedAddCommGroup Fl] [NormedSpace ℝ Fl] [NormedAddCommGroup La] [NormedSpace ℝ La]
  [NormedAddCommGroup P] [NormedSpace ℝ P]

/-! ### Specification -/

section spec
variable (n : Nets W I Fl La P) (noise residualNoise : La) (v : Params W) (x y : I)

/-- The noised latent of the flow between the frames `x` and `y`. -/
def flowLatent : La := n.encodeFlow.fn (v .motionEncoder, n.estimate.fn (v .estimator, x, y)) + noise

/-- The decoded flow. -/
def decodedFlow : Fl := n.decodeFlow.fn (v .motionDecoder, flowLatent n noise v x y)

/-- The warped reference frame. -/
def warped : I := n.warp.fn (x, decodedFlow n noise v x y)

/-- The motion compensated frame. -/
def compensated : I := n.compensate.fn (v .compensation, x, warped n noise v x y, decodedFlow n noise v x y)

/-- The noised latent of what motion compensation misses. -/
def residualLatent : La :=
  n.encodeResidual.fn (v .residualEncoder, y - compensated n noise v x y) + residualNoise

/-- The estimate of frame `y` from frame `x` in each stage. -/
def estimateOf : Stage → I
  | .one => n.warp.fn (x, n.estimate.fn (v .estimator, x, y))
  | .two => warped n noise v x y
  | .three => compensated n noise v x y
  | .whole => compensated n noise v x y
      + n.decodeResidual.fn (v .residualDecoder, residualLatent n noise residualNoise v x y)

/-- The distortion of each stage. -/
noncomputable def distortionOf (stage : Stage) : ℝ :=
  match stage with
  | .one => (n.levels.map fun l => n.distortion.fn (l.fn (v .estimator, x, y))).sum / n.levels.length
  | _ => n.distortion.fn (y, estimateOf n noise residualNoise v x y stage)

/-- The bits per pixel of the flow. -/
def flowRate : ℝ := n.entropy.fn (n.flowLik.fn (v .motionBottleneck, flowLatent n noise v x y))

/-- The bits per pixel of the residual. -/
def residualRate : ℝ :=
  n.entropy.fn (n.residualLik.fn (v .residualBottleneck, residualLatent n noise residualNoise v x y))

/-- The loss of each stage. -/
noncomputable def lossOf (stage : Stage) : ℝ :=
  distortionOf n noise residualNoise v x y stage
    + (if stage = .one then 0 else flowRate n noise v x y)
    + (if stage = .whole then residualRate n noise residualNoise v x y else 0)

/-- All networks and losses are differentiable, with the derivative that their backward pass applies. -/
structure Smooth (n : Nets W I Fl La P) : Prop where
  estimate : n.estimate.Smooth
  levels : ∀ l ∈ n.levels, l.Smooth
  encodeFlow : n.encodeFlow.Smooth
  flowLik : n.flowLik.Smooth
  decodeFlow : n.decodeFlow.Smooth
  warp : n.warp.Smooth
  compensate : n.compensate.Smooth
  encodeResidual : n.encodeResidual.Smooth
  residualLik : n.residualLik.Smooth
  decodeResidual : n.decodeResidual.Smooth
  distortion : n.distortion.Smooth
  entropy : n.entropy.Smooth

/-- The parameters with only the trained ones moved from `v` to `v'`. -/
def moved (trained : Part → Bool) (v v' : Params W) : Params W := fun p => if trained p then v' p else v p

/-- The networks that the distortion of each stage depends on: those that lie before the estimate. -/
def taughtByDistortion : Stage → List Part
  | .one => [.estimator]
  | .two => [.estimator, .motionEncoder, .motionDecoder]
  | .three => [.estimator, .motionEncoder, .motionDecoder, .compensation]
  | .whole => [.estimator, .motionEncoder, .motionDecoder, .compensation, .residualEncoder, .residualDecoder]

/-- The networks that the rate of the flow depends on. -/
def taughtByFlow : List Part := [.estimator, .motionEncoder, .motionBottleneck]

/-- The networks that the rate of the residual depends on: the decoded motion is subtracted from the frame before. -/
def taughtByResidual : List Part :=
  [.estimator, .motionEncoder, .motionDecoder, .compensation, .residualEncoder, .residualBottleneck]

end spec

/-! ### One frame -/

section frame
variable {n : Nets W I Fl La P} {noise residualNoise : La} {x y : I} {r : Part → Bool} {v : Params W}

theorem moved_self : moved r v v = v := by funext p; simp [moved]

theorem leaf_tracks (r : Part → Bool) (v : Params W) (p : Part) :
    (Node.leaf (ContinuousLinearMap.proj (R := ℝ) (φ := fun _ : Part => W) p) v (r p)).Tracks
      (fun v' => moved r v v' p) v :=
  (Node.Tracks.leaf _ _).congr fun v' => by simp [moved]

/-- The networks' parameters as the loop makes them. -/
noncomputable abbrev leaves (r : Part → Bool) (v : Params W) : Part → Node (Params W) W :=
  fun p => Node.leaf (ContinuousLinearMap.proj p) v (r p)

theorem latent_tracks (hs : Smooth n) :
    ((((leaves r v .motionEncoder).pair
      (((leaves r v .estimator).pair ((Node.const x).pair (Node.const y))).apply n.estimate)).apply n.encodeFlow).add
        (Node.const noise)).Tracks (fun v' => flowLatent n noise (moved r v v') x y) v :=
  (((leaf_tracks r v _).pair (((leaf_tracks r v _).pair ((Node.Tracks.const x).pair (Node.Tracks.const y))).apply
    hs.estimate)).apply hs.encodeFlow).add (Node.Tracks.const noise)

theorem motion_tracks (hs : Smooth n) :
    (motion n (leaves r v) noise (Node.const x) (Node.const y)).1.Tracks
      (fun v' => decodedFlow n noise (moved r v v') x y) v ∧
    ((motion n (leaves r v) noise (Node.const x) (Node.const y)).2.apply n.entropy).Tracks
      (fun v' => flowRate n noise (moved r v v') x y) v :=
  ⟨((leaf_tracks r v _).pair (latent_tracks hs)).apply hs.decodeFlow,
    (((leaf_tracks r v _).pair (latent_tracks hs)).apply hs.flowLik).apply hs.entropy⟩

theorem levels_tracks {E : Type} [NormedAddCommGroup E] [NormedSpace ℝ E] {a : Node (Params W) E}
    {f : Params W → E} (ha : a.Tracks f v) {d : Op (I × I) ℝ} (hd : d.Smooth) :
    ∀ ls : List (Op E (I × I)), (∀ l ∈ ls, l.Smooth) →
      ((ls.map fun l => (a.apply l).apply d).foldr Node.add (Node.const 0)).Tracks
        (fun v' => (ls.map fun l => d.fn (l.fn (f v'))).sum) v
  | [], _ => Node.Tracks.const 0
  | l :: ls, h => by
    have h1 := (ha.apply (h l List.mem_cons_self)).apply hd
    exact (h1.add (levels_tracks ha hd ls fun l hl => h l (List.mem_cons_of_mem _ hl))).congr fun v' => by simp

theorem batch_tracks (hs : Smooth n) (stage : Stage) :
    let l := batchLoss n (leaves r v) stage noise residualNoise (Node.const x) (Node.const y)
    l.distortion.Tracks (fun v' => distortionOf n noise residualNoise (moved r v v') x y stage) v ∧
      (totalLoss l).Tracks (fun v' => lossOf n noise residualNoise (moved r v v') x y stage) v ∧
      l.estimate.val = estimateOf n noise residualNoise v x y stage := by
  intro l
  have hm := motion_tracks (n := n) (noise := noise) (x := x) (y := y) (r := r) (v := v) hs
  have hx := Node.Tracks.const (V := Params W) (v := v) x
  have hy := Node.Tracks.const (V := Params W) (v := v) y
  have hw := (hx.pair hm.1).apply hs.warp
  have hc := ((leaf_tracks r v .compensation).pair (hx.pair (hw.pair hm.1))).apply hs.compensate
  cases stage with
  | one =>
    have hin := (leaf_tracks r v .estimator).pair (hx.pair hy)
    have hl := (levels_tracks hin hs.distortion n.levels hs.levels).scale (1 / n.levels.length)
    have hd : l.distortion.Tracks (fun v' => distortionOf n noise residualNoise (moved r v v') x y .one) v := by
      have : l.distortion = levelMean (n.levels.map fun l =>
          (((leaves r v .estimator).pair ((Node.const x).pair (Node.const y))).apply l).apply n.distortion) := rfl
      rw [this, levelMean, List.length_map]
      exact hl.congr fun v' => by simp [distortionOf, div_eq_inv_mul]
    have he := (hx.pair (hin.apply hs.estimate).detach).apply hs.warp
    refine ⟨hd, hd.congr fun v' => by simp [lossOf], ?_⟩
    have := he.1
    simp only [moved_self] at this
    exact this
  | two =>
    have hd := (hy.pair hw).apply hs.distortion
    refine ⟨hd, (hd.add hm.2).congr fun v' => by simp [lossOf, distortionOf, estimateOf, warped], ?_⟩
    have := hw.1
    simp only [moved_self] at this
    exact this
  | three =>
    have hd := (hy.pair hc).apply hs.distortion
    refine ⟨hd, (hd.add hm.2).congr fun v' => by simp [lossOf, distortionOf, estimateOf, compensated, warped], ?_⟩
    have := hc.1
    simp only [moved_self] at this
    exact this
  | whole =>
    have hr := (((leaf_tracks r v .residualEncoder).pair (hy.sub hc)).apply hs.encodeResidual).add
      (Node.Tracks.const residualNoise)
    have he := hc.add (((leaf_tracks r v .residualDecoder).pair hr).apply hs.decodeResidual)
    have hq := (((leaf_tracks r v .residualBottleneck).pair hr).apply hs.residualLik).apply hs.entropy
    have hd := (hy.pair he).apply hs.distortion
    refine ⟨hd, ((hd.add hm.2).add hq).congr fun v' => by
      simp [lossOf, distortionOf, estimateOf, compensated, warped, residualRate, residualLatent], ?_⟩
    have := he.1
    simp only [moved_self] at this
    exact this

end frame

/-! ### The theorems -/

section
variable {S : Type} (n : Nets W I Fl La P) (stage : Stage) (r : Part → Bool)
  (opt : S → Params W → (Params W →L[ℝ] ℝ) → S × Params W)

/-- **C127, the gradients.**  In every stage, for every number of P-frames and every optimiser: pass `k` over a P-frame
computes the loss of the stage for frame `k` and the derivative of this loss by the trained parameters, at the
parameters of pass `k`, with the reference frame held fixed.  The reference frame of the first pass is the I-frame, of
every other pass the estimate of the pass before (made with the parameters before its update).  So no pass teaches
through an earlier frame. -/
theorem C127_gradient (hs : Smooth n) : ∀ (s : S) (v : Params W) (x : I) (frames : List (I × La × La)),
    let out := train n stage r opt s v x frames
    out.length = frames.length ∧
      ∀ k (h : k < out.length) (h' : k < frames.length),
        (let f := fun v' => lossOf n frames[k].2.1 frames[k].2.2 (moved r out[k].params v') out[k].reference
            frames[k].1 stage;
          out[k].loss.val = f out[k].params ∧ HasFDerivAt f out[k].loss.der out[k].params) ∧
        out[k].reference = (if k = 0 then x else
          estimateOf n (frames[k - 1].2.1) (frames[k - 1].2.2) (out[k - 1].params) (out[k - 1].reference)
            (frames[k - 1].1) stage) := by
  intro s v x frames
  induction frames generalizing s v x with
  | nil => exact ⟨rfl, fun k h => absurd h (Nat.not_lt_zero k)⟩
  | cons f rest ih =>
    obtain ⟨y, e, e'⟩ := f
    have hb := batch_tracks (n := n) (noise := e) (residualNoise := e') (x := x) (y := y) (r := r) (v := v) hs stage
    obtain ⟨hl, hk⟩ := ih (opt s v (totalLoss (batchLoss n (leaves r v) stage e e' (Node.const x) (Node.const y))).der).1
      (opt s v (totalLoss (batchLoss n (leaves r v) stage e e' (Node.const x) (Node.const y))).der).2
      (batchLoss n (leaves r v) stage e e' (Node.const x) (Node.const y)).estimate.val
    refine ⟨congrArg Nat.succ hl, fun k h h' => ?_⟩
    cases k with
    | zero => exact ⟨hb.2.1, rfl⟩
    | succ k =>
      obtain ⟨h1, h2⟩ := hk k (Nat.lt_of_succ_lt_succ h) (Nat.lt_of_succ_lt_succ h')
      refine ⟨h1, ?_⟩
      cases k with
      | zero => exact h2.trans hb.2.2
      | succ k => exact h2

/-- **C127, the parameters.**  The first pass has the given parameters; each other pass those that the optimiser made of
the gradient of the loss of the pass before. -/
theorem C127_updates (s : S) (v : Params W) (x : I) (frames : List (I × La × La)) :
    let out := train n stage r opt s v x frames
    ∃ states : ℕ → S, states 0 = s ∧ ∀ k (h : k < out.length),
      (k = 0 → out[k].params = v) ∧
      ∀ h' : k + 1 < out.length, opt (states k) out[k].params out[k].loss.der = (states (k + 1), out[k + 1].params) := by
  intro out
  induction frames generalizing s v x with
  | nil => exact ⟨fun _ => s, rfl, fun k h => absurd h (Nat.not_lt_zero k)⟩
  | cons f rest ih =>
    obtain ⟨y, e, e'⟩ := f
    obtain ⟨states, h0, hst⟩ := ih (opt s v (totalLoss (batchLoss n (leaves r v) stage e e' (Node.const x) (Node.const y))).der).1
      (opt s v (totalLoss (batchLoss n (leaves r v) stage e e' (Node.const x) (Node.const y))).der).2
      (batchLoss n (leaves r v) stage e e' (Node.const x) (Node.const y)).estimate.val
    refine ⟨fun k => if k = 0 then s else states (k - 1), rfl, fun k h => ?_⟩
    cases k with
    | zero =>
      refine ⟨fun _ => rfl, fun h' => ?_⟩
      have := (hst 0 (Nat.lt_of_succ_lt_succ h')).1 rfl
      refine Prod.ext ?_ this.symm
      exact h0.symm
    | succ k =>
      exact ⟨fun hk => absurd hk (Nat.succ_ne_zero k), fun h' => (hst k (Nat.lt_of_succ_lt_succ h)).2 (Nat.lt_of_succ_lt_succ h')⟩

theorem leaves_still {v δ : Params W} {p : Part} (h : δ p = 0 ∨ r p = false) : (leaves r v p).Still δ :=
  Node.Still.leaf fun hr => by
    rcases h with h | h
    · exact h
    · rw [h] at hr; exact absurd hr (by simp)

/-- **C127, who is taught by what.**  For any networks, differentiable or not: in every stage a change of the parameters
that leaves the trained ones among the listed networks alone has no part in the gradient of the distortion, of the rate
of the flow, or of the rate of the residual.  In particular the distortion does not teach the bottlenecks, the rate of
the flow teaches no decoder, stage 1 teaches the motion estimator only, and networks that are not trained learn
nothing. -/
theorem C127_routing (s : S) (v : Params W) (x : I) (frames : List (I × La × La)) (δ : Params W) :
    ∀ rec ∈ train n stage r opt s v x frames,
      ((∀ p ∈ taughtByDistortion stage, δ p = 0 ∨ r p = false) → rec.losses.distortion.der δ = 0) ∧
      ((∀ p ∈ taughtByFlow, δ p = 0 ∨ r p = false) → ∀ l, rec.losses.flow = some l → l.der δ = 0) ∧
      ((∀ p ∈ taughtByResidual, δ p = 0 ∨ r p = false) → ∀ l, rec.losses.residual = some l → l.der δ = 0) ∧
      rec.losses.estimate.der = 0 := by
  induction frames generalizing s v x with
  | nil => intro rec h; simp [train] at h
  | cons f rest ih =>
    obtain ⟨y, e, e'⟩ := f
    intro rec h
    rcases List.mem_cons.1 h with rfl | h
    · have hx := Node.Still.const (V := Params W) (δ := δ) x
      have hy := Node.Still.const (V := Params W) (δ := δ) y
      have hlev : ∀ {E : Type} [NormedAddCommGroup E] [NormedSpace ℝ E] {a : Node (Params W) E}, a.Still δ →
          ∀ ls : List (Op E (I × I)),
            ((ls.map fun l => (a.apply l).apply n.distortion).foldr Node.add (Node.const 0)).Still δ := by
        intro E _ _ a ha ls
        induction ls with
        | nil => exact Node.Still.const 0
        | cons l ls ih => exact ((ha.apply l).apply n.distortion).add ih
      have hlat : (δ .estimator = 0 ∨ r .estimator = false) → (δ .motionEncoder = 0 ∨ r .motionEncoder = false) →
          ((((leaves r v .motionEncoder).pair (((leaves r v .estimator).pair
            ((Node.const x).pair (Node.const y))).apply n.estimate)).apply n.encodeFlow).add (Node.const e)).Still δ :=
        fun h1 h2 => (((leaves_still r h2).pair (((leaves_still r h1).pair (hx.pair hy)).apply _)).apply _).add
          (Node.Still.const e)
      have hflow : (δ .estimator = 0 ∨ r .estimator = false) → (δ .motionEncoder = 0 ∨ r .motionEncoder = false) →
          (δ .motionDecoder = 0 ∨ r .motionDecoder = false) →
          (motion n (leaves r v) e (Node.const x) (Node.const y)).1.Still δ :=
        fun h1 h2 h3 => ((leaves_still r h3).pair (hlat h1 h2)).apply _
      have hrate : (∀ p ∈ taughtByFlow, δ p = 0 ∨ r p = false) →
          ((motion n (leaves r v) e (Node.const x) (Node.const y)).2.apply n.entropy).Still δ := fun h =>
        (((leaves_still r (h .motionBottleneck (by simp [taughtByFlow]))).pair
          (hlat (h _ (by simp [taughtByFlow])) (h _ (by simp [taughtByFlow])))).apply _).apply _
      cases stage with
      | one =>
        refine ⟨fun h => ?_, fun _ l hl => by simp [batchLoss] at hl, fun _ l hl => by simp [batchLoss] at hl, rfl⟩
        exact (hlev ((leaves_still r (h .estimator (by simp [taughtByDistortion]))).pair (hx.pair hy)) n.levels).scale _
      | two =>
        refine ⟨fun h => ?_, fun h l hl => ?_, fun _ l hl => by simp [batchLoss] at hl, rfl⟩
        · exact (hy.pair ((hx.pair (hflow (h _ (by simp [taughtByDistortion])) (h _ (by simp [taughtByDistortion]))
            (h _ (by simp [taughtByDistortion])))).apply _)).apply _
        · obtain rfl := Option.some.inj hl
          exact hrate h
      | three =>
        refine ⟨fun h => ?_, fun h l hl => ?_, fun _ l hl => by simp [batchLoss] at hl, rfl⟩
        · have hf := hflow (h _ (by simp [taughtByDistortion])) (h _ (by simp [taughtByDistortion]))
            (h _ (by simp [taughtByDistortion]))
          exact (hy.pair (((leaves_still r (h .compensation (by simp [taughtByDistortion]))).pair
            (hx.pair (((hx.pair hf).apply _).pair hf))).apply _)).apply _
        · obtain rfl := Option.some.inj hl
          exact hrate h
      | whole =>
        have hcomp : (δ .estimator = 0 ∨ r .estimator = false) → (δ .motionEncoder = 0 ∨ r .motionEncoder = false) →
            (δ .motionDecoder = 0 ∨ r .motionDecoder = false) → (δ .compensation = 0 ∨ r .compensation = false) →
            (((leaves r v .compensation).pair ((Node.const x).pair ((((Node.const x).pair
              (motion n (leaves r v) e (Node.const x) (Node.const y)).1).apply n.warp).pair
                (motion n (leaves r v) e (Node.const x) (Node.const y)).1))).apply n.compensate).Still δ :=
          fun h1 h2 h3 h4 => ((leaves_still r h4).pair
            (hx.pair (((hx.pair (hflow h1 h2 h3)).apply _).pair (hflow h1 h2 h3)))).apply _
        refine ⟨fun h => ?_, fun h l hl => ?_, fun h l hl => ?_, rfl⟩
        · have hc := hcomp (h _ (by simp [taughtByDistortion])) (h _ (by simp [taughtByDistortion]))
            (h _ (by simp [taughtByDistortion])) (h _ (by simp [taughtByDistortion]))
          exact (hy.pair (hc.add (((leaves_still r (h .residualDecoder (by simp [taughtByDistortion]))).pair
            ((((leaves_still r (h .residualEncoder (by simp [taughtByDistortion]))).pair (hy.sub hc)).apply _).add
              (Node.Still.const e'))).apply _))).apply _
        · obtain rfl := Option.some.inj hl
          exact hrate h
        · obtain rfl := Option.some.inj hl
          have hc := hcomp (h _ (by simp [taughtByResidual])) (h _ (by simp [taughtByResidual]))
            (h _ (by simp [taughtByResidual])) (h _ (by simp [taughtByResidual]))
          exact (((leaves_still r (h .residualBottleneck (by simp [taughtByResidual]))).pair
            ((((leaves_still r (h .residualEncoder (by simp [taughtByResidual]))).pair (hy.sub hc)).apply _).add
              (Node.Still.const e'))).apply _).apply _
    · exact ih _ _ _ rec h

/-- **C127: which losses there are.**  Stage 1 has no rates, stages 2 and 3 have the rate of the flow, the whole model has
both. -/
theorem C127_rates (s : S) (v : Params W) (x : I) (frames : List (I × La × La)) :
    ∀ rec ∈ train n stage r opt s v x frames,
      (rec.losses.flow.isSome ↔ stage ≠ .one) ∧ (rec.losses.residual.isSome ↔ stage = .whole) := by
  induction frames generalizing s v x with
  | nil => intro rec h; simp [train] at h
  | cons f rest ih =>
    obtain ⟨y, e, e'⟩ := f
    intro rec h
    rcases List.mem_cons.1 h with rfl | h
    · cases stage <;> simp [batchLoss]
    · exact ih _ _ _ rec h

end

/-! ### Non-vacuity -/

/-- A linear operation. -/
def linear {E F : Type} [NormedAddCommGroup E] [NormedSpace ℝ E] [NormedAddCommGroup F] [NormedSpace ℝ F]
    (L : E →L[ℝ] F) : Op E F := ⟨L, fun _ => L⟩

theorem linear_smooth {E F : Type} [NormedAddCommGroup E] [NormedSpace ℝ E] [NormedAddCommGroup F] [NormedSpace ℝ F]
    (L : E →L[ℝ] F) : (linear L).Smooth := fun _ => L.hasFDerivAt

/-- The sum of two numbers. -/
def sum2 : ℝ × ℝ →L[ℝ] ℝ := .fst ℝ ℝ ℝ + .snd ℝ ℝ ℝ

/-- The sum of three numbers. -/
def sum3 : ℝ × ℝ × ℝ →L[ℝ] ℝ := .fst ℝ ℝ (ℝ × ℝ) + sum2.comp (.snd ℝ ℝ (ℝ × ℝ))

/-- Images, flows, latents and parameters are numbers; every network adds its inputs, the decoder of the residual
doubles. -/
noncomputable def tiny : Nets ℝ ℝ ℝ ℝ ℝ where
  estimate := linear sum3
  levels := [linear (.snd ℝ ℝ (ℝ × ℝ)), linear ((sum3).prod (.fst ℝ ℝ (ℝ × ℝ)))]
  encodeFlow := linear sum2
  flowLik := linear sum2
  decodeFlow := linear sum2
  warp := linear sum2
  compensate := linear (.fst ℝ ℝ (ℝ × ℝ × ℝ) + sum3.comp (.snd ℝ ℝ (ℝ × ℝ × ℝ)))
  encodeResidual := linear sum2
  residualLik := linear sum2
  decodeResidual := linear ((2 : ℝ) • sum2)
  distortion := linear sum2
  entropy := linear (.id ℝ ℝ)

theorem tiny_smooth : Smooth tiny :=
  ⟨linear_smooth _, by
    intro l hl
    simp only [tiny, List.mem_cons, List.not_mem_nil, or_false] at hl
    rcases hl with rfl | rfl <;> exact linear_smooth _, linear_smooth _, linear_smooth _, linear_smooth _, linear_smooth _, linear_smooth _,
    linear_smooth _, linear_smooth _, linear_smooth _, linear_smooth _, linear_smooth _⟩

/-- Non-vacuity of `C127_gradient`, and the lists of `C127_routing` cannot be shortened: with all networks trained, the
distortion of the whole model and the two rates change with each of the listed networks. -/
example (v : Params ℝ) (x y : ℝ) : Smooth tiny ∧
    ∃ flow residual, (train tiny .whole (fun _ => true) (fun _ v _ => ((), v)) () v x [(y, 0, 0)]).map
        (fun rec => (rec.losses.flow, rec.losses.residual)) = [(some flow, some residual)] ∧
      (∀ δ, flow.der δ = δ .motionBottleneck + (δ .motionEncoder + δ .estimator)) ∧
      (∀ δ, residual.der δ = δ .residualBottleneck + (δ .residualEncoder - (δ .compensation
        + 2 * (δ .motionDecoder + (δ .motionEncoder + δ .estimator))))) ∧
      ∀ rec ∈ train tiny .whole (fun _ => true) (fun _ v _ => ((), v)) () v x [(y, 0, 0)], ∀ δ,
        rec.losses.distortion.der δ = 2 * (δ .residualDecoder + δ .residualEncoder)
          - (δ .compensation + 2 * (δ .motionDecoder + (δ .motionEncoder + δ .estimator))) := by
  refine ⟨tiny_smooth, _, _, rfl, fun δ => ?_, fun δ => ?_, ?_⟩
  · simp [motion, tiny, linear, sum2, sum3, Node.apply, Node.pair, Node.add, Node.const, Node.leaf]
  · simp [motion, tiny, linear, sum2, sum3, Node.apply, Node.pair, Node.add, Node.sub, Node.const, Node.leaf]
    ring
  · intro rec hr δ
    obtain rfl := List.mem_singleton.1 hr
    simp [batchLoss, motion, tiny, linear, sum2, sum3, Node.apply, Node.pair, Node.add, Node.sub, Node.const, Node.leaf]
    ring

/-- Non-vacuity of `C127_gradient` for stage 1 and two frames: the second pass works on the estimate of the first, with
the parameters after the update. -/
example : (train tiny .one (fun _ => true) (fun _ v _ => ((), fun p => v p + 1)) () (fun _ => 0) 1 [(2, 0, 0), (3, 0, 0)]).map
    (fun rec => (rec.params .estimator, rec.reference, rec.loss.val)) = [(0, 1, 3), (1, 4, 8)] := by
  simp [train, totalLoss, batchLoss, levelMean, tiny, linear, sum2, sum3, Node.apply, Node.pair, Node.add, Node.scale,
    Node.detach, Node.const, Node.leaf]
  norm_num

end Verif.Train.DvcGrad

import Verif.Train.Gop
import Mathlib.Tactic.Ring
import Mathlib.Tactic.NormNum
import Mathlib.Tactic.Linarith
import Mathlib.Algebra.BigOperators.Group.List.Basic

/-!
C63: metrics of a group of pictures.
-/

namespace Verif.Train.Gop

variable {W Img : Type}

/-- Specification: the loss values of the P-frames, where every frame is predicted from the estimate of the frame
before it, with the weights of that time. -/
def terms (n : Net W Img) (train : Bool) : W → Img → List Img → List LossValues
  | _, _, [] => []
  | w, reference, image :: rest =>
    (n.pframe w reference image).1 ::
      terms n train (if train then n.update w reference image else w) (n.pframe w reference image).2 rest

/-- A stage trains an entropy in every frame or in none. -/
def Stage (n : Net W Img) (flow residual : Bool) : Prop :=
  ∀ w a b, (n.pframe w a b).1.flow.isSome = flow ∧ (n.pframe w a b).1.residual.isSome = residual

/-- The rate of a P-frame. -/
def LossValues.rate (l : LossValues) : ℝ := l.flow.getD 0 + l.residual.getD 0

/-- The loss of a P-frame. -/
def LossValues.loss (l : LossValues) : ℝ := l.distortion + l.rate

/-- One frame. -/
theorem compute_spec (l : LossValues) (m : Metrics) (hf : l.flow.isSome = true → m.flow.isSome = true)
    (hr : l.residual.isSome = true → m.residual.isSome = true) :
    computeLossAndMetrics l m = .ok (l.loss, ⟨m.totalLoss + l.loss, m.distortion + l.distortion, m.bpp + l.rate,
      l.flow.map (m.flow.getD 0 + ·), l.residual.map (m.residual.getD 0 + ·)⟩) := by
  obtain ⟨d, f, r⟩ := l
  obtain ⟨mt, md, mb, mf, mr⟩ := m
  cases f with
  | none =>
    cases r with
    | none => simp [computeLossAndMetrics, addEntropy, LossValues.loss, LossValues.rate, bind, Except.bind, pure, Except.pure]
    | some r =>
      cases mr with
      | none => simp at hr
      | some mr =>
        simp [computeLossAndMetrics, addEntropy, addTo, LossValues.loss, LossValues.rate, bind, Except.bind, pure, Except.pure]
  | some f =>
    cases mf with
    | none => simp at hf
    | some mf =>
      cases r with
      | none =>
        simp [computeLossAndMetrics, addEntropy, addTo, LossValues.loss, LossValues.rate, bind, Except.bind, pure, Except.pure]
      | some r =>
        cases mr with
        | none => simp at hr
        | some mr =>
          simp [computeLossAndMetrics, addEntropy, addTo, LossValues.loss, LossValues.rate, bind, Except.bind, pure,
            Except.pure, add_assoc]

/-- The loop adds up the terms. -/
theorem pframes_spec (n : Net W Img) (train flow residual : Bool) (hs : Stage n flow residual) (batch : List Img)
    (k : ℕ) : ∀ (start : ℕ) (w : W) (image1 : Img) (m : Metrics) (last : Option ℝ), start + k < batch.length →
    (flow = true → m.flow.isSome = true) → (residual = true → m.residual.isSome = true) →
    let ts := terms n train w image1 ((batch.drop (start + 1)).take k)
    ∃ m' w' l', pframes n train (List.range' start k) batch w image1 m last = .ok (m', w', l') ∧
      m'.totalLoss = m.totalLoss + (ts.map LossValues.loss).sum ∧
      m'.distortion = m.distortion + (ts.map LossValues.distortion).sum ∧
      m'.bpp = m.bpp + (ts.map LossValues.rate).sum ∧
      (0 < k → m'.flow = if flow then some (m.flow.getD 0 + (ts.map fun l => l.flow.getD 0).sum) else none) ∧
      (0 < k → m'.residual = if residual then some (m.residual.getD 0 + (ts.map fun l => l.residual.getD 0).sum) else none) ∧
      (k = 0 → m' = m ∧ l' = last) ∧ (0 < k → l' = ts.getLast?.map LossValues.loss) := by
  induction k with
  | zero =>
    intro start w image1 m last hlen hf hr ts
    refine ⟨m, w, last, rfl, ?_⟩
    simp [ts, terms]
  | succ k ih =>
    intro start w image1 m last hlen hf hr ts
    have hget : batch[start + 1]? = some batch[start + 1] := List.getElem?_eq_getElem (by omega)
    set image2 := batch[start + 1] with hi
    have hts : ts = (n.pframe w image1 image2).1 :: terms n train (if train then n.update w image1 image2 else w)
        (n.pframe w image1 image2).2 ((batch.drop (start + 1 + 1)).take k) := by
      show terms n train w image1 ((batch.drop (start + 1)).take (k + 1)) = _
      rw [List.drop_eq_getElem_cons (by omega : start + 1 < batch.length), List.take_succ_cons]
      rfl
    obtain ⟨s1, s2⟩ := hs w image1 image2
    set l := (n.pframe w image1 image2).1 with hl
    have hc := compute_spec l m (fun h => hf (s1 ▸ h)) (fun h => hr (s2 ▸ h))
    obtain ⟨m', w', l', e, r1, r2, r3, r4, r5, r6, r7⟩ := ih (start + 1)
      (if train then n.update w image1 image2 else w) (n.pframe w image1 image2).2
      ⟨m.totalLoss + l.loss, m.distortion + l.distortion, m.bpp + l.rate,
        l.flow.map (m.flow.getD 0 + ·), l.residual.map (m.residual.getD 0 + ·)⟩ (some l.loss) (by omega)
      (fun h => by simp [s1, h]) (fun h => by simp [s2, h])
    refine ⟨m', w', l', ?_, ?_, ?_, ?_, fun _ => ?_, fun _ => ?_, fun h => by omega, fun _ => ?_⟩
    · rw [List.range'_succ]
      unfold pframes
      rw [hget]
      dsimp only [bind, Except.bind]
      rw [← hl, hc]
      exact e
    · rw [r1, hts, List.map_cons, List.sum_cons]; ring
    · rw [r2, hts, List.map_cons, List.sum_cons]; ring
    · rw [r3, hts, List.map_cons, List.sum_cons]; ring
    · rw [hts, List.map_cons, List.sum_cons]
      by_cases hk : 0 < k
      · rw [r4 hk]
        cases flow with
        | false => rfl
        | true =>
          obtain ⟨f, hf'⟩ := Option.isSome_iff_exists.1 s1
          rw [hf']
          simp [add_assoc]
      · have hk0 : k = 0 := by omega
        subst hk0
        rw [(r6 rfl).1]
        cases flow with
        | false =>
          have : l.flow = none := by simpa using s1
          simp [this]
        | true =>
          obtain ⟨f, hf'⟩ := Option.isSome_iff_exists.1 s1
          rw [hf']
          simp [terms]
    · rw [hts, List.map_cons, List.sum_cons]
      by_cases hk : 0 < k
      · rw [r5 hk]
        cases residual with
        | false => rfl
        | true =>
          obtain ⟨f, hf'⟩ := Option.isSome_iff_exists.1 s2
          rw [hf']
          simp [add_assoc]
      · have hk0 : k = 0 := by omega
        subst hk0
        rw [(r6 rfl).1]
        cases residual with
        | false =>
          have : l.residual = none := by simpa using s2
          simp [this]
        | true =>
          obtain ⟨f, hf'⟩ := Option.isSome_iff_exists.1 s2
          rw [hf']
          simp [terms]
    · rw [hts]
      by_cases hk : 0 < k
      · rw [r7 hk]
        have hlen' : 0 < ((batch.drop (start + 1 + 1)).take k).length := by
          rw [List.length_take, List.length_drop]; omega
        obtain ⟨a, rest, hrest⟩ : ∃ a rest, (batch.drop (start + 1 + 1)).take k = a :: rest := by
          cases h : (batch.drop (start + 1 + 1)).take k with
          | nil => rw [h] at hlen'; exact absurd hlen' (lt_irrefl 0)
          | cons a rest => exact ⟨a, rest, rfl⟩
        rw [hrest]
        unfold terms
        rw [List.getLast?_cons_cons]
      · have hk0 : k = 0 := by omega
        subst hk0
        rw [(r6 rfl).2]
        simp [terms]

/-- The rate of the I-frame: bits of all its likelihoods per pixel. -/
noncomputable def iframeRate (n : Net W Img) (numPixels : ℕ) (image : Img) : ℝ :=
  (n.iframe image).2.sum / numPixels

theorem sum_map_div (l : List ℝ) (c : ℝ) : (l.map (· / c)).sum = l.sum / c := by
  induction l with
  | nil => simp
  | cons a l ih => rw [List.map_cons, List.sum_cons, ih, List.sum_cons, add_div]

/-- **C63, training (the part that holds).** For every number of P-frames of at least one, every batch with enough
frames, every stage and all networks: the step succeeds, and what is logged is the sum of the per-frame terms divided by
the number of frames; the total rate includes the rate of the I-frame; the flow and residual rates are logged exactly if
the stage trains them. -/
theorem C63_training_partial (n : Net W Img) (flow residual : Bool) (hs : Stage n flow residual) (numPframes numPixels : ℕ)
    (first : Img) (rest : List Img) (w : W) (h0 : 0 < numPframes) (hlen : numPframes ≤ rest.length) :
    let ts := terms n true w (n.iframe first).1 (rest.take numPframes)
    ∃ m w', trainingStep n numPframes numPixels (first :: rest) w = .ok (m, w', (n.iframe first).1 :: rest) ∧
      m.bpp * (numPframes + 1) = iframeRate n numPixels first + (ts.map LossValues.rate).sum ∧
      m.totalLoss * (numPframes + 1) = (ts.map LossValues.loss).sum ∧
      m.distortion * (numPframes + 1) = (ts.map LossValues.distortion).sum ∧
      (m.flow.isSome = flow ∧ ∀ f, m.flow = some f → f * (numPframes + 1) = (ts.map fun l => l.flow.getD 0).sum) ∧
      (m.residual.isSome = residual ∧
        ∀ f, m.residual = some f → f * (numPframes + 1) = (ts.map fun l => l.residual.getD 0).sum) := by
  intro ts
  obtain ⟨m', w', l', e, r1, r2, r3, r4, r5, -, -⟩ := pframes_spec n true flow residual hs ((n.iframe first).1 :: rest)
    numPframes 0 w (n.iframe first).1 ⟨0, 0, ((n.iframe first).2.map (· / (numPixels : ℝ))).sum, some 0, some 0⟩ none
    (by rw [List.length_cons]; omega) (fun _ => rfl) (fun _ => rfl)
  have hpos : ((numPframes + 1 : ℕ) : ℝ) ≠ 0 := by positivity
  have hcast : ((numPframes + 1 : ℕ) : ℝ) = numPframes + 1 := by push_cast; ring
  have h1 := r4 h0
  have h2 := r5 h0
  rw [← List.range_eq_range'] at e
  refine ⟨logAll (numPframes + 1) m', w', ?_, ?_, ?_, ?_, ⟨?_, ?_⟩, ?_, ?_⟩
  · unfold trainingStep compressIframe
    dsimp only [bind, Except.bind, pure, Except.pure]
    rw [List.getElem?_cons_zero]
    dsimp only
    rw [e]
    dsimp only
    rw [if_neg (by omega)]
  · show m'.bpp / _ * _ = _
    rw [← hcast, div_mul_cancel₀ _ hpos, r3, sum_map_div]
    rfl
  · show m'.totalLoss / _ * _ = _
    rw [← hcast, div_mul_cancel₀ _ hpos, r1, zero_add]
    rfl
  · show m'.distortion / _ * _ = _
    rw [← hcast, div_mul_cancel₀ _ hpos, r2, zero_add]
    rfl
  · show (m'.flow.map _).isSome = flow
    rw [h1]
    cases flow <;> rfl
  · intro f hf
    change m'.flow.map _ = some f at hf
    rw [h1] at hf
    cases flow with
    | false => exact (nomatch hf)
    | true =>
      simp only [if_true, Option.map_some, Option.some.injEq, Option.getD_some, zero_add] at hf
      rw [← hf, ← hcast, div_mul_cancel₀ _ hpos]
      rfl
  · show (m'.residual.map _).isSome = residual
    rw [h2]
    cases residual <;> rfl
  · intro f hf
    change m'.residual.map _ = some f at hf
    rw [h2] at hf
    cases residual with
    | false => exact (nomatch hf)
    | true =>
      simp only [if_true, Option.map_some, Option.some.injEq, Option.getD_some, zero_add] at hf
      rw [← hf, ← hcast, div_mul_cancel₀ _ hpos]
      rfl

/-- **C63, validation (the part that holds).** The same for validation, but the logged total rate is that of the P-frames
alone, and `val_loss` is the loss of the last frame alone. -/
theorem C63_validation_partial (n : Net W Img) (flow residual : Bool) (hs : Stage n flow residual)
    (numPframes numPixels : ℕ) (first : Img) (rest : List Img) (w : W) (h0 : 0 < numPframes)
    (hlen : numPframes ≤ rest.length) :
    let ts := terms n false w (n.iframe first).1 (rest.take numPframes)
    ∃ m loss, validationStep n numPframes numPixels (first :: rest) w = .ok (m, loss) ∧
      m.bpp * (numPframes + 1) = (ts.map LossValues.rate).sum ∧
      m.totalLoss * (numPframes + 1) = (ts.map LossValues.loss).sum ∧
      m.distortion * (numPframes + 1) = (ts.map LossValues.distortion).sum ∧
      (m.flow.isSome = flow ∧ ∀ f, m.flow = some f → f * (numPframes + 1) = (ts.map fun l => l.flow.getD 0).sum) ∧
      (m.residual.isSome = residual ∧
        ∀ f, m.residual = some f → f * (numPframes + 1) = (ts.map fun l => l.residual.getD 0).sum) ∧
      ts.getLast?.map LossValues.loss = some loss := by
  intro ts
  obtain ⟨m', w', l', e, r1, r2, r3, r4, r5, -, r7⟩ := pframes_spec n false flow residual hs ((n.iframe first).1 :: rest)
    numPframes 0 w (n.iframe first).1 ⟨0, 0, 0, some 0, some 0⟩ none
    (by rw [List.length_cons]; omega) (fun _ => rfl) (fun _ => rfl)
  have hpos : ((numPframes + 1 : ℕ) : ℝ) ≠ 0 := by positivity
  have hcast : ((numPframes + 1 : ℕ) : ℝ) = numPframes + 1 := by push_cast; ring
  have h1 := r4 h0
  have h2 := r5 h0
  have h3 := r7 h0
  rw [← List.range_eq_range'] at e
  have hlast : ∃ loss, l' = some loss := by
    rw [h3]
    cases numPframes with
    | zero => omega
    | succ k =>
      cases rest with
      | nil => simp at hlen
      | cons a rest => exact ⟨_, by rw [List.getLast?_eq_getLast_of_ne_nil (by simp [terms]), Option.map_some]⟩
  obtain ⟨loss, hloss⟩ := hlast
  subst hloss
  refine ⟨logAll (numPframes + 1) m', loss, ?_, ?_, ?_, ?_, ⟨?_, ?_⟩, ⟨?_, ?_⟩, h3.symm⟩
  · unfold validationStep compressIframe
    dsimp only [bind, Except.bind, pure, Except.pure]
    rw [List.getElem?_cons_zero]
    dsimp only
    rw [e]
  · show m'.bpp / _ * _ = _
    rw [← hcast, div_mul_cancel₀ _ hpos, r3, zero_add]
    rfl
  · show m'.totalLoss / _ * _ = _
    rw [← hcast, div_mul_cancel₀ _ hpos, r1, zero_add]
    rfl
  · show m'.distortion / _ * _ = _
    rw [← hcast, div_mul_cancel₀ _ hpos, r2, zero_add]
    rfl
  · show (m'.flow.map _).isSome = flow
    rw [h1]
    cases flow <;> rfl
  · intro f hf
    change m'.flow.map _ = some f at hf
    rw [h1] at hf
    cases flow with
    | false => exact (nomatch hf)
    | true =>
      simp only [if_true, Option.map_some, Option.some.injEq, Option.getD_some, zero_add] at hf
      rw [← hf, ← hcast, div_mul_cancel₀ _ hpos]
      rfl
  · show (m'.residual.map _).isSome = residual
    rw [h2]
    cases residual <;> rfl
  · intro f hf
    change m'.residual.map _ = some f at hf
    rw [h2] at hf
    cases residual with
    | false => exact (nomatch hf)
    | true =>
      simp only [if_true, Option.map_some, Option.some.injEq, Option.getD_some, zero_add] at hf
      rw [← hf, ← hcast, div_mul_cancel₀ _ hpos]
      rfl

/-- **C63 is violated.** Whenever the I-frame costs anything, validation logs a total rate below the sum of the terms. -/
theorem C63_violated (n : Net W Img) (flow residual : Bool) (hs : Stage n flow residual) (numPframes numPixels : ℕ)
    (first : Img) (rest : List Img) (w : W) (h0 : 0 < numPframes) (hlen : numPframes ≤ rest.length)
    (hi : 0 < iframeRate n numPixels first) (m : Metrics) (loss : ℝ)
    (h : validationStep n numPframes numPixels (first :: rest) w = .ok (m, loss)) :
    m.bpp * (numPframes + 1) < iframeRate n numPixels first +
      ((terms n false w (n.iframe first).1 (rest.take numPframes)).map LossValues.rate).sum := by
  obtain ⟨m', loss', e, hb, -⟩ := C63_validation_partial n flow residual hs numPframes numPixels first rest w h0 hlen
  rw [h] at e
  injection e with e
  injection e with e1 e2
  subst e1
  linarith

/-- Without P-frames both steps raise, training at the PSNR, validation at the unbound loss. -/
theorem C63_no_pframes (n : Net W Img) (numPixels : ℕ) (first : Img) (rest : List Img) (w : W) :
    trainingStep n 0 numPixels (first :: rest) w = .error .runtime ∧
      validationStep n 0 numPixels (first :: rest) w = .error .unbound := ⟨rfl, rfl⟩

/-- A network for the examples: images are numbers, the estimate is the image, an I-frame costs eight bits. -/
noncomputable def exampleNet : Net Unit ℝ where
  iframe := fun x => (x, [8])
  pframe := fun _ a b => (⟨b - a, some 1, some 2⟩, b)
  update := fun w _ _ => w

/-- The hypotheses of C63 hold in the example, with a positive I-frame rate. -/
example : Stage exampleNet true true ∧ 0 < iframeRate exampleNet 4 0 ∧
    (terms exampleNet true () 0 [1, 3]).map LossValues.rate = [3, 3] := by
  refine ⟨fun _ _ _ => ⟨rfl, rfl⟩, by norm_num [iframeRate, exampleNet], by norm_num [terms, exampleNet, LossValues.rate]⟩

end Verif.Train.Gop

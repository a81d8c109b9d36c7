import Verif.Vct.History
import Mathlib.Tactic.NormNum
import Mathlib.Tactic.Ring

/-!
# C102: calls on the video model over time
-/

namespace Verif.Vct.Hist

open Pipe

/-! ### Specification -/

/-- A video that can be coded: one clip of RGB frames, at least one frame, supported sizes, and a number of frames the
transforms can chunk. -/
def Codable (m : Model) (v : Video) : Prop :=
  v.B = 1 ∧ v.c = 3 ∧ 1 ≤ v.T ∧ Supported v.H ∧ Supported v.W ∧ m.t.chunkOk v.T = true

/-- Calls that neither compress nor test. -/
def Op.Plain : Op → Prop
  | .compress _ => False
  | .test _ _ => False
  | _ => True

/-! ### Lemmas -/

theorem run_append (m : Model) (s : St) (a b : List Op) : run m s (a ++ b) = run m (run m s a) b := by
  simp [run, List.foldl_append]

theorem forwardAxis_ok (t : Transform) (training : Bool) (bt : ℕ) {n : ℕ} (hs : Supported n)
    (hc : t.chunkOk bt = true) : forwardAxis t training bt n = .ok n := by
  have hn : 1 ≤ n := by unfold Supported at hs; omega
  obtain ⟨h1, h2⟩ := C33_partial t training bt hn
  obtain ⟨r, hr⟩ := h2.2 ⟨hc, hs⟩
  rw [hr, h1 r hr]

theorem padAmount_lt (t : Transform) (n : ℕ) : padAmount t n < 16 := by
  have := (C33_padding t n).2.1
  cases t <;> simp only [Transform.numDown] at this <;> omega

theorem pad_div (t : Transform) {n : ℕ} (hn : 1 ≤ n) : (n + padAmount t n - 1) / 16 = (n - 1) / 16 := by
  cases t <;> simp only [padAmount, Transform.numDown] <;> norm_num <;> omega

theorem compressAxis_ok (t : Transform) (bt : ℕ) {n : ℕ} (hn : 1 ≤ n) :
    (∃ r, compressAxis t bt n = .ok r) ↔ t.chunkOk bt = true ∧ Supported n := by
  have hp := padAmount_lt t n
  unfold compressAxis padAxis
  by_cases h1 : padAmount t n < n
  · simp only [if_pos h1]
    by_cases h2 : t.chunkOk bt = true
    · simp only [h2, if_true, true_and]
      rw [analysis_eq t (by omega : 1 ≤ n + padAmount t n), pad_div t hn]
      unfold entropyAxis ceilDiv Supported
      simp only
      split_ifs with h <;> simp <;> omega
    · simp [h2]
  · simp only [if_neg h1]
    constructor
    · rintro ⟨r, hr⟩; exact absurd hr (by simp)
    · rintro ⟨_, hs⟩; unfold Supported at hs; omega

theorem compressAxis_val (t : Transform) (bt : ℕ) {n r : ℕ} (hn : 1 ≤ n) (h : compressAxis t bt n = .ok r) :
    r = (n - 1) / 16 + 1 := by
  unfold compressAxis padAxis at h
  by_cases h1 : padAmount t n < n
  · simp only [if_pos h1] at h
    by_cases h2 : t.chunkOk bt = true
    · simp only [h2, if_true] at h
      rw [analysis_eq t (by omega : 1 ≤ n + padAmount t n), pad_div t hn] at h
      unfold entropyAxis at h
      simp only at h
      split_ifs at h
      simpa using h.symm
    · simp [h2] at h
  · simp [if_neg h1] at h

theorem sceneShapes_plain (s : St) (b p ch : ℕ) (h : s.training = true ∨ s.strings ≠ some true) :
    ∀ i n, sceneShapes s b p ch i n = .ok (List.replicate n [b * p, 16, ch]) := by
  have hl : ∀ i, likShape s b p ch i = .ok [b * p, 16, ch] := by
    intro i
    have : (!s.training && s.strings == some true) = false := by
      rcases h with h | h
      · simp [h]
      · simp [h]
    simp only [likShape, this, Bool.false_eq_true, if_false, ite_self]
  intro i n
  induction n generalizing i with
  | zero => rfl
  | succ n ih => simp only [sceneShapes, hl, ih, List.replicate_succ]

theorem stack_replicate (n : ℕ) (x : List ℕ) (hn : 1 ≤ n) : stack (List.replicate n x) = .ok (n :: x) := by
  obtain ⟨k, rfl⟩ : ∃ k, n = k + 1 := ⟨n - 1, by omega⟩
  simp [List.replicate_succ, stack]

theorem frameBits_prepare (m : Model) (s : St) (v : Video) (hB : v.B = 1) (i : ℕ) :
    frameBits m (prepare s) v i = .ok (if i = 0 then rate (m.lik0 v) else ((m.bytes v i * 8 : ℕ) : ℝ)) := by
  by_cases hi : i = 0
  · simp [frameBits, likShape, hi]
  · simp [frameBits, likShape, hi, prepare, hB]

theorem allBits_prepare (m : Model) (s : St) (v : Video) (hB : v.B = 1) : ∀ n i,
    allBits m (prepare s) v i n =
      .ok ((List.range' i n).map fun j => if j = 0 then rate (m.lik0 v) else ((m.bytes v j * 8 : ℕ) : ℝ)) := by
  intro n
  induction n with
  | zero => intro i; rfl
  | succ n ih => intro i; simp only [allBits, frameBits_prepare m s v hB, ih, List.range'_succ, List.map_cons]

/-! ### Compression does not depend on the history -/

/-- The bits reported for the frames of a video. -/
noncomputable def reported (m : Model) (v : Video) : List ℝ :=
  (List.range v.T).map fun j => if j = 0 then rate (m.lik0 v) else ((m.bytes v j * 8 : ℕ) : ℝ)

theorem compress_result (m : Model) (s : St) (v : Video) (hc : Codable m v) :
    (compressVideo m s v).2 = .ok ([1, v.T, m.ch, (v.H - 1) / 16 + 1, (v.W - 1) / 16 + 1], reported m v) := by
  obtain ⟨hB, h3, hT, hH, hW, hk⟩ := hc
  have hH1 : 1 ≤ v.H := by unfold Supported at hH; omega
  have hW1 : 1 ≤ v.W := by unfold Supported at hW; omega
  have hbt : v.B * v.T = v.T := by rw [hB, Nat.one_mul]
  obtain ⟨h, hh⟩ := (compressAxis_ok m.t v.T hH1).2 ⟨hk, hH⟩
  obtain ⟨w, hw⟩ := (compressAxis_ok m.t v.T hW1).2 ⟨hk, hW⟩
  have eh := compressAxis_val m.t v.T hH1 hh
  have ew := compressAxis_val m.t v.T hW1 hw
  subst eh ew
  have hne : reported m v ≠ [] := by
    intro h0
    have := congrArg List.length h0
    simp [reported] at this
    omega
  simp only [compressVideo]
  rw [if_neg (by omega), if_neg (by omega), hbt, hh, hw]
  simp only [liftS, allBits_prepare m s v hB]
  rw [← List.range_eq_range']
  exact if_neg hne

/-- **C102, compression and the past.**  Whatever calls came before, compressing a video gives the same result: for a
codable video the latents and one number of bits per frame; it returns for codable videos only (of positive size). -/
theorem C102_compress (m : Model) (ops : List Op) (v : Video) (hH : 1 ≤ v.H) (hW : 1 ≤ v.W) :
    (compressVideo m (run m fresh ops) v).2 = (compressVideo m fresh v).2 ∧
      ((∃ r, (compressVideo m (run m fresh ops) v).2 = .ok r) ↔ Codable m v) ∧
      ∀ lat bits, (compressVideo m (run m fresh ops) v).2 = .ok (lat, bits) → bits.length = v.T := by
  have key : ∀ s r, (compressVideo m s v).2 = .ok r → Codable m v := by
    intro s r hr
    simp only [compressVideo] at hr
    split_ifs at hr with h1 h2
    have hB : v.B = 1 := not_not.1 h1
    rw [hB, Nat.one_mul] at hr
    cases hh : compressAxis m.t v.T v.H with
    | error e => simp [hh, liftS] at hr
    | ok h =>
      cases hw : compressAxis m.t v.T v.W with
      | error e => simp [hh, hw, liftS] at hr
      | ok w =>
        simp only [hh, hw, liftS, allBits_prepare m s v hB] at hr
        obtain ⟨hk, sH⟩ := (compressAxis_ok m.t v.T hH).1 ⟨h, hh⟩
        obtain ⟨_, sW⟩ := (compressAxis_ok m.t v.T hW).1 ⟨w, hw⟩
        refine ⟨hB, not_not.1 h2, ?_, sH, sW, hk⟩
        by_contra hT
        have : v.T = 0 := by omega
        simp [this] at hr
  have iff : ∀ s, (∃ r, (compressVideo m s v).2 = .ok r) ↔ Codable m v :=
    fun s => ⟨fun ⟨r, hr⟩ => key s r hr, fun hc => ⟨_, compress_result m s v hc⟩⟩
  refine ⟨?_, iff _, fun lat bits hr => ?_⟩
  · have hp : ∀ s n i, v.B = 1 → allBits m (prepare s) v i n = allBits m (prepare fresh) v i n := by
      intro s n i hB; rw [allBits_prepare m s v hB, allBits_prepare m fresh v hB]
    simp only [compressVideo]
    by_cases hB : v.B = 1
    · rw [hp _ _ _ hB]
    · simp [hB]
  · rw [compress_result m _ v ((iff _).1 ⟨_, hr⟩)] at hr
    simp only [Except.ok.injEq, Prod.mk.injEq] at hr
    rw [← hr.2]; simp [reported]

/-- **C102, the round trip.**  For a codable video, decompressing what compression returned gives frames of the shape of
the video, whatever calls came before. -/
theorem C102_roundtrip (m : Model) (ops : List Op) (v : Video) (hc : Codable m v) :
    ∃ lat bits, (compressVideo m (run m fresh ops) v).2 = .ok (lat, bits) ∧
      decompressVideo m v lat = .ok [1, v.T, 3, v.H, v.W] := by
  refine ⟨_, _, compress_result m _ v hc, ?_⟩
  obtain ⟨-, -, -, hH, hW, hk⟩ := hc
  have e : ∀ n, Supported n → min n (m.t.synthesis ((n - 1) / 16 + 1)) = n := by
    intro n hn
    rw [synthesis_eq m.t (by omega)]
    unfold Supported at hn
    omega
  simp only [decompressVideo, Nat.one_mul, hk, if_true, e _ hH, e _ hW]

/-- **C102, the reported bits (the part that holds).**  For every frame after the first, the reported number of bits is
eight times the number of bytes of the strings of that frame. -/
theorem C102_bits_partial (m : Model) (ops : List Op) (v : Video) {lat : List ℕ} {bits : List ℝ} (hH : 1 ≤ v.H)
    (hW : 1 ≤ v.W) (h : (compressVideo m (run m fresh ops) v).2 = .ok (lat, bits)) (i : ℕ) (hi : 1 ≤ i) (hT : i < v.T) :
    bits[i]? = some ((8 * m.bytes v i : ℕ) : ℝ) := by
  have hc := (C102_compress m ops v hH hW).2.1.1 ⟨_, h⟩
  rw [compress_result m _ v hc] at h
  simp only [Except.ok.injEq, Prod.mk.injEq] at h
  rw [← h.2]
  have h0 : i ≠ 0 := by omega
  simp [reported, hT, h0, mul_comm]

/-- **C102 fails for the first frame.**  No string is made for it: the number of bits reported is the estimate from the
likelihoods, which is no number of whole bytes in general. -/
theorem C102_violated_bits (m : Model) (v : Video) (hc : Codable m v) (hl : m.lik0 v = [1 / 2]) (ops : List Op) :
    ∃ lat bits, (compressVideo m (run m fresh ops) v).2 = .ok (lat, bits) ∧ bits[0]? = some 1 ∧
      ∀ n : ℕ, bits[0]? ≠ some ((8 * n : ℕ) : ℝ) := by
  refine ⟨_, _, compress_result m _ v hc, ?_⟩
  have hT : 0 < v.T := hc.2.2.1
  have hr : rate [1 / 2] = 1 := by
    have h2 : Real.log 2 ≠ 0 := by
      have := Real.log_pos (by norm_num : (1 : ℝ) < 2)
      exact this.ne'
    simp only [rate, List.map_cons, List.map_nil, List.sum_cons, List.sum_nil, add_zero]
    rw [one_div, Real.log_inv, neg_div_neg_eq, div_self h2]
  have h0 : (reported m v)[0]? = some 1 := by
    rw [← hr, ← hl]
    simp [reported, hT]
  refine ⟨h0, fun n hn => ?_⟩
  rw [h0, Option.some.injEq] at hn
  have : (1 : ℕ) = 8 * n := by exact_mod_cast hn
  omega

/-! ### The evaluation pass depends on the history -/

theorem plain_run (m : Model) (ops : List Op) (hp : ∀ o ∈ ops, o.Plain) (s : St) :
    (run m s ops).strings = s.strings ∧ (run m s ops).tables = s.tables := by
  induction ops generalizing s with
  | nil => exact ⟨rfl, rfl⟩
  | cons o ops ih =>
    have h1 := ih (fun o ho => hp o (List.mem_cons_of_mem _ ho)) (step m s o)
    have h2 := hp o List.mem_cons_self
    have : (step m s o).strings = s.strings ∧ (step m s o).tables = s.tables := by
      cases o <;> simp_all [step, Op.Plain]
    exact ⟨h1.1.trans this.1, h1.2.trans this.2⟩

/-- The full property: evaluating a video does not depend on the calls made before, if the mode is the same. -/
def ForwardHistoryFree : Prop :=
  ∀ (m : Model) (a b : List Op) (v : Video), (run m fresh a).training = (run m fresh b).training →
    forward m (run m fresh a) v = forward m (run m fresh b) v

/-- **C102, the forward pass (the part that holds).**  After any history, in training mode; and in evaluation mode if the
model was never asked to compress or test: the forward pass returns frames of the shape of the video and, per frame, the
likelihoods of all its symbols, for every RGB video of supported size with a frame. -/
theorem C102_forward_partial (m : Model) (ops : List Op) (v : Video)
    (hp : (run m fresh ops).training = true ∨ ∀ o ∈ ops, o.Plain) (h3 : v.c = 3) (hT : 1 ≤ v.T) (hH : Supported v.H)
    (hW : Supported v.W) (hk : m.t.chunkOk (v.B * v.T) = true) :
    forward m (run m fresh ops) v =
      .ok ([v.B, v.T, 3, v.H, v.W],
        [v.T, v.B * (ceilDiv ((v.H - 1) / 16 + 1) 4 * ceilDiv ((v.W - 1) / 16 + 1) 4), 16, m.ch]) := by
  set s := run m fresh ops with hs
  have hplain : s.training = true ∨ s.strings ≠ some true := by
    rcases hp with h | h
    · exact Or.inl h
    · right; rw [hs, (plain_run m ops h fresh).1]; simp [fresh]
  have hl : ∀ n, Supported n → latentAxis m.t s.training n = (n - 1) / 16 + 1 := by
    intro n hn
    have hn1 : 1 ≤ n := by unfold Supported at hn; omega
    unfold latentAxis
    split_ifs
    · exact analysis_eq m.t hn1
    · rw [analysis_eq m.t (by omega), pad_div m.t hn1]
  simp only [forward, h3, ne_eq, not_true, if_false, forwardAxis_ok m.t s.training _ hH hk,
    forwardAxis_ok m.t s.training _ hW hk, liftS, sceneShapes_plain s _ _ _ hplain, stack_replicate _ _ hT, windows,
    hl _ hH, hl _ hW]

/-- After `compress_video`, even one that raised, the flags stay until a test step clears them. -/
theorem strings_after (m : Model) (ops later : List Op) (v : Video) (hp : ∀ o ∈ later, o.Plain) :
    (run m fresh (ops ++ .compress v :: later)).strings = some true ∧
      (run m fresh (ops ++ .compress v :: later)).tables = true := by
  rw [run_append]
  have : run m (run m fresh ops) (.compress v :: later) = run m (prepare (run m fresh ops)) later := rfl
  rw [this]
  have := plain_run m later hp (prepare (run m fresh ops))
  exact ⟨this.1, this.2⟩

/-- **C102 fails for the evaluation pass.**  Once the model has been asked to compress anything, even if that call raised,
every later evaluation of a video of two or more frames raises (for one clip because the likelihoods have different
shapes, for more clips because of an assertion), however often modes are changed and other passes are made. -/
theorem C102_violated_forward (m : Model) (ops later : List Op) (u v : Video) (hp : ∀ o ∈ later, o.Plain)
    (hm : (run m fresh (ops ++ .compress u :: later)).training = false) (h3 : v.c = 3) (hT : 2 ≤ v.T)
    (hH : Supported v.H) (hW : Supported v.W) (hk : m.t.chunkOk (v.B * v.T) = true) :
    forward m (run m fresh (ops ++ .compress u :: later)) v = .error (if v.B = 1 then .stack else .batch) := by
  obtain ⟨hs, ht⟩ := strings_after m ops later u hp
  set s := run m fresh (ops ++ .compress u :: later)
  obtain ⟨k, hk'⟩ : ∃ k, v.T = k + 2 := ⟨v.T - 2, by omega⟩
  simp only [forward, h3, ne_eq, not_true, if_false, forwardAxis_ok m.t s.training _ hH hk,
    forwardAxis_ok m.t s.training _ hW hk, liftS]
  rw [hk']
  have l0 : ∀ p, likShape s v.B p m.ch 0 = .ok [v.B * p, 16, m.ch] := fun p => by simp [likShape]
  have l1 : ∀ p i, i ≠ 0 → likShape s v.B p m.ch i = if v.B = 1 then .ok [1] else .error .batch := by
    intro p i hi
    by_cases hB : v.B = 1
    · simp [likShape, hi, hm, hs, ht, hB]
    · simp [likShape, hi, hm, hs, hB]
  by_cases hB : v.B = 1
  · have rest : ∀ p n i, i ≠ 0 → sceneShapes s v.B p m.ch i n = .ok (List.replicate n [1]) := by
      intro p n
      induction n with
      | zero => intro i _; rfl
      | succ n ih =>
        intro i hi
        rw [sceneShapes, l1 p i hi, if_pos hB]
        simp only [ih (i + 1) (by omega), List.replicate_succ]
    have e : ∀ p, sceneShapes s v.B p m.ch 0 (k + 2) = .ok ([v.B * p, 16, m.ch] :: List.replicate (k + 1) [1]) := by
      intro p
      rw [sceneShapes, l0]
      simp only [rest p (k + 1) 1 (by omega)]
    have ne : ∀ p, (([1] : List ℕ) == [v.B * p, 16, m.ch]) = false := fun p => by simp
    simp only [e, stack, List.replicate_succ, List.all_cons, ne, Bool.false_and, Bool.false_eq_true, if_false,
      if_pos hB]
  · have e : ∀ p, sceneShapes s v.B p m.ch 0 (k + 2) = .error .batch := by
      intro p
      simp only [sceneShapes, l0, l1 p (0 + 1) (by omega), hB, if_false]
    simp only [e, hB, if_false]

/-- A model and a video for the examples: `ConvGDN` transforms, one clip of two RGB frames of size 64 × 64. -/
noncomputable def exModel : Model := ⟨.convGDN, 192, fun _ => [1 / 2], fun _ i => i⟩

/-- See `exModel`. -/
def exVideo : Video := ⟨1, 2, 3, 64, 64⟩

theorem exCodable : Codable exModel exVideo := by
  refine ⟨rfl, rfl, by decide, ?_, ?_, rfl⟩ <;> simp [Supported, exVideo]

example : ∃ lat bits, (compressVideo exModel (run exModel fresh [.moduleTrain false, .compress exVideo]) exVideo).2 =
    .ok (lat, bits) ∧ bits[1]? = some ((8 * 1 : ℕ) : ℝ) :=
  ⟨_, _, compress_result exModel _ exVideo exCodable,
    C102_bits_partial exModel [.moduleTrain false, .compress exVideo] exVideo (by decide) (by decide)
      (compress_result exModel _ exVideo exCodable) 1 (by decide) (by decide)⟩

example : ∃ lat bits, (compressVideo exModel (run exModel fresh []) exVideo).2 = .ok (lat, bits) ∧ bits[0]? = some 1 ∧
    ∀ n : ℕ, bits[0]? ≠ some ((8 * n : ℕ) : ℝ) := C102_violated_bits exModel exVideo exCodable rfl []

/-- **C102: the forward pass depends on the history**: the same video in evaluation mode, before and after a compression. -/
theorem C102_violated_history : ¬ ForwardHistoryFree := by
  intro h
  have h1 := h exModel [.moduleTrain false] [.moduleTrain false, .compress exVideo] exVideo rfl
  have hS : Supported 64 := by simp [Supported]
  rw [C102_forward_partial exModel [.moduleTrain false] exVideo (Or.inr (by simp [Op.Plain])) rfl (by decide) hS hS rfl] at h1
  rw [show [Op.moduleTrain false, .compress exVideo] = [.moduleTrain false] ++ .compress exVideo :: [] from rfl,
    C102_violated_forward exModel [.moduleTrain false] [] exVideo exVideo (by simp) rfl rfl (by decide) hS hS rfl] at h1
  exact absurd h1 (by simp)

/-- What a call tells the module about its mode. -/
def Op.mode : Op → Option Bool
  | .moduleTrain b => some b
  | _ => none

/-- **C102, the mode of the module.**  It is what the last call of `train` or `eval` on the module said; a new module is
training, and then a test step refuses the video. -/
theorem C102_mode (m : Model) (ops : List Op) :
    (run m fresh ops).moduleTraining = (ops.filterMap Op.mode).getLast?.getD true ∧
      ((ops.filterMap Op.mode).getLast?.getD true = true → ∀ r v, v.B = 1 →
        (testStep m (run m fresh ops) r v).2 = .error .mode) := by
  have key : ∀ s : St, (run m s ops).moduleTraining = (ops.filterMap Op.mode).getLast?.getD s.moduleTraining := by
    intro s
    induction ops generalizing s with
    | nil => rfl
    | cons o ops ih =>
      have h := ih (step m s o)
      rw [show run m s (o :: ops) = run m (step m s o) ops from rfl, h]
      cases o with
      | moduleTrain b =>
        rw [show (Op.moduleTrain b :: ops).filterMap Op.mode = b :: ops.filterMap Op.mode from rfl]
        generalize ops.filterMap Op.mode = l
        rcases l with _ | ⟨x, xs⟩ <;> simp [step, List.getLast?_cons_cons, List.getLast?_cons]
      | test r v =>
        have : (testStep m s r v).1.moduleTraining = s.moduleTraining := by
          unfold testStep
          split_ifs <;> first
            | rfl
            | (dsimp only; split <;> rfl)
        simp [step, Op.mode, this]
      | _ => simp [step, Op.mode, compressVideo, prepare]
  refine ⟨key fresh, fun h r v hv => ?_⟩
  have h' : (run m fresh ops).moduleTraining = true := (key fresh).trans h
  simp [testStep, hv, h']

/-- **C102, the mode of the pipeline.**  Without compression and test steps it is what the last call said; a new pipeline is
training and has no tables. -/
theorem C102_pipeline_mode (m : Model) (ops : List Op) (hp : ∀ o ∈ ops, o.Plain) :
    (run m fresh ops).tables = false ∧
      ((∀ b, Op.moduleTrain b ∉ ops ∧ Op.pipeTrain b ∉ ops) → (run m fresh ops).training = true) := by
  refine ⟨(plain_run m ops hp fresh).2, fun h => ?_⟩
  have key : ∀ s : St, (run m s ops).training = s.training := by
    intro s
    induction ops generalizing s with
    | nil => rfl
    | cons o ops ih =>
      rw [show run m s (o :: ops) = run m (step m s o) ops from rfl,
        ih (fun o ho => hp o (List.mem_cons_of_mem _ ho))
          (fun b => ⟨fun hb => (h b).1 (List.mem_cons_of_mem _ hb), fun hb => (h b).2 (List.mem_cons_of_mem _ hb)⟩)]
      have h2 := hp o List.mem_cons_self
      cases o with
      | moduleTrain b => exact absurd List.mem_cons_self (h b).1
      | pipeTrain b => exact absurd List.mem_cons_self (h b).2
      | _ => simp_all [step, Op.Plain]
  exact key fresh

/-- Non-vacuity of `C102_mode`: the mode after a history of modes, and of a new module. -/
example (m : Model) (v : Video) : (run m fresh [.moduleTrain false, .compress v]).moduleTraining = false ∧
    (run m fresh [.forward v]).moduleTraining = true := by
  constructor
  · rw [(C102_mode m _).1]; rfl
  · rw [(C102_mode m _).1]; rfl

/-- **C102, the tables.**  No history leads to a state in which coding is attempted without tables. -/
theorem C102_tables (m : Model) (ops : List Op) :
    (run m fresh ops).strings = some true → (run m fresh ops).tables = true := by
  suffices ∀ s : St, (s.strings = some true → s.tables = true) →
      (run m s ops).strings = some true → (run m s ops).tables = true from this fresh (by simp [fresh])
  induction ops with
  | nil => intro s hs; exact hs
  | cons o ops ih =>
    intro s hs
    apply ih (step m s o)
    cases o with
    | moduleTrain b => exact hs
    | pipeTrain b => exact hs
    | forward v => exact hs
    | decompress v l => exact hs
    | compress v => intro _; rfl
    | test r v =>
      simp only [step, testStep]
      by_cases h1 : v.B ≠ 1
      · rw [if_pos h1]; exact hs
      rw [if_neg h1]
      by_cases h2 : s.moduleTraining = true
      · rw [if_pos h2]; exact hs
      rw [if_neg h2]
      cases r with
      | false => intro _; rfl
      | true =>
        rw [if_pos rfl]
        cases hf : forward m { s with strings := some false } v with
        | error e => simp
        | ok x =>
          simp only
          by_cases h3 : v.H * v.W * (v.T - 1) = 0
          · rw [if_pos h3]; simp
          · rw [if_neg h3]; intro _; rfl

/-- **C102, test steps and the past.**  A test step gives the same result after any history that leaves the module in
evaluation mode: for a codable video of at least two frames, the bits of all frames per pixel and the bits of the
frames after the first per pixel of these frames. -/
theorem C102_test (m : Model) (ops : List Op) (r : Bool) (v : Video)
    (hm : (run m fresh ops).moduleTraining = false) (hc : Codable m v) (hT : 2 ≤ v.T) :
    (testStep m (run m fresh ops) r v).2 =
      .ok ((reported m v).sum / (v.H * v.W * v.T : ℕ), ((reported m v).drop 1).sum / (v.H * v.W * (v.T - 1) : ℕ)) := by
  set s := run m fresh ops
  have hH1 : 0 < v.H := by have := hc.2.2.2.1; unfold Supported at this; omega
  have hW1 : 0 < v.W := by have := hc.2.2.2.2.1; unfold Supported at this; omega
  have hne : v.H * v.W * (v.T - 1) ≠ 0 := by
    have : 0 < v.T - 1 := by omega
    positivity
  have tail : ∀ s : St, (testTail m s v).2 = .ok ((reported m v).sum / (v.H * v.W * v.T : ℕ),
      ((reported m v).drop 1).sum / (v.H * v.W * (v.T - 1) : ℕ)) := by
    intro s
    have h1 := compress_result m s v hc
    have h2 : ∃ out, decompressVideo m v [1, v.T, m.ch, (v.H - 1) / 16 + 1, (v.W - 1) / 16 + 1] = .ok out := by
      simp [decompressVideo, hc.2.2.2.2.2]
    obtain ⟨out, h2⟩ := h2
    simp only [testTail, h1, h2, if_neg hne]
  rw [testStep, if_neg (by simp [hc.1]), if_neg (by simp [hm])]
  cases r with
  | false => exact tail s
  | true =>
    have hf : ∃ x, forward m { s with strings := some false } v = .ok x := by
      have hk : m.t.chunkOk (v.B * v.T) = true := by rw [hc.1, Nat.one_mul]; exact hc.2.2.2.2.2
      have hp := sceneShapes_plain { s with strings := some false } v.B
        (windows m.t s.training v) m.ch (Or.inr (by simp)) 0 v.T
      simp only [forward, hc.2.1, ne_eq, not_true, if_false, forwardAxis_ok m.t _ _ hc.2.2.2.1 hk,
        forwardAxis_ok m.t _ _ hc.2.2.2.2.1 hk, liftS, hp, stack_replicate _ _ hc.2.2.1]
      exact ⟨_, rfl⟩
    obtain ⟨x, hf⟩ := hf
    rw [if_pos rfl]
    simp only [hf, if_neg hne]
    exact tail _

example : ∃ x, (testStep exModel (run exModel fresh [.compress exVideo, .moduleTrain false]) true exVideo).2 = .ok x :=
  ⟨_, C102_test exModel [.compress exVideo, .moduleTrain false] true exVideo rfl exCodable (by decide)⟩

/-- **C102: a test step breaks the evaluation pass.**  After a test step that returned, evaluating any video of two or more
frames raises. -/
theorem C102_violated_test (m : Model) (ops : List Op) (r : Bool) (u v : Video) {x : ℝ × ℝ}
    (hr : (testStep m (run m fresh ops) r u).2 = .ok x) (h3 : v.c = 3) (hT : 2 ≤ v.T) (hH : Supported v.H)
    (hW : Supported v.W) (hk : m.t.chunkOk (v.B * v.T) = true) :
    ∃ e, forward m (run m fresh (ops ++ [.test r u])) v = .error e := by
  have hstate : ∃ s, (testStep m (run m fresh ops) r u).1 = prepare s := by
    simp only [testStep] at hr ⊢
    by_cases h1 : u.B ≠ 1
    · simp [h1] at hr
    rw [if_neg h1] at hr ⊢
    by_cases h2 : (run m fresh ops).moduleTraining = true
    · simp [h2] at hr
    rw [if_neg h2] at hr ⊢
    cases r with
    | false => exact ⟨_, rfl⟩
    | true =>
      rw [if_pos rfl] at hr ⊢
      cases hf : forward m { run m fresh ops with strings := some false } u with
      | error e => simp [hf] at hr
      | ok y =>
        simp only [hf] at hr ⊢
        by_cases h3 : u.H * u.W * (u.T - 1) = 0
        · simp [h3] at hr
        · rw [if_neg h3]; exact ⟨_, rfl⟩
  obtain ⟨s, hs⟩ := hstate
  have e1 : run m fresh (ops ++ [.test r u]) = prepare s := by
    rw [run_append]; exact hs
  have e2 : forward m (prepare s) v = forward m (run m fresh ([.moduleTrain false] ++ .compress u :: [])) v := by
    simp only [forward, run, List.cons_append, List.nil_append, List.foldl_cons, List.foldl_nil, step, compressVideo]
    have : ∀ b p ch n i, sceneShapes (prepare s) b p ch i n =
        sceneShapes (prepare { fresh with moduleTraining := false, training := false }) b p ch i n := by
      intro b p ch n
      induction n with
      | zero => intro i; rfl
      | succ n ih => intro i; simp only [sceneShapes, ih]; rfl
    simp only [this]
    rfl
  rw [e1, e2, C102_violated_forward m [.moduleTrain false] [] u v (by simp) rfl h3 hT hH hW hk]
  exact ⟨_, rfl⟩

/-- **C102 fails for the mode.**  Compressing leaves the pipeline in evaluation mode while the module still says it is
training. -/
theorem C102_violated_mode (m : Model) (ops : List Op) (v : Video) (b : Bool) :
    (run m fresh (ops ++ [.moduleTrain b, .compress v])).training = false ∧
      (run m fresh (ops ++ [.moduleTrain b, .compress v])).moduleTraining = b := by
  rw [run_append]
  exact ⟨rfl, rfl⟩

/-! ### Construction -/

/-- **C102, construction.**  With the ELIC transforms, a pipeline is constructed exactly if there are four channel numbers
on each side, the optional numbers agree with the last ones, and the compression channels are the last of the analysis and
the first of the synthesis; then the channels of all parts fit. -/
theorem C102_construct_elic (ca cs : List ℕ) (a s : Option ℕ) (c : ℕ) :
    (∃ r, construct (.elic ca a) (.elic cs s) c = .ok r) ↔
      (∃ x y z, ca = [x, y, z, c]) ∧ (∃ y z w, cs = [c, y, z, w] ∧ (s = none ∨ s = some w)) ∧ (a = none ∨ a = some c) := by
  constructor
  · rintro ⟨r, hr⟩
    rcases ca with _ | ⟨x, _ | ⟨y, _ | ⟨z, _ | ⟨c', _ | ⟨_, _⟩⟩⟩⟩⟩ <;>
      simp [construct, Analysis.build] at hr
    rcases cs with _ | ⟨x', _ | ⟨y', _ | ⟨z', _ | ⟨w', _ | ⟨_, _⟩⟩⟩⟩⟩ <;>
      cases a <;> cases s <;> simp [Synthesis.build] at hr <;> split_ifs at hr <;> simp_all <;>
      split_ifs at hr <;> simp_all
  · rintro ⟨⟨x, y, z, rfl⟩, ⟨y', z', w, rfl, hs⟩, ha⟩
    rcases hs with rfl | rfl <;> rcases ha with rfl | rfl <;>
      simp [construct, Analysis.build, Synthesis.build]

theorem C102_construct_elic_fits (ca cs : List ℕ) (a s : Option ℕ) (c : ℕ) {r1 r2 r3 r4 : ℕ}
    (h : construct (.elic ca a) (.elic cs s) c = .ok (r1, r2, r3, r4)) : r1 = c ∧ r2 = c ∧ r3 = c := by
  obtain ⟨⟨x, y, z, rfl⟩, ⟨y', z', w, rfl, hs⟩, ha⟩ := (C102_construct_elic ca cs a s c).1 ⟨_, h⟩
  rcases hs with rfl | rfl <;> rcases ha with rfl | rfl <;>
    simp [construct, Analysis.build, Synthesis.build] at h <;> simp [← h.1, ← h.2.1, ← h.2.2.1]

example : construct (.elic [128, 160, 192, 192] none) (.elic [192, 160, 128, 3] none) 192 = .ok (192, 192, 192, 3) := by
  decide

/-- **C102 fails for the hyperprior transforms.**  With any number of compression channels other than 192, given
consistently to analysis, synthesis and pipeline, construction raises; and with 192 it accepts a synthesis transform
for any other number of channels. -/
theorem C102_violated_channels (c : ℕ) :
    (c ≠ 192 → construct (.convGDN c) (.convGDN c) c = .error .mismatch) ∧
      construct (.convGDN 192) (.convGDN c) 192 = .ok (192, 192, c, 3) := by
  refine ⟨fun h => ?_, rfl⟩
  simp [construct, Analysis.build, Synthesis.build, Ne.symm h]

end Verif.Vct.Hist

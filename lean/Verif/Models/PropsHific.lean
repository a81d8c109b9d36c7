import Verif.Models.Hific
import Verif.Functional.PropsPad
import Mathlib.Tactic.Linarith
import Mathlib.Tactic.NormNum
import Mathlib.Data.List.Perm.Basic

/-!
C51–C54 and C76: the hyperprior autoencoder.
-/

namespace Verif.Models.Hific

open Verif.Functional

/-! ### C51 -/

theorem conv_halve (n : ℕ) (h : 1 ≤ n) : conv 3 2 1 n = (n + 1) / 2 ∧ conv 5 2 2 n = (n + 1) / 2 := by
  unfold conv; omega

theorem conv_same (n : ℕ) (h : 1 ≤ n) : conv 3 1 1 n = n ∧ conv 7 1 3 n = n := by
  unfold conv
  rw [Nat.div_one, Nat.div_one]
  omega

theorem deconv_double (n : ℕ) (h : 1 ≤ n) : deconv 3 2 1 1 n = 2 * n ∧ deconv 5 2 2 1 n = 2 * n := by
  unfold deconv; omega

theorem encoderSize_eq (n : ℕ) (h : 1 ≤ n) : encoderSize n = (n + 15) / 16 := by
  unfold encoderSize
  rw [(conv_same n h).2]
  dsimp only
  rw [(conv_halve n h).1, (conv_halve ((n + 1) / 2) (by omega)).1, (conv_halve (((n + 1) / 2 + 1) / 2) (by omega)).1,
    (conv_halve ((((n + 1) / 2 + 1) / 2 + 1) / 2) (by omega)).1, (conv_same _ (by omega)).1]
  omega

theorem hyperAnalysisSize_eq (n : ℕ) (h : 1 ≤ n) : hyperAnalysisSize n = (n + 3) / 4 := by
  unfold hyperAnalysisSize
  rw [(conv_same n h).1]
  dsimp only
  rw [(conv_halve n h).2, (conv_halve _ (by omega)).2]
  omega

theorem hyperSynthesisSize_eq (n : ℕ) (h : 1 ≤ n) : hyperSynthesisSize n = 4 * n := by
  unfold hyperSynthesisSize
  dsimp only
  rw [(deconv_double n h).2, (deconv_double _ (by omega)).2, (conv_same _ (by omega)).1]
  omega

theorem generatorSize_eq (n : ℕ) (h : 1 ≤ n) : generatorSize n = 16 * n := by
  unfold generatorSize
  dsimp only
  rw [(conv_same n h).1, (deconv_double n h).1, (deconv_double (2 * n) (by omega)).1,
    (deconv_double (2 * (2 * n)) (by omega)).1, (deconv_double (2 * (2 * (2 * n))) (by omega)).1,
    (conv_same _ (by omega)).2]
  omega

/-- **C51, forward.** `forward` does not pad: in each direction it works exactly if a sixteenth of the size, rounded
up, is a multiple of four; the reconstruction has the size of the image exactly for multiples of 64. -/
theorem C51_forward_partial (n : ℕ) (h : 1 ≤ n) :
    forwardSize n = (if 4 ∣ (n + 15) / 16 then some (16 * ((n + 15) / 16)) else none) ∧
      (forwardSize n = some n ↔ 64 ∣ n) := by
  have key : forwardSize n = if 4 ∣ (n + 15) / 16 then some (16 * ((n + 15) / 16)) else none := by
    unfold forwardSize
    dsimp only
    rw [encoderSize_eq n h, hyperAnalysisSize_eq _ (by omega), hyperSynthesisSize_eq _ (by omega),
      generatorSize_eq _ (by omega)]
    by_cases hd : 4 ∣ (n + 15) / 16
    · rw [if_pos hd, if_neg (by omega)]
    · rw [if_neg hd, if_pos (by omega)]
  refine ⟨key, ?_⟩
  rw [key]
  by_cases hd : 4 ∣ (n + 15) / 16
  · rw [if_pos hd]
    simp only [Option.some.injEq]
    omega
  · rw [if_neg hd]
    simp only [reduceCtorEq, false_iff]
    omega

variable {Lat Str HStr : Type}

/-- The networks change sizes as their layers do. -/
structure Nets.SizesOk (m : Nets Lat Str HStr) : Prop where
  encoder : ∀ x, m.size (m.encoder x) = (encoderSize x.height, encoderSize x.width)
  hyperAnalysis : ∀ y, m.size (m.hyperAnalysis y) = (hyperAnalysisSize (m.size y).1, hyperAnalysisSize (m.size y).2)
  generator : ∀ y, ((m.generator y).height, (m.generator y).width) =
    (generatorSize (m.size y).1, generatorSize (m.size y).2)

/-- The coders are lossless: the hyper-latent comes back quantised when decoded with its size, the latent comes back
quantised around the means when decoded with the same scales and means; quantisation keeps the size. -/
structure Nets.Lossless (m : Nets Lat Str HStr) (hyperQuantize : Lat → Lat) (quantize : Lat → Lat → Lat) : Prop where
  hyper : ∀ z, m.hyperDecompress (m.hyperCompress z) (m.size z) = hyperQuantize z
  latent : ∀ y scales means, m.latentDecompress (m.latentCompress y scales means) scales means = quantize y means
  size : ∀ y means, m.size (quantize y means) = m.size y

/-- **C51.** For all networks whose sizes are those of the layers, all lossless coders and every image that is not
empty: if `compress` returns, then `decompress` asks for exactly the size of the hyper-latent that the encoder coded;
the reconstruction has the size of the image, all its values lie in [0, 1], and it is the clamped output of the
generator for the quantised latent of the padded image. -/
theorem C51_partial (m : Nets Lat Str HStr) (hq : Lat → Lat) (q : Lat → Lat → Lat) (hs : m.SizesOk)
    (hl : m.Lossless hq q) (x : Image ℝ) (h0 : 0 < x.height) (w0 : 0 < x.width) (c : Compressed Str HStr)
    (hc : m.compress x = .ok c) :
    ∃ padded, padImageToFactor x 64 = .ok (padded, x.height, x.width) ∧
      let latent := m.encoder padded
      let hyper := m.hyperAnalysis latent
      m.size hyper = (c.paddedSize.1 / 2 ^ 4 / 2 ^ 2, c.paddedSize.2 / 2 ^ 4 / 2 ^ 2) ∧
      (m.decompress c).height = x.height ∧ (m.decompress c).width = x.width ∧
      ∀ b ch i j, 0 ≤ (m.decompress c).pix b ch i j ∧ (m.decompress c).pix b ch i j ≤ 1 ∧
        (m.decompress c).pix b ch i j =
          max 0 (min 1 ((m.generator (q latent (m.synthesisMean (hq hyper)))).pix b ch i j)) := by
  unfold Nets.compress at hc
  cases hp : padImageToFactor x 64 with
  | error e => rw [hp] at hc; cases hc
  | ok r =>
    obtain ⟨y, h, w⟩ := r
    rw [hp] at hc
    dsimp only at hc
    injection hc with hc
    obtain ⟨lh, lw, -, rfl, rfl, -⟩ := C35_partial x y 64 .reflect h w hp
    refine ⟨y, rfl, ?_⟩
    obtain ⟨⟨a, ha⟩, hxa, -⟩ := lh
    obtain ⟨⟨b, hb⟩, hxb, -⟩ := lw
    dsimp only
    have hsize : m.size (m.hyperAnalysis (m.encoder y)) = (y.height / 2 ^ 4 / 2 ^ 2, y.width / 2 ^ 4 / 2 ^ 2) := by
      rw [hs.hyperAnalysis, hs.encoder]
      dsimp only
      rw [encoderSize_eq _ (by omega), encoderSize_eq _ (by omega), hyperAnalysisSize_eq _ (by omega),
        hyperAnalysisSize_eq _ (by omega)]
      ext <;> dsimp only <;> omega
    subst hc
    refine ⟨hsize, ?_⟩
    have hdec : m.hyperDecompress (m.hyperCompress (m.hyperAnalysis (m.encoder y)))
        (y.height / 2 ^ 4 / 2 ^ 2, y.width / 2 ^ 4 / 2 ^ 2) = hq (m.hyperAnalysis (m.encoder y)) := by
      rw [← hsize, hl.hyper]
    set z := hq (m.hyperAnalysis (m.encoder y)) with hz
    set lat := q (m.encoder y) (m.synthesisMean z) with hlat
    have hres : m.decompress
        { latent := m.latentCompress (m.encoder y)
            (m.synthesisScale (m.hyperDecompress (m.hyperCompress (m.hyperAnalysis (m.encoder y)))
              (m.size (m.hyperAnalysis (m.encoder y)))))
            (m.synthesisMean (m.hyperDecompress (m.hyperCompress (m.hyperAnalysis (m.encoder y)))
              (m.size (m.hyperAnalysis (m.encoder y)))))
          hyperLatent := m.hyperCompress (m.hyperAnalysis (m.encoder y))
          imageSize := (x.height, x.width)
          paddedSize := (y.height, y.width) } =
        { height := min x.height (m.generator lat).height
          width := min x.width (m.generator lat).width
          pix := fun b ch i j => max 0 (min 1 ((m.generator lat).pix b ch i j)) } := by
      unfold Nets.decompress
      dsimp only
      rw [hl.hyper, hdec, hl.latent]
      rfl
    rw [hres]
    have hg := hs.generator lat
    have hsl : m.size lat = (encoderSize y.height, encoderSize y.width) := by rw [hlat, hl.size, hs.encoder]
    rw [hsl] at hg
    injection hg with hg1 hg2
    dsimp only at hg1 hg2
    rw [encoderSize_eq _ (by omega), generatorSize_eq _ (by omega)] at hg1 hg2
    refine ⟨?_, ?_, fun b ch i j => ⟨le_max_left _ _, max_le (by norm_num) (min_le_left _ _), rfl⟩⟩
    · dsimp only; omega
    · dsimp only; omega

/-- **C51, when it codes.** `compress` returns exactly if both sizes are multiples of 64, or both are more than half
of the next multiple. -/
theorem C51_returns_partial (m : Nets Lat Str HStr) (x : Image ℝ) {a b : ℕ} (ha : LeastMultiple 64 x.height a)
    (hb : LeastMultiple 64 x.width b) :
    (∃ c, m.compress x = .ok c) ↔ (a = x.height ∧ b = x.width) ∨ (a < 2 * x.height ∧ b < 2 * x.width) := by
  have key := C35_returns_iff x (factor := 64) (by norm_num) .reflect ha hb
  have e : (∃ c, m.compress x = .ok c) ↔ ∃ r, padImageToFactor x 64 = .ok r := by
    unfold Nets.compress
    cases padImageToFactor x 64 with
    | error e => simp
    | ok r => simp
  rw [e, key]
  rfl

/-- **C51 is violated**: no image of a height or width between 1 and 32 can be compressed, whatever the networks. -/
theorem C51_violated (m : Nets Lat Str HStr) (x : Image ℝ)
    (h : (0 < x.height ∧ x.height ≤ 32) ∨ (0 < x.width ∧ x.width ≤ 32)) : ¬ ∃ c, m.compress x = .ok c := by
  have l1 := leastMultiple_pad (f := 64) (by norm_num) x.height
  have l2 := leastMultiple_pad (f := 64) (by norm_num) x.width
  rw [C51_returns_partial m x l1 l2]
  omega

/-- A latent of the given size, for examples. -/
def exampleNets : Nets (ℕ × ℕ) (ℕ × ℕ) (ℕ × ℕ) where
  size := id
  encoder x := (encoderSize x.height, encoderSize x.width)
  hyperAnalysis y := (hyperAnalysisSize y.1, hyperAnalysisSize y.2)
  hyperCompress := id
  hyperDecompress _ s := s
  synthesisMean := id
  synthesisScale := id
  latentCompress y _ _ := y
  latentDecompress s _ _ := s
  generator y := ⟨generatorSize y.1, generatorSize y.2, fun _ _ i j => i + j⟩

/-- C51 is not vacuous: these networks satisfy the hypotheses, and a 512 × 768 image (Kodak) is coded. -/
example : exampleNets.SizesOk ∧ exampleNets.Lossless id (fun y _ => y) ∧
    ∃ c, exampleNets.compress ⟨512, 768, fun _ _ _ _ => 0⟩ = .ok c := by
  refine ⟨⟨fun _ => rfl, fun _ => rfl, fun _ => rfl⟩, ⟨fun _ => rfl, fun _ _ _ => rfl, fun _ _ => rfl⟩, ?_⟩
  rw [C51_returns_partial exampleNets _ (leastMultiple_pad (by norm_num) _) (leastMultiple_pad (by norm_num) _)]
  left
  constructor <;> rfl

/-- **C51, VQ-VAE padding.** In evaluation mode the VQ-VAE autoencoder pads every size to the least multiple of its
factor. -/
theorem C51_vqvae_partial (factor n : ℕ) (hf : 0 < factor) :
    ∃ p : ℕ, vqvaePad factor n = p ∧ LeastMultiple factor n (n + p) := by
  refine ⟨(factor - n % factor) % factor, ?_, leastMultiple_pad hf n⟩
  unfold vqvaePad
  have h1 : n % factor < factor := Nat.mod_lt n hf
  have h2 := Nat.div_add_mod n factor
  have e : (factor : ℤ) - ((n : ℤ) - factor) =
      ((factor - n % factor : ℕ) : ℤ) + (factor : ℤ) * (1 - (n / factor : ℕ)) := by
    have : (n : ℤ) = factor * (n / factor : ℕ) + (n % factor : ℕ) := by exact_mod_cast h2.symm
    rw [Nat.cast_sub h1.le, mul_sub, mul_one]
    linarith
  rw [e, Int.add_mul_emod_self_left]
  norm_cast

example : vqvaePad 16 100 = 12 ∧ vqvaePad 16 96 = 0 ∧ vqvaePad 16 3 = 13 := by decide

/-! ### C52 -/

/-- The targets among the operations that a switch accepts. -/
def accepted : List Op → List String
  | [] => []
  | .switch t :: ops => if t = "forward" ∨ t = "compress" then t :: accepted ops else accepted ops
  | _ :: ops => accepted ops

/-- The state after a history that begins with a new model. -/
def after (ops : List Op) : State := ops.foldl State.apply State.init

/-- What is true of the devices in every reachable state. -/
def DevicesOk (s : State) : Prop :=
  (s.mode = "forward" ∨ s.mode = "compress") ∧
  s.device .decoder = s.device .encoder ∧
    ((∀ p, s.device p = s.device .encoder) ∨ (s.mode = "compress" ∧ ∀ p, p.coding = true → s.device p = .cpu))

theorem devicesOk_apply (s : State) (op : Op) (h : DevicesOk s) : DevicesOk (s.apply op) := by
  obtain ⟨hm, h1, h2⟩ := h
  cases op with
  | «to» d => exact ⟨hm, rfl, Or.inl fun p => rfl⟩
  | update force => exact ⟨hm, h1, h2⟩
  | train =>
    show DevicesOk (match s.guardForward with
      | .ok () => { s with params := s.params + 1 }
      | .error _ => s)
    cases s.guardForward with
    | ok u => exact ⟨hm, h1, h2⟩
    | error e => exact ⟨hm, h1, h2⟩
  | switch t =>
    show DevicesOk (match s.updateTensorDevices t with
      | .ok s' => s'
      | .error _ => s)
    unfold State.updateTensorDevices
    by_cases ht : t = "forward" ∨ t = "compress"
    · rw [if_neg (not_not.2 ht)]
      by_cases hf : t = "forward"
      · simp only [hf, if_true]
        exact ⟨Or.inl rfl, rfl, Or.inl fun p => rfl⟩
      · have hc : t = "compress" := by tauto
        subst hc
        simp only [if_neg hf]
        refine ⟨Or.inr rfl, ?_, Or.inr ⟨rfl, fun p hp => ?_⟩⟩
        · exact h1
        · show (if p.coding then Device.cpu else _) = _
          rw [if_pos hp]
    · rw [if_pos ht]
      exact ⟨hm, h1, h2⟩

theorem devicesOk_after (ops : List Op) : DevicesOk (after ops) := by
  have : ∀ (ops : List Op) (s : State), DevicesOk s → DevicesOk (ops.foldl State.apply s) := by
    intro ops
    induction ops with
    | nil => exact fun s h => h
    | cons op ops ih => exact fun s h => ih _ (devicesOk_apply s op h)
  exact this ops _ ⟨Or.inl rfl, rfl, Or.inl fun p => rfl⟩

/-- **C52, mode.** After any history the mode is the target of the last switch that was accepted (at first
"forward"); exactly the two documented targets are accepted, and a refused switch changes nothing. -/
theorem C52_mode (ops : List Op) :
    (after ops).mode = (accepted ops).getLast?.getD "forward" ∧
      ∀ t, ((after ops).updateTensorDevices t = .error .value ↔ ¬ (t = "forward" ∨ t = "compress")) ∧
        (¬ (t = "forward" ∨ t = "compress") → after (ops ++ [.switch t]) = after ops) := by
  constructor
  · have : ∀ (ops : List Op) (s : State),
        (ops.foldl State.apply s).mode = (accepted ops).getLast?.getD s.mode := by
      intro ops
      induction ops with
      | nil => exact fun s => rfl
      | cons op ops ih =>
        intro s
        rw [List.foldl_cons, ih]
        cases op with
        | «to» d => rfl
        | update force => rfl
        | train =>
          show ((accepted ops).getLast?).getD (match s.guardForward with
            | .ok () => { s with params := s.params + 1 }
            | .error _ => s : State).mode = _
          cases s.guardForward <;> rfl
        | switch t =>
          show ((accepted ops).getLast?).getD (match s.updateTensorDevices t with
            | .ok s' => s'
            | .error _ => s : State).mode = _
          have ea : accepted (Op.switch t :: ops) =
              if t = "forward" ∨ t = "compress" then t :: accepted ops else accepted ops := rfl
          rw [ea]
          unfold State.updateTensorDevices
          by_cases ht : t = "forward" ∨ t = "compress"
          · rw [if_neg (not_not.2 ht), if_pos ht]
            cases accepted ops with
            | nil => rfl
            | cons a l => simp [List.getLast?_cons]
          · rw [if_pos ht, if_neg ht]
    exact this ops State.init
  · intro t
    unfold State.updateTensorDevices
    by_cases ht : t = "forward" ∨ t = "compress"
    · rw [if_neg (not_not.2 ht)]
      simp [ht]
    · rw [if_pos ht]
      refine ⟨by simp [ht], fun _ => ?_⟩
      unfold after
      rw [List.foldl_append]
      show (match (ops.foldl State.apply State.init).updateTensorDevices t with
        | .ok s' => s'
        | .error _ => ops.foldl State.apply State.init) = _
      unfold State.updateTensorDevices
      rw [if_pos ht]

/-- **C52, forward.** After any history `forward` raises `RuntimeError` exactly in the other mode, and when it is
accepted all modules are on one device. -/
theorem C52_forward (ops : List Op) :
    ((after ops).guardForward = .ok () ↔ (after ops).mode = "forward") ∧
      ((after ops).guardForward = .error .runtime ↔ (after ops).mode = "compress") ∧
      ((after ops).guardForward = .ok () → ∀ p, (after ops).device p = (after ops).device .encoder) := by
  obtain ⟨hm, -, h2⟩ := devicesOk_after ops
  unfold State.guardForward
  by_cases h : (after ops).mode = "forward"
  · rw [if_neg (not_not.2 h)]
    have hne : (after ops).mode ≠ "compress" := by rw [h]; decide
    refine ⟨by simp [h], by simp [hne], fun _ => ?_⟩
    rcases h2 with h2 | h2
    · exact h2
    · exact absurd h2.1 hne
  · rw [if_pos h]
    have hc : (after ops).mode = "compress" := by tauto
    exact ⟨by simp [h], by simp [hc], fun h' => by cases h'⟩

theorem onCpu_iff (s : State) : s.onCpu = true ↔ ∀ p, p.hasParams = true → s.device p = .cpu := by
  unfold State.onCpu
  rw [List.all_eq_true]
  constructor
  · intro h p hp
    have := h p (by cases p <;> simp [parts])
    simpa [hp] using this
  · intro h p _
    cases hp : p.hasParams
    · simp
    · simp [h p hp]

theorem check_iff (s : State) :
    s.checkCompressDevices = true ↔ ∀ p, p.coding = true → p.hasParams = true → s.device p = .cpu := by
  unfold State.checkCompressDevices
  rw [List.all_eq_true]
  constructor
  · intro h p hc hp
    have := h p (by cases p <;> simp [parts])
    simpa [hp, hc] using this
  · intro h p _
    cases hp : p.hasParams
    · simp
    · cases hc : p.coding
      · simp
      · simp [h p hc hp]

/-- **C52, coding.** After any history `compress` and `decompress` are accepted exactly if the coding tables exist and
the modules are where they have to be: all on the CPU if `force_cpu`, and the ones that compute likelihoods on the
CPU otherwise. Otherwise `ValueError`. -/
theorem C52_coding (ops : List Op) (forceCpu : Bool) :
    ((after ops).guardCoding forceCpu = .ok () ↔ (after ops).tables ≠ none ∧
      ∀ p, (forceCpu = true ∨ p.coding = true) → (after ops).device p = .cpu) ∧
      ((after ops).guardCoding forceCpu = .ok () ∨ (after ops).guardCoding forceCpu = .error .value) := by
  obtain ⟨-, h1, h2⟩ := devicesOk_after ops
  set s := after ops with hs
  have hlat : s.device .latentBottleneck = s.device .hyperBottleneck := by
    rcases h2 with h2 | h2
    · rw [h2, h2 .hyperBottleneck]
    · rw [h2.2 _ rfl, h2.2 _ rfl]
  have hcpu : s.onCpu = true ↔ ∀ p, s.device p = .cpu := by
    rw [onCpu_iff]
    constructor
    · intro h p
      cases p <;> first | exact h _ rfl | (rw [hlat]; exact h _ rfl)
    · exact fun h p _ => h p
  have hchk : s.checkCompressDevices = true ↔ ∀ p, p.coding = true → s.device p = .cpu := by
    rw [check_iff]
    constructor
    · intro h p hp
      cases p <;> first | exact h _ hp rfl | (rw [hlat]; exact h _ rfl rfl)
    · exact fun h p hp _ => h p hp
  unfold State.guardCoding
  by_cases ht : s.tables = none
  · refine ⟨⟨?_, fun h => absurd ht h.1⟩, ?_⟩
    · intro h
      cases ho : s.onCpu <;> cases hc : s.checkCompressDevices <;> cases forceCpu <;>
        simp [ho, hc, ht, bind, Except.bind, pure, Except.pure] at h
    · right
      cases ho : s.onCpu <;> cases hc : s.checkCompressDevices <;> cases forceCpu <;>
        simp [ht, bind, Except.bind, pure, Except.pure]
  · by_cases ho : s.onCpu = true
    · have hall := hcpu.1 ho
      have e : (do
          if ¬ s.onCpu then
            if forceCpu then .error .value
            if ¬ s.checkCompressDevices then .error .value
          if s.tables = none then .error .value
          return () : Except Err Unit) = .ok () := by
        simp [ho, ht, pure, Except.pure]
      rw [e]
      exact ⟨⟨fun _ => ⟨ht, fun p _ => hall p⟩, fun _ => rfl⟩, Or.inl rfl⟩
    · have ho' : s.onCpu = false := by simpa using ho
      cases forceCpu with
      | true =>
        have hn : ¬ ∀ p, s.device p = .cpu := fun h => ho (hcpu.2 h)
        refine ⟨⟨fun h => ?_, fun h => absurd (fun p => h.2 p (Or.inl rfl)) hn⟩, Or.inr ?_⟩
        · simp [ho', bind, Except.bind] at h
        · simp [ho', bind, Except.bind]
      | false =>
        by_cases hc : s.checkCompressDevices = true
        · have hall := hchk.1 hc
          refine ⟨⟨fun _ => ⟨ht, fun p hp => hall p (by simpa using hp)⟩, fun _ => ?_⟩, Or.inl ?_⟩ <;>
            simp [ho', hc, ht, bind, Except.bind, pure, Except.pure]
        · have hc' : s.checkCompressDevices = false := by simpa using hc
          refine ⟨⟨fun h => ?_, fun h => absurd (hchk.2 fun p hp => h.2 p (Or.inr hp)) hc⟩, Or.inr ?_⟩
          · simp [ho', hc', bind, Except.bind] at h
          · simp [ho', hc', bind, Except.bind]

/-- **C52, after a switch.** Switching to "compress" makes `compress(force_cpu=False)` acceptable and `forward`
unacceptable, from every state and wherever the model is; switching to "forward" makes `forward` acceptable with all
modules on the encoder's device. -/
theorem C52_switch (ops : List Op) :
    (after (ops ++ [.switch "compress"])).guardCoding false = .ok () ∧
      (after (ops ++ [.switch "compress"])).guardForward = .error .runtime ∧
      (after (ops ++ [.switch "forward"])).guardForward = .ok () ∧
      ∀ p, (after (ops ++ [.switch "forward"])).device p = (after ops).device .encoder := by
  have hc : after (ops ++ [.switch "compress"]) = { (after ops).update.setDevicesForCompress with mode := "compress" } := by
    unfold after
    rw [List.foldl_append]
    rfl
  have hf : after (ops ++ [.switch "forward"]) = { (after ops).to ((after ops).device .encoder) with mode := "forward" } := by
    unfold after
    rw [List.foldl_append]
    rfl
  refine ⟨?_, ?_, ?_, ?_⟩
  · rw [(C52_coding _ false).1, hc]
    refine ⟨?_, fun p hp => ?_⟩
    · show (if (after ops).tables.isSome && !false then (after ops).tables else some (after ops).params) ≠ none
      cases (after ops).tables <;> simp
    · show (if p.coding then Device.cpu else _) = _
      rw [if_pos (by simpa using hp)]
  · rw [(C52_forward _).2.1, hc]
  · rw [(C52_forward _).1, hf]
  · intro p
    rw [hf]
    rfl

/-- **C52, which modules.** Without `force_cpu` everything except the encoder and the decoder has to be on the CPU. -/
theorem C52_coding_parts (ops : List Op) :
    (after ops).guardCoding false = .ok () ↔ (after ops).tables ≠ none ∧
      ∀ p, p ≠ .encoder → p ≠ .decoder → (after ops).device p = .cpu := by
  rw [(C52_coding ops false).1]
  refine and_congr Iff.rfl (forall_congr' fun p => ?_)
  cases p <;> simp [Part.coding]

/-- C52 is not vacuous: a model on a GPU can be switched to coding with the encoder staying where it is, and coding
with `force_cpu` is then refused. -/
example : (after [.to (.gpu 0), .switch "compress"]).device .encoder = .gpu 0 ∧
    (after [.to (.gpu 0), .switch "compress"]).device .hyperBottleneck = .cpu ∧
    (after [.to (.gpu 0), .switch "compress"]).guardCoding true = .error .value := by decide +kernel

/-! ### C76 -/

/-- **C76, what holds.** The first switch to "compress" computes the tables from the current parameters, as does every
forced update. -/
theorem C76_partial (ops : List Op) :
    ((after ops).tables = none →
      (after (ops ++ [.switch "compress"])).tables = some (after (ops ++ [.switch "compress"])).params) ∧
      (after (ops ++ [.update true])).tables = some (after (ops ++ [.update true])).params := by
  constructor
  · intro h
    unfold after at h ⊢
    rw [List.foldl_append]
    show (if (List.foldl State.apply State.init ops).tables.isSome && !false then
      (List.foldl State.apply State.init ops).tables else some (List.foldl State.apply State.init ops).params) = _
    rw [h]
    rfl
  · unfold after
    rw [List.foldl_append]
    show (if (List.foldl State.apply State.init ops).tables.isSome && !true then
      (List.foldl State.apply State.init ops).tables else some (List.foldl State.apply State.init ops).params) = _
    rw [Bool.not_true, Bool.and_false]
    rfl

/-- In every reachable state the tables are not newer than the parameters. -/
theorem tables_le (ops : List Op) : ∀ t, (after ops).tables = some t → t ≤ (after ops).params := by
  have : ∀ (ops : List Op) (s : State), (∀ t, s.tables = some t → t ≤ s.params) →
      ∀ t, (ops.foldl State.apply s).tables = some t → t ≤ (ops.foldl State.apply s).params := by
    intro ops
    induction ops with
    | nil => exact fun s h => h
    | cons op ops ih =>
      intro s h
      have hu : ∀ force, ∀ t, (s.update force).tables = some t → t ≤ (s.update force).params := by
        intro force t
        show (if s.tables.isSome && !force then s.tables else some s.params) = some t → t ≤ s.params
        split_ifs
        · exact h t
        · intro e
          injection e with e
          omega
      refine ih _ ?_
      cases op with
      | «to» d => exact h
      | update force => exact hu force
      | train =>
        show ∀ t, (match s.guardForward with
            | .ok () => { s with params := s.params + 1 }
            | .error _ => s : State).tables = some t → t ≤ (match s.guardForward with
            | .ok () => { s with params := s.params + 1 }
            | .error _ => s : State).params
        cases s.guardForward with
        | ok u => exact fun t e => (h t e).trans (Nat.le_succ _)
        | error e => exact h
      | switch t =>
        show ∀ u, (match s.updateTensorDevices t with
            | .ok s' => s'
            | .error _ => s : State).tables = some u → u ≤ (match s.updateTensorDevices t with
            | .ok s' => s'
            | .error _ => s : State).params
        unfold State.updateTensorDevices
        by_cases ht : t = "forward" ∨ t = "compress"
        · rw [if_neg (not_not.2 ht)]
          by_cases hf : t = "forward"
          · simp only [hf, if_true]
            exact h
          · simp only [if_neg hf]
            exact hu false
        · rw [if_pos ht]
          exact h
  exact this ops _ (fun t e => by cases e)

/-- **C76 is violated**: after any history whatever, if the model is then switched to "compress" and back, trained
further and switched to "compress" again, `compress` is accepted although its tables were computed from older
parameters than the current ones. -/
theorem C76_violated (ops : List Op) :
    let s := after (ops ++ [.switch "compress", .switch "forward", .train, .switch "compress"])
    s.mode = "compress" ∧ s.guardCoding false = .ok () ∧ ∃ t, s.tables = some t ∧ t < s.params := by
  intro s
  have e : s = after ((ops ++ [.switch "compress", .switch "forward", .train]) ++ [.switch "compress"]) := by
    show after _ = after _
    rw [List.append_assoc]
    rfl
  refine ⟨?_, ?_, ?_⟩
  · have := (C52_forward (ops ++ [.switch "compress", .switch "forward", .train, .switch "compress"])).2.1
    refine this.1 ?_
    show s.guardForward = _
    rw [e]
    exact (C52_switch _).2.1
  · rw [e]
    exact (C52_switch _).1
  · have h1 : s.tables = some ((after ops).tables.getD (after ops).params) := by
      show (after _).tables = _
      unfold after
      rw [List.foldl_append]
      cases h : (List.foldl State.apply State.init ops).tables with
      | none => simp [State.apply, State.updateTensorDevices, State.update, State.setDevicesForCompress, State.to,
          State.guardForward, h]
      | some t => simp [State.apply, State.updateTensorDevices, State.update, State.setDevicesForCompress, State.to,
          State.guardForward, h]
    have h2 : s.params = (after ops).params + 1 := by
      show (after _).params = _
      unfold after
      rw [List.foldl_append]
      simp [State.apply, State.updateTensorDevices, State.update, State.setDevicesForCompress, State.to,
        State.guardForward]
    refine ⟨_, h1, ?_⟩
    rw [h2]
    have := tables_le ops
    cases h : (after ops).tables with
    | none => exact Nat.lt_succ_self _
    | some t => exact Nat.lt_succ_of_le (this t h)

/-! ### C53 -/

/-- **C53.** Splitting the parameters never raises, for any list of named parameters: both groups are taken from the
trainable parameters in their order, nothing is in both, and together they are all of them; the second group is
exactly the trainable quantiles. -/
theorem C53_partition (params : List Param) :
    ∃ m q, collectParameters params = some (m, q) ∧
      (m ++ q).Perm (params.filter (·.requiresGrad)) ∧ m.Sublist params ∧ q.Sublist params ∧
      (∀ p, p ∈ m ↔ p ∈ params ∧ p.requiresGrad = true ∧ ¬ ".quantiles".toList <:+ p.name.toList) ∧
      (∀ p, p ∈ q ↔ p ∈ params ∧ p.requiresGrad = true ∧ ".quantiles".toList <:+ p.name.toList) := by
  have hq : ∀ p : Param, isQuantile p = true ↔ ".quantiles".toList <:+ p.name.toList := fun p => by
    unfold isQuantile
    exact List.isSuffixOf_iff_suffix
  have hperm : ((params.filter fun p => !isQuantile p && p.requiresGrad) ++
      params.filter fun p => isQuantile p && p.requiresGrad).Perm (params.filter (·.requiresGrad)) := by
    have := List.filter_append_perm (fun p => !isQuantile p) (params.filter (·.requiresGrad))
    rw [List.filter_filter, List.filter_filter] at this
    simpa using this
  refine ⟨_, _, ?_, hperm, List.filter_sublist, List.filter_sublist, fun p => ?_, fun p => ?_⟩
  · unfold collectParameters
    dsimp only
    rw [if_neg]
    rintro (h | h)
    · apply h
      rw [List.length_eq_zero_iff, List.filter_eq_nil_iff]
      intro k hk hk'
      rw [List.contains_iff_mem] at hk'
      obtain ⟨p, hp, rfl⟩ := List.mem_map.1 hk
      obtain ⟨p', hp', he⟩ := List.mem_map.1 hk'
      have h1 := (List.mem_filter.1 hp).2
      have h2 := (List.mem_filter.1 hp').2
      have : isQuantile p = isQuantile p' := by unfold isQuantile; rw [he]
      rw [this] at h1
      simp_all
    · apply h
      have hmap := hperm.map Param.name
      rw [List.map_append] at hmap
      rw [List.all_eq_true, List.all_eq_true]
      exact ⟨fun k hk => List.contains_iff_mem.2 (hmap.mem_iff.1 hk), fun k hk => List.contains_iff_mem.2 (hmap.mem_iff.2 hk)⟩
  · rw [List.mem_filter, ← hq]
    cases isQuantile p <;> simp
  · rw [List.mem_filter, ← hq]
    cases isQuantile p <;> simp

/-- **C53, the video stages.** The stages after the first split the parameters in the same way; the first stage
optimises the same model parameters and leaves out the quantiles. -/
theorem C53_dvc (params : List Param) :
    collectParameters params = some (collectDvc params) ∧
      (collectDvcStage1 params).1 = (collectDvc params).1 ∧ (collectDvcStage1 params).2 = none := by
  refine ⟨?_, rfl, rfl⟩
  obtain ⟨m, q, h, -⟩ := C53_partition params
  rw [h]
  unfold collectParameters at h
  dsimp only at h
  split_ifs at h
  exact h.symm

/-- C53 is not vacuous. -/
example : collectParameters [⟨"encoder.0.weight", true⟩, ⟨"hyper_bottleneck.quantiles", true⟩, ⟨"decoder.weight", false⟩,
    ⟨"quantiles", true⟩] =
    some ([⟨"encoder.0.weight", true⟩, ⟨"quantiles", true⟩], [⟨"hyper_bottleneck.quantiles", true⟩]) := by
  decide +kernel

/-! ### C54 -/

/-- The argument of the last call of `train` (`eval()` is `train(False)`), if there was one. -/
def lastTrain : List FlagOp → Bool → Bool
  | [], b => b
  | .train mode :: ops, _ => lastTrain ops mode
  | _ :: ops, b => lastTrain ops b

/-- The flags after a history of freezing and `train`/`eval` calls. -/
def flagsAfter (freezeEncoder freezeBottleneck : Bool) (ops : List FlagOp) : Flags :=
  ops.foldl Flags.apply (Flags.init freezeEncoder freezeBottleneck)

/-- What the flags have to be. -/
def FlagsAre (f : Flags) (encoder bottleneck mode : Bool) : Prop :=
  f.frozenEncoder = encoder ∧ f.frozenBottleneck = bottleneck ∧
    ∀ p, let frozen := (p = .encoder ∧ encoder = true) ∨ (p.coding = true ∧ bottleneck = true)
      (f.training p = true ↔ mode = true ∧ ¬ frozen) ∧ (f.requiresGrad p = true ↔ ¬ frozen)

theorem flagsAre_apply (f : Flags) (e b mode : Bool) (h : FlagsAre f e b mode) (op : FlagOp) :
    FlagsAre (f.apply op) (e || (op == .freezeEncoder)) (b || (op == .freezeBottleneck)) (lastTrain [op] mode) := by
  obtain ⟨h1, h2, h3⟩ := h
  cases op with
  | freezeEncoder =>
    refine ⟨by simp [Flags.apply, Flags.freezeEncoder], by simp [Flags.apply, Flags.freezeEncoder, h2], fun p => ?_⟩
    obtain ⟨h4, h5⟩ := h3 p
    cases p <;> cases e <;> cases b <;>
      simp_all [Flags.apply, Flags.freezeEncoder, lastTrain, Part.coding] <;> decide
  | freezeBottleneck =>
    refine ⟨by simp [Flags.apply, Flags.freezeBottleneck, h1], by simp [Flags.apply, Flags.freezeBottleneck],
      fun p => ?_⟩
    obtain ⟨h4, h5⟩ := h3 p
    cases p <;> cases e <;> cases b <;>
      simp_all [Flags.apply, Flags.freezeBottleneck, lastTrain, Part.coding] <;> decide
  | train m =>
    have e1 : (FlagOp.train m == FlagOp.freezeEncoder) = false := rfl
    have e2 : (FlagOp.train m == FlagOp.freezeBottleneck) = false := rfl
    rw [e1, e2, Bool.or_false, Bool.or_false]
    cases e <;> cases b <;>
    · refine ⟨by simp [Flags.apply, Flags.train, h1, h2, Flags.freezeEncoder, Flags.freezeBottleneck],
        by simp [Flags.apply, Flags.train, h1, h2, Flags.freezeEncoder, Flags.freezeBottleneck], fun p => ?_⟩
      obtain ⟨h4, h5⟩ := h3 p
      cases p <;>
        simp_all [Flags.apply, Flags.train, Flags.freezeEncoder, Flags.freezeBottleneck, lastTrain, Part.coding]

/-- **C54.** For every history of freezing and `train`/`eval` calls, whatever the constructor's flags: a part that was
frozen at any time (by the constructor or by a call) is in evaluation mode and takes no gradients; every other part
takes gradients and is in the mode of the last `train`/`eval` call. -/
theorem C54_freeze (e b : Bool) (ops : List FlagOp) (p : Part) :
    let frozen := (p = .encoder ∧ (e = true ∨ FlagOp.freezeEncoder ∈ ops)) ∨
      (p.coding = true ∧ (b = true ∨ FlagOp.freezeBottleneck ∈ ops))
    ((flagsAfter e b ops).training p = true ↔ lastTrain ops true = true ∧ ¬ frozen) ∧
      ((flagsAfter e b ops).requiresGrad p = true ↔ ¬ frozen) := by
  have key : ∀ (ops : List FlagOp) (f : Flags) (e b mode : Bool), FlagsAre f e b mode →
      FlagsAre (ops.foldl Flags.apply f) (e || ops.contains .freezeEncoder) (b || ops.contains .freezeBottleneck)
        (lastTrain ops mode) := by
    intro ops
    induction ops with
    | nil => intro f e b mode h; simpa [lastTrain] using h
    | cons op ops ih =>
      intro f e b mode h
      have h1 := ih _ _ _ _ (flagsAre_apply f e b mode h op)
      rw [List.foldl_cons]
      have c1 : ∀ a : FlagOp, (op :: ops).contains a = ((op == a) || ops.contains a) := fun a => by
        rw [List.contains_cons, Bool.beq_comm]
      have c2 : lastTrain (op :: ops) mode = lastTrain ops (lastTrain [op] mode) := by cases op <;> rfl
      rw [c1, c1, c2, ← Bool.or_assoc, ← Bool.or_assoc]
      exact h1
  have hinit : FlagsAre (Flags.init e b) e b true := by
    cases e <;> cases b <;> refine ⟨rfl, rfl, fun p => ?_⟩ <;>
      cases p <;> simp [Flags.init, Flags.fresh, Flags.freezeEncoder, Flags.freezeBottleneck, Part.coding]
  obtain ⟨-, -, h⟩ := key ops _ e b true hinit
  have := h p
  simpa [flagsAfter] using this

/-- C54 is not vacuous: after freezing the encoder and calling `train()`, the decoder trains and the encoder does
not. -/
example : (flagsAfter false false [.freezeEncoder, .train false, .train true]).training .encoder = false ∧
    (flagsAfter false false [.freezeEncoder, .train false, .train true]).training .decoder = true ∧
    (flagsAfter false false [.freezeEncoder, .train false, .train true]).training .hyperBottleneck = true := by
  decide +kernel

/-- The argument of the last `train` call of a VQ-VAE history. -/
def lastVqTrain : List VqOp → Bool → Bool
  | [], b => b
  | .train mode :: ops, _ => lastVqTrain ops mode
  | .forward :: ops, b => lastVqTrain ops b

/-- **C54, VQ-VAE.** After every history, the frozen part runs in evaluation mode and without gradients in every
`forward`; a part that is not frozen runs in the mode of the last `train`/`eval` call, with gradients. -/
theorem C54_vqvae (freeze : Bool) (ops : List VqOp) :
    let f := (ops.foldl VqFlags.apply (VqFlags.init freeze)).forward
    f.requiresGrad = !freeze ∧ f.training = (!freeze && lastVqTrain ops true) := by
  have key : ∀ (ops : List VqOp) (f : VqFlags) (mode : Bool),
      f.freeze = freeze → f.requiresGrad = !freeze → (freeze = false → f.training = mode) →
      let g := ops.foldl VqFlags.apply f
      g.freeze = freeze ∧ g.requiresGrad = !freeze ∧ (freeze = false → g.training = lastVqTrain ops mode) := by
    intro ops
    induction ops with
    | nil => exact fun f mode h1 h2 h3 => ⟨h1, h2, h3⟩
    | cons op ops ih =>
      intro f mode h1 h2 h3
      cases op with
      | forward =>
        refine ih _ mode ?_ ?_ ?_ <;> cases freeze <;> simp_all [VqFlags.apply, VqFlags.forward]
      | train m => exact ih _ m h1 h2 (fun _ => rfl)
  have h := key ops (VqFlags.init freeze) true (by cases freeze <;> rfl) (by cases freeze <;> rfl)
    (fun h => by subst h; rfl)
  obtain ⟨h1, h2, h3⟩ := h
  intro f
  show (VqFlags.forward _).requiresGrad = _ ∧ (VqFlags.forward _).training = _
  unfold VqFlags.forward
  cases freeze with
  | true => rw [h1]; exact ⟨rfl, rfl⟩
  | false =>
    rw [h1]
    exact ⟨h2, by simpa using h3 rfl⟩

example : (([.train true] : List VqOp).foldl VqFlags.apply (VqFlags.init true)).training = true ∧
    (([.train true] : List VqOp).foldl VqFlags.apply (VqFlags.init true)).forward.training = false := by decide

end Verif.Models.Hific

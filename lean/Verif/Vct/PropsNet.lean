import Verif.Vct.NetLemmas
import Verif.Vct.PatcherLemmas

/-!
# C133: how far a pixel reaches in the video codec

Specification: `reach`, `NoTies`, `part`; `InFrame` and `SameAround` are those of C132.
-/

namespace Verif.Vct.Net

open Verif Verif.Functional Verif.Models Verif.Models.HificNet

variable {C D : ℕ}

/-! ### Specification -/

/-- How many pixels a transform looks in each direction: 30 for the four convolutions of `ConvGDN`, and 90 plus 14 for
each residual unit of a stage for ELIC (132 for the default of three). -/
def reach : Transforms → ℕ
  | .convGDN .. => 30
  | .elic blocks .. => 90 + 14 * blocks

/-- No latent of the clip is exactly half-way between two integers before it is quantised. -/
def NoTies (m : Codec C D) (v : Clip) : Prop :=
  ∀ t < v.length, ∀ b, ∀ c < C, ∀ i < (m.latents v t).height, ∀ j < (m.latents v t).width, ∀ k : ℤ,
    (m.latents v t).pix b c i j ≠ k + 1 / 2

/-- A part of a batch of clips: the frames from `start` on, cut to a rectangle. -/
def part (v : Clip) (start length top left height width : ℕ) : Clip :=
  ⟨length, height, width, fun t b c i j => v.pix (start + t) b c (top + i) (left + j)⟩

/-! ### Lemmas -/

theorem factor_cases (tr : Transforms) : tr.factor = 16 ∨ tr.factor = 1 := by
  cases tr
  · exact Or.inl rfl
  · exact Or.inr rfl

theorem analysis_near (tr : Transforms) {R y z e f : ℤ} {x x' : Image ℝ} {b b' : ℕ} (hx : Pos x) (hx' : Pos x')
    (h : Near 3 1 (R + reach tr) y z (16 * e) (16 * f) x b x' b') (K : ℕ) :
    Near K 16 R y z e f (tr.analysis x) b (tr.analysis x') b' := by
  cases tr with
  | convGDN n c wa ws =>
    unfold Transforms.analysis
    exact convGdnAnalysis_near wa hx hx' (by simpa [reach] using h) K
  | elic n ca cs wa ws =>
    unfold Transforms.analysis
    exact elicAnalysis_near rfl wa hx hx' (by simpa [reach] using h) K

theorem synthesis_near (tr : Transforms) {R y z e f : ℤ} {x x' : Image ℝ} {b b' : ℕ} (hx : Pos x) (hx' : Pos x')
    (h : Near tr.channels.2 16 (R + reach tr) y z e f x b x' b') (K : ℕ) :
    Near K 1 R y z (16 * e) (16 * f) (tr.synthesis x) b (tr.synthesis x') b' := by
  cases tr with
  | convGDN n c wa ws =>
    unfold Transforms.synthesis
    exact convGdnSynthesis_near ws hx hx' (by simpa [reach, Transforms.channels] using h) K
  | elic n ca cs wa ws =>
    unfold Transforms.synthesis
    exact elicSynthesis_near ws hx hx' (by simpa [reach, Transforms.channels] using h) K

theorem latents_same (m : Codec C D) (v : Clip) (s t : ℕ) : Same (m.latents v s) (m.latents v t) := by
  unfold Codec.latents Same
  rw [(analysis_size _).1, (analysis_size _).2, (analysis_size _).1, (analysis_size _).2]
  exact ⟨rfl, rfl⟩

/-- The conditions under which `forward` gives something. -/
structure Fine (m : Codec C D) (v : Clip) : Prop where
  channels : m.transforms.channels = (C, C)
  padH : padAmount m.transforms.factor v.height < v.height
  padW : padAmount m.transforms.factor v.width < v.width
  ok : ∀ t, Ok (m.latents v t)

/-- The reconstruction of frame `t`, before the crop. -/
noncomputable def recon (m : Codec C D) (v : Clip) (t : ℕ) : Image ℝ :=
  m.transforms.synthesis (m.dequantize (m.code (m.latents v) t).latent (m.code (m.latents v) t).features)

theorem code_same (m : Codec C D) (x : ℕ → Image ℝ) (t : ℕ) :
    Same (m.code x t).latent (x t) ∧ Same (m.code x t).features (x t) := by
  rw [(code_eq m x t).1, (code_eq m x t).2.1]
  exact ⟨⟨rfl, rfl⟩, ⟨rfl, rfl⟩⟩

theorem recon_size (m : Codec C D) (v : Clip) (t : ℕ) :
    (recon m v t).height = 16 * (m.latents v 0).height ∧ (recon m v t).width = 16 * (m.latents v 0).width := by
  have h1 := (code_same m (m.latents v) t).1.trans (latents_same m v t 0)
  have hp : Pos (m.dequantize (m.code (m.latents v) t).latent (m.code (m.latents v) t).features) :=
    h1.pos (analysis_pos _ _)
  have h2 := synthesis_size m.transforms hp
  unfold recon
  rw [h2.1, h2.2]
  exact ⟨congrArg _ h1.1, congrArg _ h1.2⟩

theorem latents_size (m : Codec C D) (v : Clip) (h0 : 0 < v.height) (w0 : 0 < v.width) (t : ℕ) :
    v.height ≤ 16 * (m.latents v t).height ∧ v.width ≤ 16 * (m.latents v t).width := by
  have h1 := (analysis_size m.transforms (x := padFrame m.transforms.factor (v.frame t)))
  unfold Codec.latents
  rw [h1.1, h1.2]
  have a : (padFrame m.transforms.factor (v.frame t)).height = v.height + padAmount m.transforms.factor v.height := rfl
  have b : (padFrame m.transforms.factor (v.frame t)).width = v.width + padAmount m.transforms.factor v.width := rfl
  have c := latentSize_eq (padFrame m.transforms.factor (v.frame t)).height (by rw [a]; omega)
  have d := latentSize_eq (padFrame m.transforms.factor (v.frame t)).width (by rw [b]; omega)
  constructor <;> omega

theorem forward_spec (m : Codec C D) (v : Clip) (out : Output) (h : m.forward v = some out) :
    Fine m v ∧ out.video = ⟨v.length, v.height, v.width, fun t => (recon m v t).pix⟩ ∧
      out.lik = fun t => (m.code (m.latents v) t).lik := by
  unfold Codec.forward at h
  split_ifs at h with hc
  rw [Option.some.injEq] at h
  obtain ⟨-, c1, c2, c3, c4, c5⟩ := hc
  have hs := latents_size m v (by omega) (by omega) 0
  have hr := recon_size m v 0
  subst h
  refine ⟨⟨c1, c2, c3, fun t => ?_⟩, ?_, rfl⟩
  · have := latents_same m v t 0
    unfold Ok
    rw [this.1, this.2]
    exact ⟨c4, c5⟩
  · show (⟨_, min _ (recon m v 0).height, min _ (recon m v 0).width, _⟩ : Clip) = _
    rw [hr.1, hr.2, min_eq_left hs.1, min_eq_left hs.2]
    rfl

theorem latents_near (m : Codec C D) {v v' : Clip} (hv : Fine m v) (hv' : Fine m v') {t t' b b' : ℕ} {R y z e f : ℤ}
    (hR : 0 ≤ R) (hyz : InFrame (v.frame t) y z)
    (h : Near 3 1 (R + reach m.transforms) y z (16 * e) (16 * f) (v.frame t) b (v'.frame t') b') (K : ℕ) :
    Near K 16 R y z e f (m.latents v t) b (m.latents v' t') b' := by
  have hp : ∀ (v : Clip) (t : ℕ), Fine m v → Pos (padFrame m.transforms.factor (v.frame t)) := by
    intro v t hv
    have h1 := hv.padH
    have h2 := hv.padW
    refine ⟨?_, ?_⟩
    · show 0 < v.height + padAmount m.transforms.factor v.height
      omega
    · show 0 < v.width + padAmount m.transforms.factor v.width
      omega
  exact analysis_near m.transforms (hp v t hv) (hp v' t' hv')
    (padFrame_near (factor_cases _) hv.padH hv.padW hv'.padH hv'.padW (by positivity) hyz h) K

/-- What is asked of the frames, in terms of `Near`. -/
structure Given (m : Codec C D) (v v' : Clip) (t t' b b' : ℕ) (R y z e f : ℤ) : Prop where
  frames : t = t' ∨ 2 ≤ t ∧ 2 ≤ t'
  inside : InFrame (v.frame t) y z
  now : Near 3 1 (R + 48 + reach m.transforms) y z (64 * e) (64 * f) (v.frame t) b (v'.frame t') b'
  past : ∀ k ∈ [1, 2], k ≤ t →
    Near 3 1 (R + 80 + reach m.transforms) y z (64 * e) (64 * f) (v.frame (t - k)) b (v'.frame (t' - k)) b'

theorem coded_near (m : Codec C D) {v v' : Clip} (hv : Fine m v) (hv' : Fine m v') (nv : NoTies m v) (nv' : NoTies m v')
    {t t' b b' : ℕ} (ht : t < v.length) (ht' : t' < v'.length) {R y z e f : ℤ} (hR : 0 ≤ R)
    (g : Given m v v' t t' b b' R y z e f) :
    Near C 16 (R + 48) y z (4 * e) (4 * f) (m.code (m.latents v) t).latent b (m.code (m.latents v') t').latent b' ∧
      (∀ K, Near K 16 R y z (4 * e) (4 * f) (m.code (m.latents v) t).features b (m.code (m.latents v') t').features b') ∧
      ∀ i j : ℤ, |16 * i - y| ≤ R → |16 * j - z| ≤ R → InFrame (m.latents v t) i j → ∀ k < 16, ∀ c < C,
        (m.code (m.latents v) t).lik b (i.toNat / 4) (j.toNat / 4) k c =
          (m.code (m.latents v') t').lik b' ((i + 4 * e).toNat / 4) ((j + 4 * f).toNat / 4) k c := by
  have now : ∀ K, Near K 16 (R + 48) y z (4 * e) (4 * f) (m.latents v t) b (m.latents v' t') b' :=
    latents_near m hv hv' (by omega) g.inside (by
      rw [show 16 * (4 * e) = 64 * e by ring, show 16 * (4 * f) = 64 * f by ring]
      exact g.now)
  have past : ∀ k ∈ [1, 2], k ≤ t →
      Near C 16 (R + 80) y z (4 * e) (4 * f) (m.latents v (t - k)) b (m.latents v' (t' - k)) b' := fun k hk hkt =>
    latents_near m hv hv' (t := t - k) (t' := t' - k) (R := R + 80) (by omega) g.inside (by
      rw [show 16 * (4 * e) = 64 * e by ring, show 16 * (4 * f) = 64 * f by ring]
      exact g.past k hk hkt) C
  have hb : ∀ i j : ℤ, |16 * i - y| ≤ R → |16 * j - z| ≤ R → InFrame (m.latents v t) i j →
      ((before m (m.latents v) t).map fun s => s b (i.toNat / 4) (j.toNat / 4)) =
        (before m (m.latents v') t').map fun s => s b' ((i + 4 * e).toNat / 4) ((j + 4 * f).toNat / 4) := by
    intro i j hi hj hin
    refine before_near m hv.ok hv'.ok (fun s => latents_same m v s 0) g.frames (fun s hs _ => nv s (by omega))
      (fun s hs _ => nv' s (by omega)) past hi hj ?_
    have := latents_same m v t 0
    unfold InFrame at hin ⊢
    rw [← this.1, ← this.2]
    exact hin
  obtain ⟨f1, f2⟩ := entropy_near m (hv.ok t) (hv'.ok t') (now C) hb
  obtain ⟨a1, a2, a3⟩ := code_eq m (m.latents v) t
  obtain ⟨a1', a2', a3'⟩ := code_eq m (m.latents v') t'
  rw [a1, a2, a3, a1', a2', a3']
  exact ⟨latent_near m (nv t ht) (nv' t' ht') (now C) _ _, f1, f2⟩

theorem recon_near (m : Codec C D) {v v' : Clip} (hv : Fine m v) (hv' : Fine m v') (nv : NoTies m v) (nv' : NoTies m v')
    {t t' b b' : ℕ} (ht : t < v.length) (ht' : t' < v'.length) {y z e f : ℤ}
    (g : Given m v v' t t' b b' (32 + reach m.transforms) y z e f) (K : ℕ) :
    Near K 1 0 y z (64 * e) (64 * f) (recon m v t) b (recon m v' t') b' := by
  obtain ⟨h1, h2, -⟩ := coded_near m hv hv' nv nv' ht ht' (by positivity) g
  have s1 := code_same m (m.latents v) t
  have s1' := code_same m (m.latents v') t'
  have p1 := s1.2.pos (analysis_pos m.transforms (padFrame m.transforms.factor (v.frame t)))
  have p1' := s1'.2.pos (analysis_pos m.transforms (padFrame m.transforms.factor (v'.frame t')))
  have q1 := s1.1.pos (analysis_pos m.transforms (padFrame m.transforms.factor (v.frame t)))
  have q1' := s1'.1.pos (analysis_pos m.transforms (padFrame m.transforms.factor (v'.frame t')))
  have h3 : Near C 16 (0 + (reach m.transforms : ℤ)) y z (4 * e) (4 * f)
      (m.dequantize (m.code (m.latents v) t).latent (m.code (m.latents v) t).features) b
      (m.dequantize (m.code (m.latents v') t').latent (m.code (m.latents v') t').features) b' :=
    dequantize_near m p1 p1' (s1.1.trans s1.2.symm) (h1.mono (by omega)) (fun K => by
      rw [show (0 : ℤ) + reach m.transforms + 32 = 32 + reach m.transforms by ring]
      exact h2 K)
  have h4 := synthesis_near m.transforms (R := 0)
    (x := m.dequantize (m.code (m.latents v) t).latent (m.code (m.latents v) t).features)
    (x' := m.dequantize (m.code (m.latents v') t').latent (m.code (m.latents v') t').features) q1 q1'
    (by rw [show m.transforms.channels.2 = C by rw [hv.channels]]; exact h3) K
  rw [show 64 * e = 16 * (4 * e) by ring, show 64 * f = 16 * (4 * f) by ring]
  exact h4

theorem shift64 (y y' : ℕ) (h : y' % 64 = y % 64) : ∃ e : ℤ, (y' : ℤ) - y = 64 * e := ⟨((y' : ℤ) - y) / 64, by omega⟩

/-! ### C133 -/

/-- **C133, pixels.** For all weights and any two batches of clips that the codec accepts in evaluation mode, none of
whose latents is half-way between two integers: if clip `b` of the one around the pixel `(y, z)` looks like clip `b'`
of the other around `(y', z')`, a multiple of 64 away, in frame `t` up to 80 pixels plus twice the reach of the
transforms, and in the two frames before it up to 112 pixels plus twice that reach, then the two reconstructed pixels
are the same.  So a reconstructed pixel depends on no other clip of the batch, on no later frame, on no frame before
the last two, on nothing further away (172 pixels for `ConvGDN`, 376 for ELIC), nor on the place in the frame or, from
the third frame on, on the place in the clip. -/
theorem C133_pixels (m : Codec C D) (v v' : Clip) (out out' : Output) (ho : m.forward v = some out)
    (ho' : m.forward v' = some out') (nv : NoTies m v) (nv' : NoTies m v') (t t' b b' : ℕ) (ht : t < v.length)
    (ht' : t' < v'.length) (hf : t = t' ∨ 2 ≤ t ∧ 2 ≤ t') (y z y' z' : ℕ) (hy : y < v.height) (hz : z < v.width)
    (hy' : y' % 64 = y % 64) (hz' : z' % 64 = z % 64)
    (now : SameAround 3 (80 + 2 * reach m.transforms) (v.frame t) b y z (v'.frame t') b' y' z')
    (past : ∀ k ∈ [1, 2], k ≤ t →
      SameAround 3 (112 + 2 * reach m.transforms) (v.frame (t - k)) b y z (v'.frame (t' - k)) b' y' z') (c : ℕ) :
    out.video.pix t b c y z = out'.video.pix t' b' c y' z' := by
  obtain ⟨f1, g1, -⟩ := forward_spec m v out ho
  obtain ⟨f2, g2, -⟩ := forward_spec m v' out' ho'
  obtain ⟨e, he⟩ := shift64 y y' hy'
  obtain ⟨f, hf'⟩ := shift64 z z' hz'
  have n0 := near_of_same now
  rw [he, hf'] at n0
  have hin : InFrame (v.frame t) y z :=
    ⟨by simp, by exact_mod_cast hy, by simp, by exact_mod_cast hz⟩
  have g : Given m v v' t t' b b' (32 + reach m.transforms) y z e f :=
    ⟨hf, hin, n0.mono (by omega), fun k hk hkt => by
      have n1 := near_of_same (past k hk hkt)
      rw [he, hf'] at n1
      exact n1.mono (by omega)⟩
  have key := recon_near m f1 f2 nv nv' ht ht' g (c + 1) y z (by simp) (by simp)
  have hs := latents_size m v (by omega) (by omega) 0
  have hr := recon_size m v t
  have := key.2 ⟨by simp, by rw [hr.1]; omega, by simp, by rw [hr.2]; omega⟩ c (by omega)
  rw [← he, ← hf'] at this
  rw [g1, g2]
  simpa using this

/-- **C133, rate.** With the same hypotheses the likelihoods of all latents of the window of 64 by 64 pixels number
`(I, J)`, from which the rate is computed, depend only on what is at most 48 pixels plus the reach of the analysis
transform away from its corner in its own frame, and 80 plus that reach in the two frames before. -/
theorem C133_rate (m : Codec C D) (v v' : Clip) (out out' : Output) (ho : m.forward v = some out)
    (ho' : m.forward v' = some out') (nv : NoTies m v) (nv' : NoTies m v') (t t' b b' : ℕ) (ht : t < v.length)
    (ht' : t' < v'.length) (hf : t = t' ∨ 2 ≤ t ∧ 2 ≤ t') (I J I' J' : ℕ) (hI : 64 * I < v.height) (hJ : 64 * J < v.width)
    (now : SameAround 3 (48 + reach m.transforms) (v.frame t) b (64 * I) (64 * J) (v'.frame t') b' (64 * I') (64 * J'))
    (past : ∀ k ∈ [1, 2], k ≤ t →
      SameAround 3 (80 + reach m.transforms) (v.frame (t - k)) b (64 * I) (64 * J) (v'.frame (t' - k)) b' (64 * I') (64 * J')) :
    ∀ k < 16, ∀ c < C, out.lik t b I J k c = out'.lik t' b' I' J' k c := by
  obtain ⟨f1, -, g1⟩ := forward_spec m v out ho
  obtain ⟨f2, -, g2⟩ := forward_spec m v' out' ho'
  have n0 := near_of_same now
  rw [← mul_sub, ← mul_sub] at n0
  have hin : InFrame (v.frame t) (64 * I) (64 * J) :=
    ⟨by positivity, by exact_mod_cast hI, by positivity, by exact_mod_cast hJ⟩
  have g : Given m v v' t t' b b' 0 (64 * I) (64 * J) (I' - I) (J' - J) :=
    ⟨hf, hin, n0.mono (by omega), fun k hk hkt => by
      have n1 := near_of_same (past k hk hkt)
      rw [← mul_sub, ← mul_sub] at n1
      exact n1.mono (by omega)⟩
  obtain ⟨-, -, key⟩ := coded_near m f1 f2 nv nv' ht ht' le_rfl g
  have hs := latents_size m v (by omega) (by omega) t
  intro k hk c hc
  have := key (4 * I) (4 * J) (by ring_nf; simp) (by ring_nf; simp)
    ⟨by positivity, by omega, by positivity, by omega⟩ k hk c hc
  rw [g1, g2]
  have e1 : ((4 * (I : ℤ)).toNat / 4) = I := by omega
  have e2 : ((4 * (J : ℤ)).toNat / 4) = J := by omega
  have e3 : ((4 * (I : ℤ) + 4 * ((I' : ℤ) - I)).toNat / 4) = I' := by omega
  have e4 : ((4 * (J : ℤ) + 4 * ((J' : ℤ) - J)).toNat / 4) = J' := by omega
  rw [e1, e2, e3, e4] at this
  exact this

/-- **C133, size.** The reconstruction has the length and the size of the video. -/
theorem C133_size (m : Codec C D) (v : Clip) (out : Output) (ho : m.forward v = some out) :
    out.video.length = v.length ∧ out.video.height = v.height ∧ out.video.width = v.width := by
  obtain ⟨-, g1, -⟩ := forward_spec m v out ho
  rw [g1]
  exact ⟨rfl, rfl, rfl⟩

/-- **C133, frames.** Nothing is handed on from frame to frame for longer than two frames, and nothing between the
clips of a batch: if two batches agree in frame `t` of one clip and in the two frames before, then so do the
reconstructions and the likelihoods of that frame, whatever the other clips, the earlier and the later frames are. -/
theorem C133_frames (m : Codec C D) (v v' : Clip) (out out' : Output) (ho : m.forward v = some out)
    (ho' : m.forward v' = some out') (nv : NoTies m v) (nv' : NoTies m v') (t b b' : ℕ) (ht : t < v.length)
    (ht' : t < v'.length) (hh : v'.height = v.height) (hw : v'.width = v.width)
    (h : ∀ s ≤ t, t ≤ s + 2 → ∀ c < 3, ∀ i < v.height, ∀ j < v.width, v'.pix s b' c i j = v.pix s b c i j) :
    (∀ c, ∀ i < v.height, ∀ j < v.width, out'.video.pix t b' c i j = out.video.pix t b c i j) ∧
      ∀ I J, 64 * I < v.height → 64 * J < v.width → ∀ k < 16, ∀ c < C, out'.lik t b' I J k c = out.lik t b I J k c := by
  have same : ∀ s ≤ t, t ≤ s + 2 → ∀ R y z, SameAround 3 R (v.frame s) b y z (v'.frame s) b' y z := by
    intro s hs hs2 R y z di dj _ _
    refine ⟨by unfold InFrame Clip.frame; dsimp only; rw [hh, hw], ?_⟩
    rintro ⟨a1, a2, a3, a4⟩ c hc
    unfold Clip.frame at a2 a4 ⊢
    dsimp only at a2 a4 ⊢
    exact (h s hs hs2 c hc _ (by omega) _ (by omega)).symm
  constructor
  · intro c i hi j hj
    exact (C133_pixels m v v' out out' ho ho' nv nv' t t b b' ht ht' (Or.inl rfl) i j i j hi hj rfl rfl
      (same t le_rfl (by omega) _ _ _)
      (fun k hk hkt => same (t - k) (by omega) (by simp at hk; omega) _ _ _) c).symm
  · intro I J hI hJ k hk c hc
    exact (C133_rate m v v' out out' ho ho' nv nv' t t b b' ht ht' (Or.inl rfl) I J I J hI hJ
      (same t le_rfl (by omega) _ _ _)
      (fun k hk hkt => same (t - k) (by omega) (by simp at hk; omega) _ _ _) k hk c hc).symm

/-- **C133, parts.** A part of a clip can be coded on its own, if its corner is at multiples of 64: from its third
frame on (or everywhere in time, if it begins with the clip), and wherever it is at least 112 pixels plus twice the
reach of the transforms away from the cuts, its reconstruction is that of the whole clip. -/
theorem C133_parts (m : Codec C D) (v : Clip) (start length top left height width : ℕ) (out out' : Output)
    (ho : m.forward v = some out) (ho' : m.forward (part v start length top left height width) = some out')
    (nv : NoTies m v) (nv' : NoTies m (part v start length top left height width))
    (d1 : 64 ∣ top) (d2 : 64 ∣ left) (h0 : start + length ≤ v.length) (h1 : top + height ≤ v.height)
    (h2 : left + width ≤ v.width) (t b c i j : ℕ) (ht : t < length) (hi : i < height) (hj : j < width)
    (m0 : start = 0 ∨ 2 ≤ t)
    (m1 : top = 0 ∨ 112 + 2 * reach m.transforms ≤ i)
    (m2 : top + height = v.height ∨ i + (112 + 2 * reach m.transforms) < height)
    (m3 : left = 0 ∨ 112 + 2 * reach m.transforms ≤ j)
    (m4 : left + width = v.width ∨ j + (112 + 2 * reach m.transforms) < width) :
    out'.video.pix t b c i j = out.video.pix (start + t) b c (top + i) (left + j) := by
  have same : ∀ s s', s = start + s' → SameAround 3 (112 + 2 * reach m.transforms) (v.frame s) b (top + i : ℕ) (left + j : ℕ)
      ((part v start length top left height width).frame s') b i j := by
    rintro s s' rfl di dj hdi hdj
    rw [abs_le] at hdi hdj
    have hf : InFrame (v.frame (start + s')) ((top + i : ℕ) + di) ((left + j : ℕ) + dj) ↔
        InFrame ((part v start length top left height width).frame s') (i + di) (j + dj) := by
      unfold InFrame part Clip.frame
      dsimp only
      push_cast
      omega
    refine ⟨hf, ?_⟩
    intro hin c _
    obtain ⟨a1, a2, a3, a4⟩ := hf.1 hin
    unfold part Clip.frame
    dsimp only
    congr 1
    · push_cast
      omega
    · push_cast
      omega
  refine (C133_pixels m v (part v start length top left height width) out out' ho ho' nv nv' (start + t) t b b (by omega) ht
    (by omega) (top + i) (left + j) i j (by omega) (by omega) (by omega) (by omega) ?_ ?_ c).symm
  · intro di dj hdi hdj
    exact same (start + t) t rfl di dj (hdi.trans (by omega)) (hdj.trans (by omega))
  · intro k hk hkt
    exact same (start + t - k) (t - k) (by simp at hk; omega)

/-- **C133, windows.** The windows of this model are those that the patcher of C23 cuts, for the two sizes in use: on
every latent that `forward` accepts the patcher succeeds and its tensor holds them in order. -/
theorem C133_windows (x : Tensor ℝ) (B C H W p : ℕ) (hp : p = 4 ∨ p = 8) (h : Fits H) (w : Fits W) :
    ∃ t, patch 4 x B C H W p = .ok (t, ceilDiv H 4, ceilDiv W 4) ∧
      t.shape = [B * ceilDiv H 4 * ceilDiv W 4, p ^ 2, C] ∧
      ∀ b I J k c, b < B → I < ceilDiv H 4 → J < ceilDiv W 4 → k < p ^ 2 → c < C →
        t.get [(b * ceilDiv H 4 + I) * ceilDiv W 4 + J, k, c] =
          window p ⟨H, W, fun b c i j => x.get [b, c, i, j]⟩ b I J k c := by
  obtain ⟨h1, h2⟩ := h
  obtain ⟨w1, w2⟩ := w
  have hm : (p - 4) / 2 ≤ 2 := by omega
  obtain ⟨t, a1, a2, a3⟩ := patch_spec 4 x B C H W p (by norm_num) (by omega) (by omega) (by omega) (by omega)
    (by omega) (by omega)
  refine ⟨t, a1, a2, fun b I J k c hb hI hJ hk hc => ?_⟩
  have hp0 : 0 < p := by omega
  have := a3 b I J (k / p) (k % p) c hb hI hJ (by rw [Nat.div_lt_iff_lt_mul hp0]; rwa [sq] at hk) (Nat.mod_lt _ hp0) hc
  rw [Nat.div_add_mod' k p] at this
  exact this

/-! ### Ties are needed -/

/-- A convolution that copies every second pixel of the first channel. -/
def copyConv : ConvW := ⟨fun _ c di dj => if c = 0 ∧ di = 2 ∧ dj = 2 then 1 else 0, fun _ => 0⟩

/-- A divisive normalisation that does nothing. -/
def unitGdn : GdnW := ⟨fun _ => 1, fun _ _ => 0⟩

/-- Transforms that copy every sixteenth pixel. -/
def copyTransforms : Transforms := .convGDN 1 1 ⟨fun _ => copyConv, fun _ => unitGdn⟩ ⟨fun _ => copyConv, fun _ => unitGdn⟩

/-- A codec that predicts the value that the corner of the window had in the frame before. -/
noncomputable def copyCodec : Codec 1 1 where
  transforms := copyTransforms
  sep t := t
  predict ctx _ := ⟨fun _ _ => (ctx.getLastD fun _ _ => 0) 18 0, fun _ _ => 0, fun _ _ => 0⟩
  bn := defaultBn
  bound := 1 / 10 ^ 9
  pad _ := 0
  deq _ := ⟨fun _ _ _ _ => 0, fun _ => 0⟩

/-- A clip of which every frame has one value. -/
def plainClip (length : ℕ) (value : ℕ → ℝ) : Clip := ⟨length, 64, 64, fun t _ _ _ _ => value t⟩

theorem copy_conv (cin : ℕ) (hc : 0 < cin) (x : Image ℝ) (b o i j : ℕ) :
    (makeConv cin 5 2 copyConv x).pix b o i j = zeroPadded x b 0 (2 * i) (2 * j) := by
  unfold makeConv HificNet.conv2d
  dsimp only
  rw [Finset.sum_eq_single 0, Finset.sum_eq_single 2, Finset.sum_eq_single 2]
  · simp only [copyConv, and_self, if_true, one_mul, zero_add]
    congr 1 <;> push_cast <;> ring
  · intro d _ hd
    simp [copyConv, hd]
  · simp
  · intro d _ hd
    simp [copyConv, hd]
  · simp
  · intro d _ hd
    simp [copyConv, hd]
  · intro h
    simp at h
    omega

theorem copy_gdn (n : ℕ) (inv : Bool) (x : Image ℝ) : (gdn n inv unitGdn x).pix = x.pix := by
  funext b c i j
  cases inv <;> simp [gdn, unitGdn]

theorem copy_deconv (x : Image ℝ) (b : ℕ) :
    (makeDeconv 1 5 2 copyConv x).pix b 0 0 0 = zeroPadded x b 0 0 0 := by
  unfold makeDeconv HificNet.convTranspose2d
  dsimp only
  rw [Finset.sum_eq_single 0, Finset.sum_eq_single 2, Finset.sum_eq_single 2]
  · simp [copyConv]
  · intro d _ hd
    simp [copyConv, hd]
  · simp
  · intro d _ hd
    simp [copyConv, hd]
  · simp
  · intro d hd h
    simp at hd
    omega
  · simp

theorem padded_zero (x : Image ℝ) (hx : Pos x) (b c : ℕ) : zeroPadded x b c 0 0 = x.pix b c 0 0 := by
  have := hx.1
  have := hx.2
  unfold zeroPadded
  rw [if_pos ⟨le_rfl, by exact_mod_cast hx.1, le_rfl, by exact_mod_cast hx.2⟩]
  rfl

theorem copy_analysis (x : Image ℝ) (hx : Pos x) (b : ℕ) : (copyTransforms.analysis x).pix b 0 0 0 = x.pix b 0 0 0 := by
  have step : ∀ cin, 0 < cin → ∀ y : Image ℝ, Pos y → (makeConv cin 5 2 copyConv y).pix b 0 0 0 = y.pix b 0 0 0 := by
    intro cin hc y hy
    rw [copy_conv cin hc]
    exact padded_zero y hy b 0
  unfold copyTransforms Transforms.analysis convGdnAnalysis
  dsimp only
  rw [step 1 (by norm_num) _ (gdn_pos (makeConv_pos _ _ _ _ _)), copy_gdn,
    step 1 (by norm_num) _ (gdn_pos (makeConv_pos _ _ _ _ _)), copy_gdn,
    step 1 (by norm_num) _ (gdn_pos (makeConv_pos _ _ _ _ _)), copy_gdn, step 3 (by norm_num) _ hx]

theorem copy_synthesis (x : Image ℝ) (hx : Pos x) (b : ℕ) : (copyTransforms.synthesis x).pix b 0 0 0 = x.pix b 0 0 0 := by
  have step : ∀ y : Image ℝ, Pos y → (makeDeconv 1 5 2 copyConv y).pix b 0 0 0 = y.pix b 0 0 0 := by
    intro y hy
    rw [copy_deconv]
    exact padded_zero y hy b 0
  unfold copyTransforms Transforms.synthesis convGdnSynthesis
  dsimp only
  rw [step _ (gdn_pos (makeDeconv_pos _ _ _)), copy_gdn, step _ (gdn_pos (makeDeconv_pos _ _ _)), copy_gdn,
    step _ (gdn_pos (makeDeconv_pos _ _ _)), copy_gdn, step _ hx]

theorem copy_dequantize (l g : Image ℝ) (b c i j : ℕ) : (copyCodec.dequantize l g).pix b c i j = l.pix b c i j := by
  simp [Codec.dequantize, copyCodec, add, leakyRelu, HificNet.conv2d]

theorem copy_latents (n : ℕ) (value : ℕ → ℝ) (t b : ℕ) :
    (copyCodec.latents (plainClip n value) t).pix b 0 0 0 = value t ∧
      (copyCodec.latents (plainClip n value) t).height = 4 ∧ (copyCodec.latents (plainClip n value) t).width = 4 := by
  refine ⟨?_, ?_, ?_⟩
  · show (copyTransforms.analysis (padFrame 16 ((plainClip n value).frame t))).pix b 0 0 0 = _
    rw [copy_analysis _ ⟨show 0 < 64 + padAmount 16 64 by decide, show 0 < 64 + padAmount 16 64 by decide⟩]
    rfl
  · exact (analysis_size copyTransforms).1.trans (show latentSize (64 + padAmount 16 64) = 4 by decide)
  · exact (analysis_size copyTransforms).2.trans (show latentSize (64 + padAmount 16 64) = 4 by decide)

theorem copy_latent (x : Image ℝ) (hx : Pos x) (b : ℕ) (ctx : List (ℕ → ℕ → ℕ → Tokens 64 1)) (p : ℕ → ℕ → ℕ → Tokens 64 1)
    (hctx : Pipe.encodedSeqs 2 ctx = ctx ++ [p] ∨ Pipe.encodedSeqs 2 ctx = [] ++ ctx ∧ ∃ q, ctx = [q, p]) :
    (copyCodec.entropyForward x ctx).latent.pix b 0 0 0 = quant1 (x.pix b 0 0 0) (p b 0 0 18 0) := by
  unfold Codec.entropyForward unwindow
  dsimp only
  have hw : window 4 x b 0 0 (0 % 4 * 4 + 0 % 4) 0 = x.pix b 0 0 0 := window_self x b 0 0 0 hx.1 hx.2
  simp only [Nat.zero_div]
  rw [bnForward_quant1, hw]
  congr 1
  unfold entry copyCodec
  rw [dif_pos ⟨by norm_num, by norm_num⟩]
  dsimp only
  rcases hctx with h | ⟨h, q, rfl⟩
  · rw [h]
    simp
  · rw [h]
    simp

theorem process_corner (x : Image ℝ) (hx : Pos x) (b : ℕ) : copyCodec.process x b 0 0 18 0 = x.pix b 0 0 0 := by
  have h1 : x.height ≠ 0 := hx.1.ne'
  have h2 : x.width ≠ 0 := hx.2.ne'
  simp [Codec.process, copyCodec, tokens, window, reflect, h1, h2]

theorem copy_code (n : ℕ) (a : ℤ) (ha : a = 0 ∨ a = 1) (b t : ℕ) :
    ((copyCodec.code (copyCodec.latents (plainClip n fun t => if t = 0 then a else 1 / 2)) t).latent).pix b 0 0 0 = a := by
  set x := copyCodec.latents (plainClip n fun t => if t = 0 then (a : ℝ) else 1 / 2) with hx
  have hl : ∀ t, (x t).pix b 0 0 0 = (if t = 0 then (a : ℝ) else 1 / 2) ∧ Pos (x t) := by
    intro t
    have := copy_latents n (fun t => if t = 0 then (a : ℝ) else 1 / 2) t b
    refine ⟨this.1, ?_⟩
    unfold Pos
    rw [hx, this.2.1, this.2.2]
    norm_num
  have half : ∀ k : ℤ, k = 0 ∨ k = 1 → quant1 (1 / 2) (k : ℝ) = k := by
    rintro k (rfl | rfl)
    · have : roundHalfEven ((0 : ℤ) : ℝ) = 0 := roundHalfEven_int 0
      unfold quant1
      rw [this]
      simp only [Int.cast_zero, sub_zero, add_zero]
      rw [round_half]
      simp
    · have : roundHalfEven ((1 : ℤ) : ℝ) = 1 := roundHalfEven_int 1
      unfold quant1
      rw [this]
      have e : (1 / 2 : ℝ) - ((1 : ℤ) : ℝ) = -(1 / 2) := by norm_num
      rw [e, round_neg_half]
      simp
  induction t with
  | zero =>
    rw [(code_eq copyCodec x 0).1,
      copy_latent (x 0) (hl 0).2 b (before copyCodec x 0) (copyCodec.process (copyCodec.fake (x 0))) (Or.inl rfl),
      (hl 0).1, if_pos rfl]
    have h7 := quant1_round (x := (a : ℝ)) (by
      intro k hk
      have : (2 * a : ℤ) = 2 * k + 1 := by
        have : (2 * (a : ℝ)) = 2 * k + 1 := by rw [hk]; ring
        exact_mod_cast this
      omega) (copyCodec.process (copyCodec.fake (x 0)) b 0 0 18 0)
    rw [h7, roundHalfEven_int]
  | succ t ih =>
    have hc : Pipe.encodedSeqs 2 (before copyCodec x (t + 1)) = before copyCodec x (t + 1) ++ [copyCodec.process (copyCodec.code x t).latent] ∨
        Pipe.encodedSeqs 2 (before copyCodec x (t + 1)) = [] ++ before copyCodec x (t + 1) ∧
          ∃ q, before copyCodec x (t + 1) = [q, copyCodec.process (copyCodec.code x t).latent] := by
      cases t with
      | zero => exact Or.inl rfl
      | succ t =>
        right
        have : before copyCodec x (t + 1 + 1) = _ := state_succ copyCodec x t
        rw [this]
        exact ⟨rfl, _, rfl⟩
    rw [(code_eq copyCodec x (t + 1)).1, copy_latent (x (t + 1)) (hl _).2 b _ _ hc, (hl _).1, if_neg (by omega), process_corner _ ((code_same copyCodec x t).1.pos (hl t).2), ih]
    exact half a ha

theorem copy_forward (n : ℕ) (hn : 0 < n) (value : ℕ → ℝ) : ∃ out, copyCodec.forward (plainClip n value) = some out := by
  unfold Codec.forward
  rw [if_pos]
  · exact ⟨_, rfl⟩
  · have := copy_latents n value 0 0
    refine ⟨hn, rfl, ?_, ?_, ?_, ?_⟩
    · show padAmount 16 64 < 64
      decide
    · show padAmount 16 64 < 64
      decide
    · rw [this.2.1]
      unfold Fits
      decide
    · rw [this.2.2]
      unfold Fits
      decide

/-- **C133, ties.** Without the hypothesis on ties it is false: which of two integers a latent half-way between them
becomes depends on the prediction from the frames before, and so there are weights with which two clips that differ
only in their first frame stay different in all frames, however many there are. -/
theorem C133_ties : ∃ m : Codec 1 1, ∀ n > 0, ∃ v v' : Clip, v.length = n ∧ v'.length = n ∧
    (∀ t > 0, v.frame t = v'.frame t) ∧
    ∃ out out', m.forward v = some out ∧ m.forward v' = some out' ∧
      ∀ t < n, out.video.pix t 0 0 0 0 = 0 ∧ out'.video.pix t 0 0 0 0 = 1 := by
  refine ⟨copyCodec, fun n hn => ?_⟩
  refine ⟨plainClip n fun t => if t = 0 then ((0 : ℤ) : ℝ) else 1 / 2, plainClip n fun t => if t = 0 then ((1 : ℤ) : ℝ) else 1 / 2,
    rfl, rfl, ?_, ?_⟩
  · intro t ht
    unfold plainClip Clip.frame
    simp only [if_neg (show ¬ t = 0 by omega)]
  · obtain ⟨out, ho⟩ := copy_forward n hn fun t => if t = 0 then ((0 : ℤ) : ℝ) else 1 / 2
    obtain ⟨out', ho'⟩ := copy_forward n hn fun t => if t = 0 then ((1 : ℤ) : ℝ) else 1 / 2
    refine ⟨out, out', ho, ho', ?_⟩
    have val : ∀ (a : ℤ), a = 0 ∨ a = 1 → ∀ out, copyCodec.forward (plainClip n fun t => if t = 0 then (a : ℝ) else 1 / 2) = some out →
        ∀ t, out.video.pix t 0 0 0 0 = a := by
      intro a ha out ho t
      obtain ⟨-, g, -⟩ := forward_spec _ _ _ ho
      rw [g]
      show (recon copyCodec _ t).pix 0 0 0 0 = _
      unfold recon
      show (copyTransforms.synthesis _).pix 0 0 0 0 = _
      rw [copy_synthesis, copy_dequantize, copy_code n a ha]
      exact ((code_same copyCodec _ t).1.trans (latents_same copyCodec _ t 0)).pos (analysis_pos _ _)
    intro t _
    exact ⟨by simpa using val 0 (Or.inl rfl) out ho t, by simpa using val 1 (Or.inr rfl) out' ho' t⟩

/-! ### The hypotheses are met -/

/-- All pixels of an image are integers. -/
def Integral (x : Image ℝ) : Prop := ∀ b c i j, ∃ k : ℤ, x.pix b c i j = k

theorem integral_conv (cin : ℕ) (hc : 0 < cin) {x : Image ℝ} (hx : Integral x) : Integral (makeConv cin 5 2 copyConv x) := by
  intro b c i j
  rw [copy_conv cin hc]
  unfold zeroPadded
  split_ifs
  · exact hx _ _ _ _
  · exact ⟨0, by simp⟩

theorem integral_gdn {x : Image ℝ} (hx : Integral x) : Integral (gdn 1 false unitGdn x) := by
  intro b c i j
  rw [copy_gdn]
  exact hx _ _ _ _

theorem copy_noTies (v : Clip) (h : ∀ t, Integral (v.frame t)) : NoTies copyCodec v := by
  intro t _ b c _ i _ j _ k e
  have hp : Integral (padFrame 16 (v.frame t)) := fun b c i j => h t _ _ _ _
  obtain ⟨q, hq⟩ := integral_conv 1 one_pos (integral_gdn (integral_conv 1 one_pos (integral_gdn (integral_conv 1 one_pos
    (integral_gdn (integral_conv 3 (by norm_num) hp)))))) b c i j
  have e' : (q : ℝ) = k + 1 / 2 := hq.symm.trans e
  have : (2 * q : ℤ) = 2 * k + 1 := by
    have : (2 * (q : ℝ)) = 2 * k + 1 := by rw [e']; ring
    exact_mod_cast this
  omega

/-- Two clips that differ in their first two frames and in nothing later: they meet the hypotheses, so from the fifth
frame on their reconstructions agree. -/
example (n : ℕ) (hn : 4 < n) : ∃ out out', copyCodec.forward (plainClip n fun t => t) = some out ∧
    copyCodec.forward (plainClip n fun t => if t < 2 then 7 else t) = some out' ∧
    ∀ b c, ∀ i < 64, ∀ j < 64, out'.video.pix 4 b c i j = out.video.pix 4 b c i j := by
  obtain ⟨out, ho⟩ := copy_forward n (by omega) fun t => t
  obtain ⟨out', ho'⟩ := copy_forward n (by omega) fun t => if t < 2 then 7 else t
  refine ⟨out, out', ho, ho', fun b c i hi j hj => ?_⟩
  refine (C133_frames copyCodec _ _ out out' ho ho' (copy_noTies _ fun t b c i j => ⟨t, by simp [plainClip, Clip.frame]⟩)
    (copy_noTies _ fun t b c i j => ⟨if t < 2 then 7 else t, ?_⟩) 4 b b hn hn rfl rfl ?_).1 c i hi j hj
  · unfold plainClip Clip.frame
    dsimp only
    split_ifs <;> simp
  · intro s hs hs2 c _ i _ j _
    unfold plainClip
    dsimp only
    rw [if_neg (by omega)]

end Verif.Vct.Net

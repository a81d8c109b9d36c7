import Verif.Layers.VqTrain
import Verif.Layers.PropsVq
import Mathlib.Analysis.Calculus.Deriv.Inv
import Mathlib.Analysis.Calculus.Deriv.Pow
import Mathlib.Analysis.Calculus.Deriv.Add
import Mathlib.Analysis.SpecialFunctions.Sqrt

/-!
C154: what the losses of a vector quantiser teach.
-/

namespace Verif.Layers.Vq

open Filter Topology

/-! ### Specification -/

/-- The vector at a position. -/
def vec {d B H W : ℕ} (t : Latent d) (p : Pos B H W) : Fin d → ℝ := fun c => t p.1 c p.2.1 p.2.2

/-- The entries of a codebook: of length one if it is normalised. -/
noncomputable def entry {d K : ℕ} (norm : Bool) (codebook : Fin (K + 1) → Fin d → ℝ) (k : Fin (K + 1)) : Fin d → ℝ :=
  if norm then normalize (codebook k) else codebook k

/-- Every vector has one nearest entry. -/
def Decided {d K : ℕ} (B H W : ℕ) (norm : Bool) (t : Latent d) (codebook : Fin (K + 1) → Fin d → ℝ) : Prop :=
  ∀ p : Pos B H W, ∃ i, ∀ k ≠ i, sqDist (entry norm codebook i) (vec t p) < sqDist (entry norm codebook k) (vec t p)

/-- The mean squared error of replacing the vector at every position `p` by the entry `j p`. -/
noncomputable def error {d K : ℕ} (B H W : ℕ) (norm : Bool) (t : Latent d) (codebook : Fin (K + 1) → Fin d → ℝ)
    (j : Pos B H W → Fin (K + 1)) : ℝ :=
  (∑ p, sqDist (entry norm codebook (j p)) (vec t p)) / (B * d * H * W : ℕ)

/-! ### The losses as errors -/

/-- The index that is chosen at a position. -/
noncomputable def idx {d K : ℕ} {B H W : ℕ} (norm : Bool) (t : Latent d) (codebook : Fin (K + 1) → Fin d → ℝ)
    (p : Pos B H W) : Fin (K + 1) :=
  argmin fun k => sqDist (entry norm codebook k) (vec t p)

theorem indices_eq {d K B H W : ℕ} (norm : Bool) (draws : ℕ → ℝ) (t : Latent d) (codebook : Fin (K + 1) → Fin d → ℝ)
    (p : Pos B H W) :
    (quantizeVectors H W norm false draws t codebook).indices ((p.1 * H + p.2.1) * W + p.2.2) = idx norm t codebook p := by
  have e : (quantizeVectors H W norm false draws t codebook).indices ((p.1 * H + p.2.1) * W + p.2.2) =
      argmin (distances (effective norm codebook) (row H W t ((p.1 * H + p.2.1) * W + p.2.2))) := rfl
  rw [e, row_pixel H W t p.1 p.2.1 p.2.2 p.2.1.2 p.2.2.2]
  rfl

theorem entries_eq {d K B H W : ℕ} (norm : Bool) (draws : ℕ → ℝ) (t : Latent d) (codebook : Fin (K + 1) → Fin d → ℝ)
    (p : Pos B H W) (c : Fin d) :
    entries H W norm draws t codebook p.1 c p.2.1 p.2.2 = entry norm codebook (idx norm t codebook p) c := by
  show effective norm codebook ((quantizeVectors H W norm false draws t codebook).indices _) c = _
  rw [indices_eq]
  rfl

theorem loss_eq {d K : ℕ} (B H W : ℕ) (norm : Bool) (draws : ℕ → ℝ) (t : Latent d) (codebook : Fin (K + 1) → Fin d → ℝ) :
    embeddingLoss B H W norm draws t codebook = error B H W norm t codebook (idx norm t codebook) := by
  unfold embeddingLoss mseLoss error
  simp only [entries_eq]
  rfl

theorem error_le {d K : ℕ} (B H W : ℕ) (norm : Bool) (t : Latent d) (codebook : Fin (K + 1) → Fin d → ℝ)
    (j : Pos B H W → Fin (K + 1)) : error B H W norm t codebook (idx norm t codebook) ≤ error B H W norm t codebook j := by
  unfold error
  refine div_le_div_of_nonneg_right (Finset.sum_le_sum fun p _ => ?_) (Nat.cast_nonneg _)
  exact argmin_le (fun k => sqDist (entry norm codebook k) (vec t p)) (j p)

/-- **C154, value.** Commitment loss and embedding loss have the same value: the mean squared error of the quantisation,
which is the smallest that any choice of entries has. -/
theorem C154_value {d K : ℕ} (B H W : ℕ) (norm : Bool) (draws : ℕ → ℝ) (t : Latent d)
    (codebook : Fin (K + 1) → Fin d → ℝ) :
    commitmentLoss B H W norm draws t codebook = embeddingLoss B H W norm draws t codebook ∧
    (∃ j, embeddingLoss B H W norm draws t codebook = error B H W norm t codebook j) ∧
    ∀ j, embeddingLoss B H W norm draws t codebook ≤ error B H W norm t codebook j := by
  refine ⟨rfl, ⟨_, loss_eq B H W norm draws t codebook⟩, fun j => ?_⟩
  rw [loss_eq]
  exact error_le B H W norm t codebook j

/-! ### Derivatives -/

theorem idx_of_decided {d K B H W : ℕ} {norm : Bool} {t : Latent d} {codebook : Fin (K + 1) → Fin d → ℝ}
    {p : Pos B H W} {i : Fin (K + 1)}
    (h : ∀ k ≠ i, sqDist (entry norm codebook i) (vec t p) < sqDist (entry norm codebook k) (vec t p)) :
    idx norm t codebook p = i := by
  refine argmin_unique _ i (fun k => ?_) (fun k hk => h k hk.ne)
  by_cases hk : k = i
  · subst hk; exact le_rfl
  · exact (h k hk).le

/-- How the loss changes along a path of codebooks and latents. -/
theorem hasDerivAt_loss {d K B H W : ℕ} (norm : Bool) (draws : ℕ → ℝ) {t : ℝ → Latent d}
    {cb : ℝ → Fin (K + 1) → Fin d → ℝ} {e' : Fin (K + 1) → Fin d → ℝ} {x' : Pos B H W → Fin d → ℝ} {s : ℝ}
    (he : ∀ k c, HasDerivAt (fun s => entry norm (cb s) k c) (e' k c) s)
    (hx : ∀ p c, HasDerivAt (fun s => vec (t s) p c) (x' p c) s) (hd : Decided B H W norm (t s) (cb s)) :
    HasDerivAt (fun s => embeddingLoss B H W norm draws (t s) (cb s))
      ((∑ p : Pos B H W, ∑ c, 2 * (entry norm (cb s) (idx norm (t s) (cb s) p) c - vec (t s) p c) *
        (e' (idx norm (t s) (cb s) p) c - x' p c)) / (B * d * H * W : ℕ)) s := by
  set j := idx norm (t s) (cb s) with hj
  have h1 : HasDerivAt (fun u => error B H W norm (t u) (cb u) j)
      ((∑ p : Pos B H W, ∑ c, 2 * (entry norm (cb s) (j p) c - vec (t s) p c) * (e' (j p) c - x' p c)) /
        (B * d * H * W : ℕ)) s := by
    unfold error sqDist
    refine HasDerivAt.div_const ?_ _
    refine HasDerivAt.fun_sum fun p _ => HasDerivAt.fun_sum fun c _ => ?_
    have h := ((he (j p) c).fun_sub (hx p c)).fun_pow 2
    refine h.congr_deriv ?_
    norm_num
  refine h1.congr_of_eventuallyEq ?_
  have hev : ∀ p : Pos B H W, ∀ᶠ u in 𝓝 s, idx norm (t u) (cb u) p = j p := by
    intro p
    obtain ⟨i, hi⟩ := hd p
    have hji : j p = i := idx_of_decided hi
    have hk : ∀ k, ∀ᶠ u in 𝓝 s, k ≠ i →
        sqDist (entry norm (cb u) i) (vec (t u) p) < sqDist (entry norm (cb u) k) (vec (t u) p) := by
      intro k
      by_cases hki : k = i
      · exact Eventually.of_forall fun u h => absurd hki h
      · have hc : ∀ k, ContinuousAt (fun u => sqDist (entry norm (cb u) k) (vec (t u) p)) s := by
          intro k
          unfold sqDist
          refine tendsto_finsetSum _ fun c _ => ?_
          exact ((((he k c).continuousAt).sub (hx p c).continuousAt).pow 2)
        filter_upwards [(hc i).eventually_lt (hc k) (hi k hki)] with u hu _ using hu
    filter_upwards [eventually_all.2 hk] with u hu
    rw [hji]
    exact idx_of_decided fun k hk => hu k hk
  filter_upwards [eventually_all.2 hev] with u hu
  rw [loss_eq]
  congr 1
  funext p
  exact hu p

theorem sq_norm2 {d : ℕ} (v : Fin d → ℝ) : norm2 v ^ 2 = ∑ c, v c ^ 2 :=
  Real.sq_sqrt (Finset.sum_nonneg fun _ _ => sq_nonneg _)

theorem norm2_nonneg {d : ℕ} (v : Fin d → ℝ) : 0 ≤ norm2 v := Real.sqrt_nonneg _

theorem hasDerivAt_norm2 {d : ℕ} (v δ : Fin d → ℝ) (h : 0 < norm2 v) :
    HasDerivAt (fun s : ℝ => norm2 fun c => v c + s * δ c) ((∑ c, v c * δ c) / norm2 v) 0 := by
  have hin : HasDerivAt (fun s : ℝ => ∑ c, (v c + s * δ c) ^ 2) (∑ c, 2 * (v c * δ c)) 0 := by
    refine HasDerivAt.fun_sum fun c _ => ?_
    have h1 : HasDerivAt (fun s : ℝ => v c + s * δ c) (δ c) 0 := by
      simpa using ((hasDerivAt_id (0 : ℝ)).mul_const (δ c)).const_add (v c)
    refine (h1.fun_pow 2).congr_deriv ?_
    norm_num
    ring
  have h0 : (∑ c, (v c + 0 * δ c) ^ 2) ≠ 0 := by
    have : (∑ c, (v c + 0 * δ c) ^ 2) = norm2 v ^ 2 := by rw [sq_norm2]; simp
    rw [this]; positivity
  refine (hin.sqrt h0).congr_deriv ?_
  have : √(∑ c, (v c + 0 * δ c) ^ 2) = norm2 v := by unfold norm2; simp
  rw [this, ← Finset.mul_sum]
  field_simp

/-- The derivative of a normalised vector, away from the smallest norm, paired with a gradient, is the backward pass. -/
theorem hasDerivAt_normalize {d : ℕ} (v δ : Fin d → ℝ) (hv : norm2 v ≠ 1e-12) :
    ∃ n' : Fin d → ℝ, (∀ c, HasDerivAt (fun s : ℝ => normalize (fun c => v c + s * δ c) c) (n' c) 0) ∧
      ∀ g, ∑ c, g c * n' c = ∑ c, normalizeBack v g c * δ c := by
  have hlin : ∀ c, HasDerivAt (fun s : ℝ => v c + s * δ c) (δ c) 0 := fun c => by
    simpa using ((hasDerivAt_id (0 : ℝ)).mul_const (δ c)).const_add (v c)
  have hv0 : (fun c => v c + 0 * δ c) = v := by funext c; ring
  rcases lt_or_gt_of_ne hv with hlt | hgt
  · have hcont : ContinuousAt (fun s : ℝ => norm2 fun c => v c + s * δ c) 0 := by
      unfold norm2
      fun_prop
    refine ⟨fun c => δ c / 1e-12, fun c => ?_, fun g => ?_⟩
    · refine ((hlin c).div_const 1e-12).congr_of_eventuallyEq ?_
      have : ∀ᶠ s in 𝓝 (0 : ℝ), norm2 (fun c => v c + s * δ c) < 1e-12 :=
        hcont.eventually (gt_mem_nhds (by show norm2 (fun c => v c + 0 * δ c) < 1e-12; rw [hv0]; exact hlt))
      filter_upwards [this] with s hs
      simp only [normalize, max_eq_right hs.le]
    · refine Finset.sum_congr rfl fun c _ => ?_
      simp only [normalizeBack, max_eq_right hlt.le, if_neg (not_le.2 hlt)]
      split_ifs <;> ring
  · have hpos : 0 < norm2 v := lt_trans (by norm_num) hgt
    have hn := hasDerivAt_norm2 v δ hpos
    refine ⟨fun c => (δ c * norm2 v - v c * ((∑ c, v c * δ c) / norm2 v)) / norm2 v ^ 2, fun c => ?_, fun g => ?_⟩
    · have hq : HasDerivAt (fun s : ℝ => (v c + s * δ c) / norm2 (fun c => v c + s * δ c)) _ 0 :=
        (hlin c).fun_div hn (by rw [hv0]; exact hpos.ne')
      have hq' : HasDerivAt (fun s : ℝ => (v c + s * δ c) / norm2 (fun c => v c + s * δ c))
          ((δ c * norm2 v - v c * ((∑ c, v c * δ c) / norm2 v)) / norm2 v ^ 2) 0 := by
        refine hq.congr_deriv ?_
        rw [hv0]
        ring
      refine hq'.congr_of_eventuallyEq ?_
      have : ∀ᶠ s in 𝓝 (0 : ℝ), 1e-12 < norm2 (fun c => v c + s * δ c) :=
        hn.continuousAt.eventually (lt_mem_nhds (by show 1e-12 < norm2 (fun c => v c + 0 * δ c); rw [hv0]; exact hgt))
      filter_upwards [this] with s hs
      simp only [normalize, max_eq_left hs.le]
    · simp only [normalizeBack, max_eq_left hgt.le, if_pos hgt.le, if_neg hpos.ne']
      have e1 : ∀ c, g c * ((δ c * norm2 v - v c * ((∑ c, v c * δ c) / norm2 v)) / norm2 v ^ 2) =
          g c * δ c / norm2 v - g c * v c * ((∑ c, v c * δ c) / norm2 v ^ 3) := by
        intro c; field_simp
      have e2 : ∀ c, (g c / norm2 v + -(∑ c, g c * v c / norm2 v ^ 2) * (v c / norm2 v)) * δ c =
          g c * δ c / norm2 v - v c * δ c * ((∑ c, g c * v c) / norm2 v ^ 3) := by
        intro c; rw [← Finset.sum_div]; field_simp; ring
      simp only [e1, e2, Finset.sum_sub_distrib, ← Finset.sum_mul]
      ring

/-- Summing over the positions of every index is summing over the positions. -/
theorem sum_by_index {K : ℕ} {P : Type} [Fintype P] (i : P → Fin (K + 1)) (f : P → Fin (K + 1) → ℝ) :
    ∑ k, ∑ p, (if i p = k then f p k else 0) = ∑ p, f p (i p) := by
  rw [Finset.sum_comm]
  exact Finset.sum_congr rfl fun p _ => by simp

/-- The codebook gradient before the normalisation. -/
theorem back_codebook {d K : ℕ} (B H W : ℕ) (norm : Bool) (draws : ℕ → ℝ) (t : Latent d)
    (codebook : Fin (K + 1) → Fin d → ℝ) (gl : Latent d) (gc ge : ℝ) (k : Fin (K + 1)) :
    (quantizeBack B H W norm draws t codebook gl gc ge).codebook k =
      let g := fun c => ∑ p : Pos B H W, if idx norm t codebook p = k then
        ge * (2 * (entry norm codebook (idx norm t codebook p) c - vec t p c)) / (B * d * H * W : ℕ) else 0
      if norm then normalizeBack (codebook k) g else g := by
  simp only [quantizeBack, indices_eq, mseBack, entries_eq]
  rfl

/-- **C154, the codebook.** Where every vector has one nearest entry and no entry has exactly the smallest norm of the
normalisation, the gradient of the codebook is the derivative of the embedding loss, in every direction. -/
theorem C154_codebook {d K : ℕ} (B H W : ℕ) (norm : Bool) (draws : ℕ → ℝ) (t : Latent d)
    (codebook δ : Fin (K + 1) → Fin d → ℝ) (gl : Latent d) (gc ge : ℝ) (hd : Decided B H W norm t codebook)
    (hn : norm = true → ∀ k, norm2 (codebook k) ≠ 1e-12) :
    HasDerivAt (fun s : ℝ => ge * embeddingLoss B H W norm draws t fun k c => codebook k c + s * δ k c)
      (∑ k, ∑ c, (quantizeBack B H W norm draws t codebook gl gc ge).codebook k c * δ k c) 0 := by
  have h0 : (fun k c => codebook k c + 0 * δ k c) = codebook := by funext k c; ring
  have hent : ∀ k, ∃ e' : Fin d → ℝ,
      (∀ c, HasDerivAt (fun s : ℝ => entry norm (fun k c => codebook k c + s * δ k c) k c) (e' c) 0) ∧
      ∀ g : Fin d → ℝ, ∑ c, g c * e' c = ∑ c, (if norm then normalizeBack (codebook k) g else g) c * δ k c := by
    intro k
    cases norm with
    | false =>
      refine ⟨δ k, fun c => ?_, fun g => by simp⟩
      simpa [entry] using ((hasDerivAt_id (0 : ℝ)).mul_const (δ k c)).const_add (codebook k c)
    | true =>
      obtain ⟨n', h1, h2⟩ := hasDerivAt_normalize (codebook k) (δ k) (hn rfl k)
      exact ⟨n', fun c => by simpa [entry] using h1 c, fun g => by simpa using h2 g⟩
  choose e' he hg using hent
  have hx : ∀ (p : Pos B H W) c, HasDerivAt (fun _ : ℝ => vec t p c) ((fun _ _ => 0) p c) (0 : ℝ) := fun p c =>
    hasDerivAt_const _ _
  have h := (hasDerivAt_loss (B := B) (H := H) (W := W) norm draws (t := fun _ => t)
    (cb := fun s k c => codebook k c + s * δ k c) (s := 0) he hx (by simpa only [h0] using hd)).const_mul ge
  refine h.congr_deriv ?_
  simp only [back_codebook]
  rw [h0]
  have e1 : ∀ k, ∑ c, (if norm then normalizeBack (codebook k)
        (fun c => ∑ p : Pos B H W, if idx norm t codebook p = k then
          ge * (2 * (entry norm codebook (idx norm t codebook p) c - vec t p c)) / (B * d * H * W : ℕ) else 0)
      else fun c => ∑ p : Pos B H W, if idx norm t codebook p = k then
          ge * (2 * (entry norm codebook (idx norm t codebook p) c - vec t p c)) / (B * d * H * W : ℕ) else 0) c * δ k c =
      ∑ p : Pos B H W, if idx norm t codebook p = k then
        ∑ c, ge * (2 * (entry norm codebook (idx norm t codebook p) c - vec t p c)) / (B * d * H * W : ℕ) * e' k c
        else 0 := by
    intro k
    rw [← hg k]
    simp only [Finset.sum_mul]
    rw [Finset.sum_comm]
    refine Finset.sum_congr rfl fun p _ => ?_
    split_ifs <;> simp
  simp only [e1]
  rw [sum_by_index (fun p : Pos B H W => idx norm t codebook p) fun p k =>
    ∑ c, ge * (2 * (entry norm codebook (idx norm t codebook p) c - vec t p c)) / (B * d * H * W : ℕ) * e' k c]
  rw [Finset.sum_div, Finset.mul_sum]
  refine Finset.sum_congr rfl fun p _ => ?_
  rw [Finset.sum_div, Finset.mul_sum]
  refine Finset.sum_congr rfl fun c _ => ?_
  ring

/-- **C154, descent.** A small enough step against the gradient of the codebook makes the embedding loss smaller, also
with the indices of the new codebook. -/
theorem C154_descent {d K : ℕ} (B H W : ℕ) (norm : Bool) (draws : ℕ → ℝ) (t : Latent d)
    (codebook : Fin (K + 1) → Fin d → ℝ) (gl : Latent d) (gc : ℝ) (hd : Decided B H W norm t codebook)
    (hn : norm = true → ∀ k, norm2 (codebook k) ≠ 1e-12)
    (hg : ∃ k c, (quantizeBack B H W norm draws t codebook gl gc 1).codebook k c ≠ 0) :
    ∀ᶠ η in 𝓝[>] (0 : ℝ), embeddingLoss B H W norm draws t
        (fun k c => codebook k c - η * (quantizeBack B H W norm draws t codebook gl gc 1).codebook k c) <
      embeddingLoss B H W norm draws t codebook := by
  set g := (quantizeBack B H W norm draws t codebook gl gc 1).codebook with hgdef
  have h := C154_codebook B H W norm draws t codebook (fun k c => -g k c) gl gc 1 hd hn
  rw [← hgdef] at h
  have hneg : (∑ k, ∑ c, g k c * -g k c) < 0 := by
    obtain ⟨k, c, hkc⟩ := hg
    have e : (∑ k, ∑ c, g k c * -g k c) = -∑ k, ∑ c, g k c ^ 2 := by
      rw [← Finset.sum_neg_distrib]
      refine Finset.sum_congr rfl fun k _ => ?_
      rw [← Finset.sum_neg_distrib]
      exact Finset.sum_congr rfl fun c _ => by ring
    rw [e, neg_lt_zero]
    refine Finset.sum_pos' (fun k _ => Finset.sum_nonneg fun c _ => sq_nonneg _) ⟨k, Finset.mem_univ _, ?_⟩
    exact Finset.sum_pos' (fun c _ => sq_nonneg _) ⟨c, Finset.mem_univ _, by positivity⟩
  have hs := (h.tendsto_slope.mono_left (nhdsWithin_mono (0 : ℝ) (fun x (hx : 0 < x) => hx.ne'))).eventually
    (gt_mem_nhds hneg)
  filter_upwards [hs, self_mem_nhdsWithin] with η h1 h2
  have h2' : (0 : ℝ) < η := h2
  rw [slope_def_field, sub_zero, div_lt_iff₀ h2', zero_mul, one_mul, one_mul] at h1
  have e0 : (fun k c => codebook k c + 0 * -g k c) = codebook := by funext k c; ring
  have e1 : (fun k c => codebook k c + η * -g k c) = fun k c => codebook k c - η * g k c := by funext k c; ring
  rw [e0, e1] at h1
  linarith

/-- **C154, the latents.** Where every vector has one nearest entry, the gradient of the latents is what comes from the decoder
plus the derivative of the commitment loss, in every direction. -/
theorem C154_latent {d K : ℕ} (B H W : ℕ) (norm : Bool) (draws : ℕ → ℝ) (t δ : Latent d)
    (codebook : Fin (K + 1) → Fin d → ℝ) (gl : Latent d) (gc ge : ℝ) (hd : Decided B H W norm t codebook) :
    HasDerivAt (fun s : ℝ => (∑ p : Pos B H W, ∑ c, vec gl p c * (vec t p c + s * vec δ p c)) +
        gc * commitmentLoss B H W norm draws (fun b c y x => t b c y x + s * δ b c y x) codebook)
      (∑ p : Pos B H W, ∑ c, vec (quantizeBack B H W norm draws t codebook gl gc ge).preq p c * vec δ p c) 0 := by
  have h0 : (fun b c y x => t b c y x + 0 * δ b c y x) = t := by funext b c y x; ring
  have he : ∀ k c, HasDerivAt (fun _ : ℝ => entry norm codebook k c) ((fun _ _ => 0) k c) (0 : ℝ) := fun k c =>
    hasDerivAt_const _ _
  have hlin : ∀ (a b : ℝ), HasDerivAt (fun s : ℝ => a + s * b) b 0 := fun a b => by
    simpa using ((hasDerivAt_id (0 : ℝ)).mul_const b).const_add a
  have hx : ∀ (p : Pos B H W) c, HasDerivAt (fun s : ℝ => vec (fun b c y x => t b c y x + s * δ b c y x) p c)
      (vec δ p c) 0 := fun p c => hlin _ _
  have h := (hasDerivAt_loss (B := B) (H := H) (W := W) norm draws
    (t := fun s b c y x => t b c y x + s * δ b c y x) (cb := fun _ => codebook) (s := 0) he hx
    (by simpa only [h0] using hd)).const_mul gc
  have h2 : HasDerivAt (fun s : ℝ => ∑ p : Pos B H W, ∑ c, vec gl p c * (vec t p c + s * vec δ p c))
      (∑ p : Pos B H W, ∑ c, vec gl p c * vec δ p c) 0 :=
    HasDerivAt.fun_sum fun p _ => HasDerivAt.fun_sum fun c _ => (hlin _ _).const_mul _
  refine (h2.add h).congr_deriv ?_
  simp only [h0, zero_sub]
  rw [Finset.sum_div, Finset.mul_sum, ← Finset.sum_add_distrib]
  refine Finset.sum_congr rfl fun p _ => ?_
  rw [Finset.sum_div, Finset.mul_sum, ← Finset.sum_add_distrib]
  refine Finset.sum_congr rfl fun c _ => ?_
  have e : vec (quantizeBack B H W norm draws t codebook gl gc ge).preq p c =
      vec gl p c + gc * (2 * (vec t p c - entry norm codebook (idx norm t codebook p) c)) / (B * d * H * W : ℕ) := by
    show gl _ _ _ _ + mseBack B H W t (entries H W norm draws t codebook) gc p.1 c p.2.1 p.2.2 = _
    simp only [mseBack, entries_eq]
    rfl
  rw [e]
  ring

/-- **C154, who teaches whom.** The codebook learns from the embedding loss only, the encoder never from it; the gradient
of the decoder reaches the encoder unchanged. -/
theorem C154_separate {d K : ℕ} (B H W : ℕ) (norm : Bool) (draws : ℕ → ℝ) (t : Latent d)
    (codebook : Fin (K + 1) → Fin d → ℝ) (gl gl' : Latent d) (gc gc' ge ge' : ℝ) :
    (quantizeBack B H W norm draws t codebook gl gc ge).codebook =
      (quantizeBack B H W norm draws t codebook gl' gc' ge).codebook ∧
    (quantizeBack B H W norm draws t codebook gl gc ge).preq = (quantizeBack B H W norm draws t codebook gl gc ge').preq ∧
    (quantizeBack B H W norm draws t codebook gl 0 ge).preq = gl := by
  refine ⟨rfl, rfl, ?_⟩
  funext b c y x
  simp [quantizeBack, mseBack]

/-- **C154, unused entries.** An entry to which no vector of the batch is nearest gets no gradient. -/
theorem C154_unused {d K : ℕ} (B H W : ℕ) (norm : Bool) (draws : ℕ → ℝ) (t : Latent d)
    (codebook : Fin (K + 1) → Fin d → ℝ) (gl : Latent d) (gc ge : ℝ) (k : Fin (K + 1))
    (hk : ∀ p : Pos B H W, ∃ i, sqDist (entry norm codebook i) (vec t p) < sqDist (entry norm codebook k) (vec t p)) :
    (quantizeBack B H W norm draws t codebook gl gc ge).codebook k = fun _ => 0 := by
  have h : ∀ p : Pos B H W, idx norm t codebook p ≠ k := by
    intro p he
    obtain ⟨i, hi⟩ := hk p
    have := argmin_le (fun k => sqDist (entry norm codebook k) (vec t p)) i
    have e : argmin (fun k => sqDist (entry norm codebook k) (vec t p)) = k := he
    rw [e] at this
    exact absurd hi (not_lt.2 this)
  rw [back_codebook]
  simp only [h, if_false, Finset.sum_const_zero]
  split_ifs with hn
  · funext c
    simp [normalizeBack]
  · rfl

/-- **C154, norms.** The gradient of an entry of a normalised codebook is orthogonal to it, so that steps of any size never make
an entry shorter. -/
theorem C154_norm {d K : ℕ} (B H W : ℕ) (draws : ℕ → ℝ) (t : Latent d) (codebook : Fin (K + 1) → Fin d → ℝ) (gl : Latent d)
    (gc ge : ℝ) (k : Fin (K + 1)) (hk : 1e-12 ≤ norm2 (codebook k)) :
    ∑ c, (quantizeBack B H W true draws t codebook gl gc ge).codebook k c * codebook k c = 0 ∧
    ∀ η : ℝ, norm2 (codebook k) ≤
      norm2 fun c => codebook k c - η * (quantizeBack B H W true draws t codebook gl gc ge).codebook k c := by
  have hpos : 0 < norm2 (codebook k) := lt_of_lt_of_le (by norm_num) hk
  have horth : ∑ c, (quantizeBack B H W true draws t codebook gl gc ge).codebook k c * codebook k c = 0 := by
    rw [back_codebook]
    simp only [if_true]
    generalize (fun c => ∑ p : Pos B H W, if idx true t codebook p = k then
        ge * (2 * (entry true codebook (idx true t codebook p) c - vec t p c)) / (B * d * H * W : ℕ) else 0) = g
    simp only [normalizeBack, max_eq_left hk, if_pos hk, if_neg hpos.ne']
    have e2 : ∀ c, (g c / norm2 (codebook k) + -(∑ c, g c * codebook k c / norm2 (codebook k) ^ 2) *
        (codebook k c / norm2 (codebook k))) * codebook k c =
        g c * codebook k c / norm2 (codebook k) -
          (∑ c, g c * codebook k c) / norm2 (codebook k) ^ 3 * codebook k c ^ 2 := by
      intro c; rw [← Finset.sum_div]; field_simp; ring
    rw [Finset.sum_congr rfl fun c _ => e2 c, Finset.sum_sub_distrib, ← Finset.mul_sum, ← Finset.sum_div, ← sq_norm2]
    field_simp
    ring
  refine ⟨horth, fun η => ?_⟩
  set g := (quantizeBack B H W true draws t codebook gl gc ge).codebook k
  unfold norm2
  refine Real.sqrt_le_sqrt ?_
  have e : ∀ c, (codebook k c - η * g c) ^ 2 = codebook k c ^ 2 - 2 * η * (g c * codebook k c) + η ^ 2 * g c ^ 2 := by
    intro c; ring
  simp only [e, Finset.sum_add_distrib, Finset.sum_sub_distrib, ← Finset.mul_sum, horth]
  have : 0 ≤ η ^ 2 * ∑ c, g c ^ 2 := mul_nonneg (sq_nonneg _) (Finset.sum_nonneg fun c _ => sq_nonneg _)
  linarith

/-- **C154, steps of the encoder.** A step of any size `η` against the gradient of the commitment loss moves every vector on the
line to its entry; the loss shrinks at least by the square of the remaining fraction. -/
theorem C154_commitment_step {d K : ℕ} (B H W : ℕ) (norm : Bool) (draws : ℕ → ℝ) (t : Latent d)
    (codebook : Fin (K + 1) → Fin d → ℝ) (gc ge η : ℝ) :
    commitmentLoss B H W norm draws
        (fun b c y x => t b c y x - η * (quantizeBack B H W norm draws t codebook (fun _ _ _ _ => 0) gc ge).preq b c y x)
        codebook ≤
      (1 - 2 * η * gc / (B * d * H * W : ℕ)) ^ 2 * commitmentLoss B H W norm draws t codebook := by
  set t' : Latent d :=
    fun b c y x => t b c y x - η * (quantizeBack B H W norm draws t codebook (fun _ _ _ _ => 0) gc ge).preq b c y x with ht'
  have hv : ∀ (p : Pos B H W) c, entry norm codebook (idx norm t codebook p) c - vec t' p c =
      (1 - 2 * η * gc / (B * d * H * W : ℕ)) * (entry norm codebook (idx norm t codebook p) c - vec t p c) := by
    intro p c
    have : vec t' p c = vec t p c -
        η * (0 + gc * (2 * (vec t p c - entry norm codebook (idx norm t codebook p) c)) / (B * d * H * W : ℕ)) := by
      show t _ _ _ _ - η * (0 + mseBack B H W t (entries H W norm draws t codebook) gc p.1 c p.2.1 p.2.2) = _
      simp only [mseBack, entries_eq]
      rfl
    rw [this]
    ring
  show embeddingLoss B H W norm draws t' codebook ≤ _ * embeddingLoss B H W norm draws t codebook
  rw [loss_eq, loss_eq]
  refine (error_le B H W norm t' codebook (idx norm t codebook)).trans (le_of_eq ?_)
  unfold error sqDist
  simp only [hv, mul_pow, ← Finset.mul_sum]
  rw [mul_div_assoc]

/-- **C154, steps of the codebook.** Without normalisation, a step of size `η` against the gradient of the embedding loss never
makes the loss larger, up to the size at which it could throw an entry beyond the mirror image at the mean of its
vectors. -/
theorem C154_embedding_step {d K : ℕ} (B H W : ℕ) (draws : ℕ → ℝ) (t : Latent d) (codebook : Fin (K + 1) → Fin d → ℝ)
    (gl : Latent d) (gc ge η : ℝ) (h0 : 0 ≤ η * ge) (h1 : η * ge ≤ d) :
    embeddingLoss B H W false draws t
        (fun k c => codebook k c - η * (quantizeBack B H W false draws t codebook gl gc ge).codebook k c) ≤
      embeddingLoss B H W false draws t codebook := by
  set n : ℝ := ((B * d * H * W : ℕ) : ℝ) with hn
  set i : Pos B H W → Fin (K + 1) := idx false t codebook with hi
  set s := 2 * (η * ge) / n with hs
  have hn0 : 0 ≤ n := Nat.cast_nonneg _
  have hs0 : 0 ≤ s := by positivity
  rw [loss_eq, loss_eq]
  refine (error_le B H W false t _ i).trans ?_
  unfold error
  refine div_le_div_of_nonneg_right ?_ hn0
  rw [← hi]
  unfold sqDist
  rw [Finset.sum_comm, Finset.sum_comm (s := Finset.univ (α := Pos B H W))]
  refine Finset.sum_le_sum fun c _ => ?_
  set S : Fin (K + 1) → ℝ := fun k => ∑ p : Pos B H W, if i p = k then codebook k c - vec t p c else 0 with hS
  have hb : ∀ k, (quantizeBack B H W false draws t codebook gl gc ge).codebook k c * η = s * S k := by
    intro k
    rw [back_codebook]
    simp only [Bool.false_eq_true, if_false, hS, Finset.mul_sum, Finset.sum_mul]
    refine Finset.sum_congr rfl fun p _ => ?_
    by_cases hp : i p = k
    · rw [if_pos hp, if_pos hp, ← hi, hp]
      simp only [entry, Bool.false_eq_true, if_false, hs]
      ring
    · rw [if_neg hp, if_neg hp]; ring
  have e1 : ∀ p, (entry false (fun k c => codebook k c -
        η * (quantizeBack B H W false draws t codebook gl gc ge).codebook k c) (i p) c - vec t p c) ^ 2 =
      (codebook (i p) c - vec t p c) ^ 2 - 2 * s * (S (i p) * (codebook (i p) c - vec t p c)) + s ^ 2 * S (i p) ^ 2 := by
    intro p
    simp only [entry, Bool.false_eq_true, if_false]
    rw [mul_comm η, hb]
    ring
  have e2 : ∀ p, (entry false codebook (i p) c - vec t p c) ^ 2 = (codebook (i p) c - vec t p c) ^ 2 := fun p => rfl
  simp only [e1, e2, Finset.sum_add_distrib, Finset.sum_sub_distrib, ← Finset.mul_sum]
  have e3 : ∑ p, S (i p) * (codebook (i p) c - vec t p c) = ∑ k, S k ^ 2 := by
    rw [← sum_by_index i fun p k => S k * (codebook k c - vec t p c)]
    refine Finset.sum_congr rfl fun k _ => ?_
    rw [sq]
    conv_rhs => rw [hS]
    simp only
    rw [Finset.mul_sum]
    refine Finset.sum_congr rfl fun p _ => ?_
    split_ifs <;> simp [hS]
  have e4 : ∑ p : Pos B H W, S (i p) ^ 2 ≤ (B * H * W : ℕ) * ∑ k, S k ^ 2 := by
    have hcard : (B * H * W : ℕ) * ∑ k, S k ^ 2 = ∑ _p : Pos B H W, ∑ k, S k ^ 2 := by
      rw [Finset.sum_const, Finset.card_univ, Fintype.card_prod, Fintype.card_prod, Fintype.card_fin, Fintype.card_fin,
        Fintype.card_fin, nsmul_eq_mul, Nat.mul_assoc]
    rw [hcard]
    refine Finset.sum_le_sum fun p _ => ?_
    exact Finset.single_le_sum (f := fun k => S k ^ 2) (fun k _ => sq_nonneg _) (Finset.mem_univ (i p))
  have hT : 0 ≤ ∑ k, S k ^ 2 := Finset.sum_nonneg fun k _ => sq_nonneg _
  have hsn : s * (B * H * W : ℕ) ≤ 2 := by
    rcases eq_or_lt_of_le hn0 with h | h
    · rw [hs, ← h]; simp
    · rw [hs, div_mul_eq_mul_div, div_le_iff₀ h]
      have : n = d * (B * H * W : ℕ) := by rw [hn]; push_cast; ring
      rw [this]
      have : (0 : ℝ) ≤ (B * H * W : ℕ) := Nat.cast_nonneg _
      nlinarith
  have e5 : s ^ 2 * ∑ p, S (i p) ^ 2 ≤ 2 * s * ∑ k, S k ^ 2 := by
    calc s ^ 2 * ∑ p, S (i p) ^ 2 ≤ s ^ 2 * ((B * H * W : ℕ) * ∑ k, S k ^ 2) := mul_le_mul_of_nonneg_left e4 (sq_nonneg _)
      _ = s * (s * (B * H * W : ℕ)) * ∑ k, S k ^ 2 := by ring
      _ ≤ s * 2 * ∑ k, S k ^ 2 := by gcongr
      _ = _ := by ring
  rw [e3]
  linarith

/-! ### A case: one image of one row and two columns, vectors 1 and 5, entries 0, 4 and 9 -/

/-- The codebook of the example. -/
def exBook : Fin 3 → Fin 1 → ℝ := fun k _ => if k = 0 then 0 else if k = 1 then 4 else 9

/-- The latents of the example. -/
def exLatent : Latent 1 := fun _ _ _ x => if x = 0 then 1 else 5

/-- Every vector has one nearest entry, and the last entry is nearest to none: hypotheses of `C154_codebook`, `C154_latent`,
`C154_descent` and `C154_unused`. -/
example : Decided 1 1 2 false exLatent exBook ∧
    ∀ p : Pos 1 1 2, ∃ i, sqDist (entry false exBook i) (vec exLatent p) < sqDist (entry false exBook 2) (vec exLatent p) := by
  constructor
  · rintro ⟨b, y, x⟩
    fin_cases x
    · refine ⟨0, fun k hk => ?_⟩
      fin_cases k <;> simp_all [sqDist, entry, vec, exLatent, exBook] <;> norm_num
    · refine ⟨1, fun k hk => ?_⟩
      fin_cases k <;> simp_all [sqDist, entry, vec, exLatent, exBook] <;> norm_num
  · rintro ⟨b, y, x⟩
    refine ⟨1, ?_⟩
    fin_cases x <;> simp [sqDist, entry, vec, exLatent, exBook] <;> norm_num

/-- The gradient of the first entry is not zero (the last hypothesis of `C154_descent`): it is -1. -/
example (draws : ℕ → ℝ) :
    (quantizeBack 1 1 2 false draws exLatent exBook (fun _ _ _ _ => 0) 0 1).codebook 0 0 = -1 := by
  have h0 : idx (B := 1) (H := 1) (W := 2) false exLatent exBook (0, 0, 0) = 0 := idx_of_decided fun k hk => by
    fin_cases k <;> simp_all [sqDist, entry, vec, exLatent, exBook] <;> norm_num
  have h1 : idx (B := 1) (H := 1) (W := 2) false exLatent exBook (0, 0, 1) = 1 := idx_of_decided fun k hk => by
    fin_cases k <;> simp_all [sqDist, entry, vec, exLatent, exBook] <;> norm_num
  rw [back_codebook]
  simp [Fintype.sum_prod_type, h0, h1, entry, exBook, vec, exLatent]

/-- An entry of a normalised codebook that is longer than the smallest norm: hypothesis of `C154_norm` and `C154_codebook`. -/
example : 1e-12 ≤ norm2 (exBook 1) ∧ norm2 (exBook 1) ≠ 1e-12 := by
  have : norm2 (exBook 1) = 4 := by
    have : ∑ c, exBook 1 c ^ 2 = 4 ^ 2 := by simp [exBook]
    rw [norm2, this, Real.sqrt_sq (by norm_num)]
  rw [this]; norm_num

end Verif.Layers.Vq

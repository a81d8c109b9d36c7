import Verif.Models.Projector
import Mathlib.Tactic.Ring
import Mathlib.Tactic.Linarith
import Mathlib.Tactic.NormNum

/-!
C148: a latent projector, the VQ-VAE that it is made from, and what calls leave behind.
-/

namespace Verif.Models.Projector

open Verif.Layers

variable {I S : Type} {d K : ℕ}

/-! ### Specification -/

/-- Dropout does nothing in evaluation mode: there the encoder is a function of the image. -/
def Deterministic (n : Net I S d K) : Prop := ∀ s s' image, n.encoder false s image = n.encoder false s' image

/-- The indices of an image: those that a new quantiser with this codebook gives to the latent of the encoder in
evaluation mode, in the order of the vectors. -/
noncomputable def codes (n : Net I S d K) (codebook : Fin (K + 1) → Fin d → ℝ) (s : S) (image : I) :
    List (Fin (K + 1)) :=
  let ((B, H, W), latent) := n.encoder false s image
  (List.range (B * H * W)).map (Vq.forward ⟨codebook, fun _ => 0⟩ B H W latent).2.1.indices

/-- The event puts a projector into evaluation mode: it makes one, or it is a call of `train` or `eval` of one. -/
def Evaluates (w : World d K) (e : Event I S) : Prop :=
  e = .makeProjector ∨ w.projector ≠ none ∧ ∃ mode, e = .projectorTrain mode

/-! ### Auxiliary -/

theorem forward_out (v : Vq.State d K) (B H W : ℕ) (t : Vq.Latent d) :
    (Vq.forward v B H W t).2 = (Vq.forward ⟨v.codebook, fun _ => 0⟩ B H W t).2 := rfl

theorem apply_codebook (n : Net I S d K) (w : World d K) (e : Event I S) :
    (w.apply n e).vq.codebook = w.vq.codebook := by
  cases e with
  | projectorTrain mode => unfold World.apply World.projectorTrain; cases w.projector <;> rfl
  | _ => rfl

theorem run_codebook (n : Net I S d K) (events : List (Event I S)) (w : World d K) :
    (w.run n events).vq.codebook = w.vq.codebook := by
  induction events generalizing w with
  | nil => rfl
  | cons e events ih => exact (ih _).trans (apply_codebook n w e)

theorem apply_mode (n : Net I S d K) (w : World d K) (e : Event I S) (he : e ≠ .modelTrain true)
    (h : w.encoder.training = false) : (w.apply n e).encoder.training = false := by
  cases e with
  | modelTrain mode => cases mode with
    | true => exact absurd rfl he
    | false => rfl
  | modelCall s image =>
    show (World.refreeze w).encoder.training = false
    unfold World.refreeze
    cases w.freezeEncoder
    · exact h
    · rfl
  | makeProjector => rfl
  | projectorTrain mode =>
    unfold World.apply World.projectorTrain
    cases w.projector
    · exact h
    · rfl
  | projectorCall s image => exact h

theorem run_mode (n : Net I S d K) (events : List (Event I S)) (w : World d K)
    (he : ∀ e ∈ events, e ≠ .modelTrain true) (h : w.encoder.training = false) :
    (w.run n events).encoder.training = false := by
  induction events generalizing w with
  | nil => exact h
  | cons e events ih =>
    exact ih _ (fun e h => he e (List.mem_cons_of_mem _ h)) (apply_mode n w e (he e (List.mem_cons_self ..)) h)

theorem run_append (n : Net I S d K) (w : World d K) (a b : List (Event I S)) :
    w.run n (a ++ b) = (w.run n a).run n b := List.foldl_append ..

theorem sum_indexAdd (hits : Fin (K + 1) → ℕ) (m : ℕ) (ix : ℕ → Fin (K + 1)) :
    ∑ k, Vq.indexAdd hits m ix k = ∑ k, hits k + m := by
  induction m with
  | zero => simp [Vq.indexAdd]
  | succ m ih =>
    have : ∀ k, Vq.indexAdd hits (m + 1) ix k = Vq.indexAdd hits m ix k + if ix m = k then 1 else 0 := by
      intro k
      unfold Vq.indexAdd
      rw [List.range_succ, List.filter_append, List.length_append]
      by_cases h : ix m = k <;> simp [h, Nat.add_assoc]
    rw [Finset.sum_congr rfl fun k _ => this k, Finset.sum_add_distrib, ih]
    simp [Nat.add_assoc]

/-! ### C148 -/

/-- **C148, what a projector answers.** Whatever happened before and whatever was done with the model and the projector:
after a projector was made, or `train` or `eval` of it was called, and as long as the model is not put into training
mode, the projector answers with the indices of the image, which are a function of the image alone. -/
theorem C148_projector_partial (n : Net I S d K) (hn : Deterministic n) (w : World d K) (before after : List (Event I S))
    (e : Event I S) (he : Evaluates (w.run n before) e) (ha : ∀ e ∈ after, e ≠ .modelTrain true) (s s0 : S) (image : I) :
    ((w.run n (before ++ e :: after)).projectorCall n s image).2 = codes n w.vq.codebook s0 image := by
  have hmode : (w.run n (before ++ e :: after)).encoder.training = false := by
    rw [run_append]
    refine run_mode n after ((w.run n before).apply n e) ha ?_
    rcases he with rfl | ⟨hp, mode, rfl⟩
    · rfl
    · unfold World.apply World.projectorTrain
      cases h : (w.run n before).projector with
      | none => exact absurd h hp
      | some b => rfl
  unfold World.projectorCall codes
  rw [hmode, hn s s0 image]
  dsimp only
  rw [forward_out, run_codebook]

/-- **C148, the same indices.** A model in evaluation mode gives the same indices as the projector, if the image needs no
padding; the image that it returns is a function of the image given, whatever was called before. -/
theorem C148_model_partial (n : Net I S d K) (hn : Deterministic n) (hd : ∀ s s' z, n.decoder false s z = n.decoder false s' z)
    (w : World d K) (before : List (Event I S)) (after : List (Event I S))
    (ha : ∀ e ∈ after, ∃ s image, e = .modelCall s image ∨ e = .projectorCall s image) (s s0 : S) (image : I) :
    let r := (w.run n (before ++ .modelTrain false :: after)).modelCall n s image
    r.2.2 = codes n w.vq.codebook s0 (n.pad image) ∧
      r.2.1 = n.crop image (n.decoder false s0
        (let ((B, H, W), latent) := n.encoder false s0 (n.pad image)
         (Vq.forward ⟨w.vq.codebook, fun _ => 0⟩ B H W latent).2.1.latent)) := by
  have key : ∀ (after : List (Event I S)) (v : World d K),
      (∀ e ∈ after, ∃ s image, e = .modelCall s image ∨ e = .projectorCall s image) →
      v.training = false → v.encoder.training = false → v.decoder.training = false →
      (v.run n after).training = false ∧ (v.run n after).encoder.training = false ∧
        (v.run n after).decoder.training = false := by
    intro after
    induction after with
    | nil => exact fun v _ h1 h2 h3 => ⟨h1, h2, h3⟩
    | cons e after ih =>
      intro v ha h1 h2 h3
      obtain ⟨s, image, rfl | rfl⟩ := ha e (List.mem_cons_self ..)
      · refine ih _ (fun e h => ha e (List.mem_cons_of_mem _ h)) h1 ?_ h3
        exact apply_mode n v (.modelCall s image) (by simp) h2
      · exact ih _ (fun e h => ha e (List.mem_cons_of_mem _ h)) h1 h2 h3
  intro r
  obtain ⟨h1, h2, h3⟩ : (w.run n (before ++ .modelTrain false :: after)).training = false ∧
      (w.run n (before ++ .modelTrain false :: after)).encoder.training = false ∧
      (w.run n (before ++ .modelTrain false :: after)).decoder.training = false := by
    rw [run_append]
    exact key after ((w.run n before).modelTrain false) ha rfl rfl rfl
  have hc := run_codebook n (before ++ .modelTrain false :: after) w
  have h2' : (w.run n (before ++ .modelTrain false :: after)).refreeze.encoder.training = false :=
    apply_mode n _ (.modelCall s image) (by simp) h2
  have h3' : (w.run n (before ++ .modelTrain false :: after)).refreeze.decoder.training = false := h3
  have h1' : (w.run n (before ++ .modelTrain false :: after)).refreeze.training = false := h1
  have hc' : (w.run n (before ++ .modelTrain false :: after)).refreeze.vq.codebook = w.vq.codebook := hc
  constructor
  · show List.map _ _ = _
    unfold codes
    rw [h1', h2', hn s s0]
    dsimp only
    rw [forward_out, hc']
    rfl
  · show n.crop image _ = _
    rw [h1', h2', h3', hd s s0, hn s s0]
    dsimp only
    rw [forward_out, hc']
    rfl

/-- What the gradients of the parts depend on: the settings, and whether a projector was made. -/
theorem flags_run (n : Net I S d K) (fe fb : Bool) : ∀ (events : List (Event I S)) (w : World d K) (made : Prop),
    w.freezeEncoder = fe → w.freezeBottleneck = fb → (w.encoder.requiresGrad = true ↔ fe = false ∧ ¬ made) →
    (w.bottleneck.requiresGrad = true ↔ fb = false ∧ ¬ made) → w.decoder.requiresGrad = true →
    (w.run n events).freezeEncoder = fe ∧ (w.run n events).freezeBottleneck = fb ∧
    ((w.run n events).encoder.requiresGrad = true ↔ fe = false ∧ ¬ (made ∨ .makeProjector ∈ events)) ∧
    ((w.run n events).bottleneck.requiresGrad = true ↔ fb = false ∧ ¬ (made ∨ .makeProjector ∈ events)) ∧
    (w.run n events).decoder.requiresGrad = true
  | [], w, made, h1, h2, h3, h4, h5 => by simpa [World.run] using ⟨h1, h2, h3, h4, h5⟩
  | e :: rest, w, made, h1, h2, h3, h4, h5 => by
    have key : (w.apply n e).freezeEncoder = fe ∧ (w.apply n e).freezeBottleneck = fb ∧
        ((w.apply n e).encoder.requiresGrad = true ↔ fe = false ∧ ¬ (made ∨ .makeProjector = e)) ∧
        ((w.apply n e).bottleneck.requiresGrad = true ↔ fb = false ∧ ¬ (made ∨ .makeProjector = e)) ∧
        (w.apply n e).decoder.requiresGrad = true := by
      cases e with
      | modelTrain mode => simpa [World.apply, World.modelTrain] using ⟨h1, h2, h3, h4, h5⟩
      | modelCall s image =>
        refine ⟨h1, h2, ?_, ?_, h5⟩
        · show (if w.freezeEncoder then (⟨false, false⟩ : Flags) else w.encoder).requiresGrad = true ↔ _
          cases fe <;> simp [h1, h3]
        · show (if w.freezeBottleneck then (⟨false, false⟩ : Flags) else w.bottleneck).requiresGrad = true ↔ _
          cases fb <;> simp [h2, h4]
      | makeProjector => simpa [World.apply, World.makeProjector] using ⟨h1, h2, h5⟩
      | projectorTrain mode =>
        simp only [World.apply, World.projectorTrain]
        cases w.projector <;> simpa using ⟨h1, h2, h3, h4, h5⟩
      | projectorCall s image => simpa [World.apply, World.projectorCall] using ⟨h1, h2, h3, h4, h5⟩
    obtain ⟨k1, k2, k3, k4, k5⟩ := key
    have := flags_run n fe fb rest (w.apply n e) (made ∨ .makeProjector = e) k1 k2 k3 k4 k5
    simp only [or_assoc, ← List.mem_cons] at this
    exact this

/-- **C148, frozen parts.** For every history of a new model: encoder and bottleneck take gradients exactly if they are not frozen and
no projector was made, the decoder always does; frozen parts start in evaluation mode, and are in evaluation mode in every call of the
model; making a projector, or `train` or `eval` of it, puts both of its parts into evaluation mode. -/
theorem C148_frozen (n : Net I S d K) (fe fb : Bool) (codebook : Fin (K + 1) → Fin d → ℝ) (events : List (Event I S)) :
    let w := (World.new fe fb codebook).run n events
    (w.encoder.requiresGrad = true ↔ fe = false ∧ .makeProjector ∉ events) ∧
    (w.bottleneck.requiresGrad = true ↔ fb = false ∧ .makeProjector ∉ events) ∧ w.decoder.requiresGrad = true ∧
    (events = [] → w.encoder.training = !fe ∧ w.bottleneck.training = !fb ∧ w.decoder.training = true) ∧
    (∀ s image, (fe = true → (w.apply n (.modelCall s image)).encoder.training = false) ∧
      (fb = true → (w.apply n (.modelCall s image)).bottleneck.training = false)) ∧
    ∀ e, Evaluates w e → (w.apply n e).encoder.training = false ∧ (w.apply n e).bottleneck.training = false := by
  intro w
  obtain ⟨h1, h2, h3, h4, h5⟩ := flags_run n fe fb events (World.new fe fb codebook) False rfl rfl
    (by simp [World.new]) (by simp [World.new]) rfl
  refine ⟨by simpa using h3, by simpa using h4, h5, ?_, ?_, ?_⟩
  · rintro rfl
    exact ⟨rfl, rfl, rfl⟩
  · intro s image
    constructor
    · rintro rfl
      show (if w.freezeEncoder then (⟨false, false⟩ : Flags) else w.encoder).training = false
      rw [show w.freezeEncoder = true from h1]
      rfl
    · rintro rfl
      show (if w.freezeBottleneck then (⟨false, false⟩ : Flags) else w.bottleneck).training = false
      rw [show w.freezeBottleneck = true from h2]
      rfl
  · rintro e (rfl | ⟨hp, mode, rfl⟩)
    · exact ⟨rfl, rfl⟩
    · simp only [World.apply, World.projectorTrain]
      cases hw : w.projector with
      | none => exact absurd hw hp
      | some b => exact ⟨rfl, rfl⟩

/-- **C148, what a call leaves behind.** Whatever the modes and the frozen parts: a call of the model or of the projector
leaves the codebook as it was and adds to the counters one for every index that it returns; the other events leave the
counters as they were. -/
theorem C148_counts (n : Net I S d K) (w : World d K) (s : S) (image : I) :
    (∀ e : Event I S, (w.apply n e).vq.codebook = w.vq.codebook) ∧
      ∑ k, (w.modelCall n s image).1.vq.hits k = ∑ k, w.vq.hits k + (w.modelCall n s image).2.2.length ∧
      ∑ k, (w.projectorCall n s image).1.vq.hits k = ∑ k, w.vq.hits k + (w.projectorCall n s image).2.length ∧
      (∀ mode, (w.apply n (.modelTrain mode)).vq = w.vq) ∧ (w.apply n .makeProjector).vq = w.vq ∧
      ∀ mode, (w.apply n (.projectorTrain mode)).vq = w.vq := by
  refine ⟨apply_codebook n w, ?_, ?_, fun _ => rfl, rfl, fun mode => ?_⟩
  · show ∑ k, Vq.indexAdd _ _ _ k = _
    rw [sum_indexAdd]
    show _ = _ + (List.map _ _).length
    rw [List.length_map, List.length_range]
    rfl
  · show ∑ k, Vq.indexAdd _ _ _ k = _
    rw [sum_indexAdd]
    show _ = _ + (List.map _ _).length
    rw [List.length_map, List.length_range]
  · unfold World.apply World.projectorTrain; cases w.projector <;> rfl

/-- **C148 is violated: evaluation changes what is saved.** A call in evaluation mode, or with frozen parts, or of a
projector, changes the counters of the codebook, which are saved with the model, whenever it returns an index. -/
theorem C148_violated_saved (n : Net I S d K) (w : World d K) (s : S) (image : I) :
    ((w.modelCall n s image).2.2 ≠ [] → (w.modelCall n s image).1.vq.hits ≠ w.vq.hits) ∧
      ((w.projectorCall n s image).2 ≠ [] → (w.projectorCall n s image).1.vq.hits ≠ w.vq.hits) := by
  obtain ⟨_, h1, h2, _⟩ := C148_counts n w s image
  constructor
  · intro h he
    rw [he] at h1
    exact h (List.length_eq_zero_iff.1 (by omega))
  · intro h he
    rw [he] at h2
    exact h (List.length_eq_zero_iff.1 (by omega))

/-- **C148 is violated: making a projector changes the model.** The encoder and the bottleneck of the model that it was
made from take no gradients in any later call, although they were not frozen; before, they took gradients in every history. The
decoder is not changed. -/
theorem C148_violated_argument (n : Net I S d K) (codebook : Fin (K + 1) → Fin d → ℝ) (before after : List (Event I S))
    (hb : .makeProjector ∉ before) :
    let w := (World.new false false codebook).run n before
    (w.encoder.requiresGrad = true ∧ w.bottleneck.requiresGrad = true ∧ w.decoder.requiresGrad = true) ∧
      ∀ v, v = w.run n (.makeProjector :: after) →
        v.encoder.requiresGrad = false ∧ v.bottleneck.requiresGrad = false ∧ v.decoder.requiresGrad = true := by
  have step : ∀ (w : World d K) (e : Event I S), w.freezeEncoder = false → w.freezeBottleneck = false →
      (w.apply n e).freezeEncoder = false ∧ (w.apply n e).freezeBottleneck = false ∧
      (w.apply n e).decoder.requiresGrad = w.decoder.requiresGrad ∧
      ((e ≠ .makeProjector ∨ (w.encoder.requiresGrad = false ∧ w.bottleneck.requiresGrad = false)) →
        (w.apply n e).encoder.requiresGrad = w.encoder.requiresGrad ∧
        (w.apply n e).bottleneck.requiresGrad = w.bottleneck.requiresGrad) := by
    intro w e h1 h2
    cases e with
    | modelTrain mode => exact ⟨h1, h2, rfl, fun _ => ⟨rfl, rfl⟩⟩
    | modelCall s image =>
      refine ⟨h1, h2, rfl, fun _ => ?_⟩
      show w.refreeze.encoder.requiresGrad = _ ∧ w.refreeze.bottleneck.requiresGrad = _
      unfold World.refreeze
      rw [h1, h2]
      exact ⟨rfl, rfl⟩
    | makeProjector =>
      refine ⟨h1, h2, rfl, fun h => ?_⟩
      rcases h with h | ⟨h3, h4⟩
      · exact absurd rfl h
      · rw [h3, h4]; exact ⟨rfl, rfl⟩
    | projectorTrain mode =>
      unfold World.apply World.projectorTrain
      cases w.projector <;> exact ⟨h1, h2, rfl, fun _ => ⟨rfl, rfl⟩⟩
    | projectorCall s image => exact ⟨h1, h2, rfl, fun _ => ⟨rfl, rfl⟩⟩
  have all : ∀ (events : List (Event I S)) (w : World d K) (g : Bool), w.freezeEncoder = false →
      w.freezeBottleneck = false → w.encoder.requiresGrad = g → w.bottleneck.requiresGrad = g →
      w.decoder.requiresGrad = true → (g = false ∨ .makeProjector ∉ events) →
      (w.run n events).freezeEncoder = false ∧ (w.run n events).freezeBottleneck = false ∧
      (w.run n events).encoder.requiresGrad = g ∧ (w.run n events).bottleneck.requiresGrad = g ∧
      (w.run n events).decoder.requiresGrad = true := by
    intro events
    induction events with
    | nil => exact fun w g h1 h2 h3 h4 h5 _ => ⟨h1, h2, h3, h4, h5⟩
    | cons e events ih =>
      intro w g h1 h2 h3 h4 h5 h
      obtain ⟨s1, s2, s3, s4⟩ := step w e h1 h2
      have h' : e ≠ .makeProjector ∨ (w.encoder.requiresGrad = false ∧ w.bottleneck.requiresGrad = false) := by
        rcases h with h | h
        · exact .inr ⟨h3.trans h, h4.trans h⟩
        · exact .inl fun he => h (he ▸ List.mem_cons_self ..)
      exact ih _ g s1 s2 ((s4 h').1.trans h3) ((s4 h').2.trans h4) (s3.trans h5)
        (h.imp id fun h he => h (List.mem_cons_of_mem _ he))
  intro w
  obtain ⟨f1, f2, f3, f4, f5⟩ := all before (World.new false false codebook) true rfl rfl rfl rfl rfl (.inr hb)
  refine ⟨⟨f3, f4, f5⟩, ?_⟩
  rintro v rfl
  obtain ⟨_, _, g3, g4, g5⟩ := all after (w.apply n .makeProjector) false f1 f2 rfl rfl f5 (.inl rfl)
  exact ⟨g3, g4, g5⟩

/-- An encoder with dropout on vectors of length one: in training mode its latent is the random number. -/
def dropping : Net Unit ℝ 1 1 where
  encoder := fun training s _ => ((1, 1, 1), fun _ _ _ _ => if training then s else 1)
  decoder := fun _ _ _ => ()
  pad := id
  crop := fun _ r => r

/-- A codebook of two directions. -/
def two : Fin 2 → Fin 1 → ℝ := fun k _ => if k = 0 then 1 else -1

theorem dropping_deterministic : Deterministic dropping := fun _ _ _ => rfl

theorem nearest_two (x : ℝ) (B H W v : ℕ) :
    (Vq.forward ⟨two, fun _ => 0⟩ B H W (fun _ _ _ _ => x)).2.1.indices v = if x < 0 then 1 else 0 := by
  have h : ∀ k, Vq.normalize (two k) = two k := by
    intro k
    funext c
    unfold Vq.normalize Vq.norm2
    have : ∑ c, two k c ^ 2 = 1 := by
      rw [Finset.sum_congr rfl (g := fun _ => (1 : ℝ)) fun c _ => by unfold two; split <;> norm_num]
      simp
    rw [this, Real.sqrt_one]
    norm_num
  show Vq.argmin (fun k => ∑ c, (Vq.effective true two k c - x) ^ 2) = _
  have e : ∀ k, ∑ c, (Vq.effective true two k c - x) ^ 2 = (two k 0 - x) ^ 2 := by
    intro k
    unfold Vq.effective
    simp [h]
  unfold Vq.argmin
  rw [show List.finRange (1 + 1) = [0, 1] from rfl]
  simp only [List.foldl_cons, List.foldl_nil, e]
  have t0 : two 0 0 = 1 := rfl
  have t1 : two 1 0 = -1 := rfl
  rw [t0, t1]
  simp only [lt_self_iff_false, if_false]
  by_cases hx : x < 0
  · rw [if_pos hx, if_pos (by nlinarith)]
  · rw [if_neg hx, if_neg (by nlinarith)]

/-- **C148 is violated: the projector does not always evaluate.** After the model that it was made from is put into
training mode, the encoder of the projector is in training mode too, for every model and history; there are models for
which the answer of the projector then depends on the random numbers. -/
theorem C148_violated_shared :
    (∀ (n : Net I S d K) (w : World d K) (before : List (Event I S)),
      (w.run n (before ++ [.makeProjector, .modelTrain true])).projector = some false ∧
      (w.run n (before ++ [.makeProjector, .modelTrain true])).encoder.training = true) ∧
    (Deterministic dropping ∧ ∃ w, w = (World.new false false two).run dropping [.makeProjector, .modelTrain true] ∧
      (w.projectorCall dropping 1 ()).2 = [0] ∧ (w.projectorCall dropping (-1) ()).2 = [1]) := by
  refine ⟨fun n w before => ?_, dropping_deterministic, _, rfl, ?_, ?_⟩
  · rw [run_append]
    exact ⟨rfl, rfl⟩
  · show [(Vq.forward ⟨two, fun _ => 0⟩ 1 1 1 (fun _ _ _ _ => if true = true then (1 : ℝ) else 1)).2.1.indices 0] = _
    rw [nearest_two]
    norm_num
  · show [(Vq.forward ⟨two, fun _ => 0⟩ 1 1 1 (fun _ _ _ _ => if true = true then (-1 : ℝ) else 1)).2.1.indices 0] = _
    rw [nearest_two]
    norm_num

/-- C148 is not vacuous: after the same events a call of `train` of the projector puts it back into evaluation mode, and it
answers with the index of the image again, whatever the random number. -/
example : (((World.new false false two).run dropping
      ([.makeProjector, .modelTrain true] ++ .projectorTrain true :: [.modelCall 3 (), .projectorCall 4 ()])).projectorCall
        dropping (-1) ()).2 = [0] := by
  rw [C148_projector_partial dropping dropping_deterministic (World.new false false two) [.makeProjector, .modelTrain true]
    [.modelCall 3 (), .projectorCall 4 ()] (.projectorTrain true) (.inr ⟨by simp [World.run, World.apply,
      World.makeProjector, World.modelTrain], true, rfl⟩) (by simp) (-1) 0 ()]
  show [(Vq.forward ⟨two, fun _ => 0⟩ 1 1 1 (fun _ _ _ _ => if false = true then (0 : ℝ) else 1)).2.1.indices 0] = _
  rw [nearest_two]
  norm_num

end Verif.Models.Projector

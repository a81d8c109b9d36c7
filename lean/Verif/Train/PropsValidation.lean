import Verif.Train.Validation
import Verif.Train.PropsRate

/-!
# C139: what a validation of the image project reports

Specification: averages over all images of the validation set (`average`), in terms of the information content of the likelihoods
of an image (`bpp`).
-/

namespace Verif.Train.Validation

open Verif.Train.Rate

/-- The average over a list. -/
noncomputable def average {α : Type} (l : List α) (f : α → ℝ) : ℝ := (l.map f).sum / l.length

/-- The information content of likelihoods in bits per pixel. -/
noncomputable def bpp (height width : ℕ) (p : List ℝ) : ℝ := (p.map fun x => -Real.logb 2 x).sum / (height * width)

/-- Bits per pixel of the latent and the hyper-latent of an image, as coded. -/
noncomputable def codedBpp (height width : ℕ) (x : Item) : ℝ :=
  bpp height width x.lik.quantizedLatent + bpp height width x.lik.quantizedHyper

/-- The same, of the likelihoods that are differentiated in training. -/
noncomputable def softBpp (height width : ℕ) (x : Item) : ℝ := bpp height width x.lik.latent + bpp height width x.lik.hyper

/-- The weighted rate of an image: the weight is the upper one exactly if the coded image is above the target. -/
noncomputable def weightedRate (height width : ℕ) (lam1 lam2 target : ℝ) (x : Item) : ℝ :=
  open Classical in (if target < codedBpp height width x then lam2 else lam1) * softBpp height width x

/-- What the rates are, key by key. -/
def Rates (r : String → ℝ) (l : List Item) (height width : ℕ) (lam1 lam2 target : ℝ) : Prop :=
  r "val/rate_loss" = average l (weightedRate height width lam1 lam2 target) ∧
  r "val/total_bpp" = average l (softBpp height width) ∧
  r "val/quantized_total_bpp" = average l (codedBpp height width) ∧
  r "val/hyper_bpp" = average l (fun x => bpp height width x.lik.hyper) ∧
  r "val/quantized_hyper_bpp" = average l (fun x => bpp height width x.lik.quantizedHyper) ∧
  r "val/latent_bpp" = average l (fun x => bpp height width x.lik.latent) ∧
  r "val/quantized_latent_bpp" = average l (fun x => bpp height width x.lik.quantizedLatent) ∧
  r "val/target" = target ∧ r "val/lam2" = lam2

/-! ### Accumulation -/

/-- The value of a key that occurs once. -/
theorem log_once (a : Accs) (size : ℕ) (key : String) (v : ℝ) : ∀ (l : Logged), (l.map Prod.fst).Nodup → (key, v) ∈ l →
    (a.log size l) key = (a key).update v size := by
  intro l
  induction l generalizing a with
  | nil => intro _ h; simp at h
  | cons e l ih =>
    intro hn hm
    rw [List.map_cons, List.nodup_cons] at hn
    have step : (a.log size (e :: l)) = Accs.log (fun key => if key = e.1 then (a key).update e.2 size else a key) size l := rfl
    rw [step]
    rcases List.mem_cons.1 hm with rfl | hm
    · have skip : ∀ (l : Logged) (a : Accs), key ∉ l.map Prod.fst → (a.log size l) key = a key := by
        intro l
        induction l with
        | nil => intro a _; rfl
        | cons e l ih =>
          intro a hk
          rw [List.map_cons, List.mem_cons, not_or] at hk
          show (Accs.log (fun key => if key = e.1 then (a key).update e.2 size else a key) size l) key = a key
          rw [ih _ hk.2, if_neg hk.1]
      rw [skip l _ hn.1, if_pos rfl]
    · rw [ih _ hn.2 hm, if_neg]
      rintro rfl
      exact hn.1 (List.mem_map.2 ⟨(e.1, v), hm, rfl⟩)

/-- If the value of a key is the mean of `f` over every batch, its sum is that of `f`. -/
theorem loop_sum {α ε : Type} (Q : List α → Prop) (hQ : ∀ b, Q b → b ≠ []) (eval : List α → Except ε Logged) (key : String)
    (f : α → ℝ)
    (he : ∀ b, Q b → ∃ l, eval b = .ok l ∧ (l.map Prod.fst).Nodup ∧ (key, average b f) ∈ l) :
    ∀ (bs : List (List α)) (a : Accs), (∀ b ∈ bs, Q b) → ∃ r, loop eval bs a = .ok r ∧
      (r key).value = (a key).value + (bs.flatten.map f).sum ∧ (r key).size = (a key).size + bs.flatten.length
  | [], a, _ => ⟨a, rfl, by simp, by simp⟩
  | b :: bs, a, hb => by
    obtain ⟨l, e, hn, hm⟩ := he b (hb b (by simp))
    obtain ⟨r, h1, h2, h3⟩ := loop_sum Q hQ eval key f he bs (a.log b.length l) fun b' h => hb b' (by simp [h])
    refine ⟨r, by rw [loop, e]; exact h1, ?_, ?_⟩
    · rw [h2, log_once a _ key _ l hn hm]
      have hb0 : (b.length : ℝ) ≠ 0 := by
        have := hQ b (hb b (by simp))
        simpa using this
      simp only [Acc.update, average, List.flatten_cons, List.map_append, List.sum_append]
      field_simp
      ring
    · rw [h3, log_once a _ key _ l hn hm]
      simp only [Acc.update, List.flatten_cons, List.length_append]
      push_cast
      ring

/-- The devices together. -/
theorem validate_average {α ε : Type} (Q : List α → Prop) (hQ : ∀ b, Q b → b ≠ []) (eval : List α → Except ε Logged)
    (devices : List (List (List α)))
    (hb : ∀ bs ∈ devices, ∀ b ∈ bs, Q b)
    (he : ∀ b, Q b → ∃ l, eval b = .ok l ∧ (l.map Prod.fst).Nodup) :
    ∃ r, validate eval devices = .ok r ∧ ∀ key f, (∀ b l, Q b → eval b = .ok l → (key, average b f) ∈ l) →
      r key = average devices.flatten.flatten f := by
  have hloop : ∀ bs ∈ devices, ∃ a, loop eval bs (fun _ => ⟨0, 0⟩) = .ok a := by
    intro bs hbs
    have : ∀ (bs : List (List α)) (a : Accs), (∀ b ∈ bs, Q b) → ∃ r, loop eval bs a = .ok r := by
      intro bs
      induction bs with
      | nil => exact fun a _ => ⟨a, rfl⟩
      | cons b bs ih =>
        intro a hb
        obtain ⟨l, e, _⟩ := he b (hb b (by simp))
        obtain ⟨r, h⟩ := ih (a.log b.length l) fun b' h => hb b' (by simp [h])
        exact ⟨r, by rw [loop, e]; exact h⟩
    exact this bs _ (hb bs hbs)
  have hmap : ∀ ds : List (List (List α)), (∀ bs ∈ ds, bs ∈ devices) →
      ∃ accs, ds.mapM (fun bs => loop eval bs fun _ => ⟨0, 0⟩) = .ok accs ∧
      ∀ key f, (∀ b l, Q b → eval b = .ok l → (key, average b f) ∈ l) →
        (accs.map fun a => (a key).value).sum = (ds.flatten.flatten.map f).sum ∧
        (accs.map fun a => (a key).size).sum = ds.flatten.flatten.length := by
    intro ds
    induction ds with
    | nil =>
      intro _
      exact ⟨[], rfl, fun _ _ _ => by simp⟩
    | cons bs ds ih =>
      intro hd
      obtain ⟨accs, e, hk⟩ := ih fun b h => hd b (by simp [h])
      obtain ⟨a, ea⟩ := hloop bs (hd bs (by simp))
      refine ⟨a :: accs, ?_, ?_⟩
      · rw [List.mapM_cons, ea, e]
        rfl
      · intro key f hf
        obtain ⟨h1, h2⟩ := hk key f hf
        obtain ⟨a', ea', h3, h4⟩ := loop_sum Q hQ eval key f (fun b hbn => by
          obtain ⟨l, e, hn⟩ := he b hbn
          exact ⟨l, e, hn, hf b l hbn e⟩) bs (fun _ => ⟨0, 0⟩) (hb bs (hd bs (by simp)))
        rw [ea] at ea'
        cases ea'
        simp only [List.map_cons, List.sum_cons, h1, h2, h3, h4, List.flatten_cons, List.flatten_append, List.map_append,
          List.sum_append, List.length_append, zero_add]
        exact ⟨trivial, by push_cast; rfl⟩
  obtain ⟨accs, e, hk⟩ := hmap devices fun _ h => h
  refine ⟨_, by rw [validate, e]; rfl, ?_⟩
  intro key f hf
  obtain ⟨h1, h2⟩ := hk key f hf
  show _ / _ = _
  rw [h1, h2, average]

/-! ### The rates of a batch -/

theorem bits_bpp (height width : ℕ) (p : List ℝ) : bits p / ((height * width : ℕ) : ℝ) = bpp height width p := by
  rw [bpp, (C82_bits p).1, Nat.cast_mul]

theorem mean_average {α : Type} (b : List α) (f : α → ℝ) : (mean fun i : Fin b.length => f b[i]) = average b f := by
  unfold mean average
  congr 1
  rw [← List.sum_ofFn]
  congr 1
  apply List.ext_getElem
  · simp
  · intro i h1 h2
    simp

theorem average_const {α : Type} (b : List α) (hb : b ≠ []) (v : ℝ) : average b (fun _ => v) = v := by
  have : (b.length : ℝ) ≠ 0 := by simpa using hb
  simp only [average, List.map_const', List.sum_replicate, nsmul_eq_mul]
  field_simp

theorem average_add {α : Type} (b : List α) (f g : α → ℝ) : average b (fun x => f x + g x) = average b f + average b g := by
  unfold average
  rw [← add_div]
  congr 1
  induction b with
  | nil => simp
  | cons a b ih => simp only [List.map_cons, List.sum_cons, ih]; ring

theorem average_mul {α : Type} (b : List α) (k : ℝ) (f : α → ℝ) : average b (fun x => k * f x) = k * average b f := by
  unfold average
  rw [mul_div_assoc']
  congr 1
  induction b with
  | nil => simp
  | cons a b ih => simp only [List.map_cons, List.sum_cons, ih]; ring

/-- The rates of an image by key. -/
noncomputable def rateTable (height width : ℕ) (lam1 lam2 target : ℝ) : List (String × (Item → ℝ)) :=
  [("val/rate_loss", weightedRate height width lam1 lam2 target), ("val/total_bpp", softBpp height width),
    ("val/quantized_total_bpp", codedBpp height width), ("val/hyper_bpp", fun x => bpp height width x.lik.hyper),
    ("val/quantized_hyper_bpp", fun x => bpp height width x.lik.quantizedHyper),
    ("val/latent_bpp", fun x => bpp height width x.lik.latent),
    ("val/quantized_latent_bpp", fun x => bpp height width x.lik.quantizedLatent),
    ("val/target", fun _ => target), ("val/lam2", fun _ => lam2)]

theorem rate_spec (c : Config) (globalStep : ℤ) (height width : ℕ) (b : List Item) (hb : b ≠ []) (target lam2 : ℝ)
    (ht : scheduled globalStep c.targetBpp c.targetFactors c.targetSteps = .ok target)
    (hl : scheduled globalStep c.lamLevels.2 c.lam2Factors c.lam2Steps = .ok lam2) :
    ∃ out, rateLoss c globalStep height width (fun i : Fin b.length => b[i].lik) = .ok out ∧
      rateEntries out = (rateTable height width c.lamLevels.1 lam2 target).map (fun e => (e.1, average b e.2)) ∧
      out.rateLoss = average b (weightedRate height width c.lamLevels.1 lam2 target) := by
  have hr : rateLoss c globalStep height width (fun i : Fin b.length => b[i].lik) = .ok
      ⟨average b (weightedRate height width c.lamLevels.1 lam2 target), average b (softBpp height width),
        average b (codedBpp height width), average b (fun x => bpp height width x.lik.latent),
        average b (fun x => bpp height width x.lik.quantizedLatent), average b (fun x => bpp height width x.lik.hyper),
        average b (fun x => bpp height width x.lik.quantizedHyper), target, lam2⟩ := by
    unfold rateLoss
    rw [ht, hl]
    simp only [bind, Except.bind, pure, Except.pure, bits_bpp]
    rw [← mean_average b (weightedRate height width c.lamLevels.1 lam2 target), ← mean_average b (softBpp height width),
      ← mean_average b (codedBpp height width), ← mean_average b (fun x => bpp height width x.lik.latent),
      ← mean_average b (fun x => bpp height width x.lik.quantizedLatent),
      ← mean_average b (fun x => bpp height width x.lik.hyper), ← mean_average b (fun x => bpp height width x.lik.quantizedHyper)]
    rfl
  refine ⟨_, hr, ?_, rfl⟩
  simp only [rateEntries, rateTable, List.map_cons, List.map_nil, average_const b hb]

/-- A validation whose batches log averages of the entries of a table. -/
theorem validate_table {α ε : Type} (Q : List α → Prop) (hQ : ∀ b, Q b → b ≠ []) (eval : List α → Except ε Logged)
    (table : List (String × (α → ℝ)))
    (hn : (table.map Prod.fst).Nodup) (he : ∀ b, Q b → eval b = .ok (table.map fun e => (e.1, average b e.2)))
    (devices : List (List (List α))) (hb : ∀ bs ∈ devices, ∀ b ∈ bs, Q b) :
    ∃ r, validate eval devices = .ok r ∧ ∀ key f, (key, f) ∈ table → r key = average devices.flatten.flatten f := by
  obtain ⟨r, h1, h2⟩ := validate_average Q hQ eval devices hb (fun b hbn => ⟨_, he b hbn, by
    rw [List.map_map]
    exact hn⟩)
  refine ⟨r, h1, fun key f hm => h2 key f fun b l hbn e => ?_⟩
  rw [he b hbn] at e
  cases e
  exact List.mem_map.2 ⟨(key, f), hm, rfl⟩

theorem rates_of_table {r : String → ℝ} {l : List Item} (hl : l ≠ []) {height width : ℕ} {lam1 lam2 target : ℝ}
    (h : ∀ key f, (key, f) ∈ rateTable height width lam1 lam2 target → r key = average l f) :
    Rates r l height width lam1 lam2 target := by
  refine ⟨h _ _ (by simp [rateTable]), h _ _ (by simp [rateTable]), h _ _ (by simp [rateTable]),
    h _ (fun x => bpp height width x.lik.hyper) (by simp [rateTable]),
    h _ (fun x => bpp height width x.lik.quantizedHyper) (by simp [rateTable]),
    h _ (fun x => bpp height width x.lik.latent) (by simp [rateTable]),
    h _ (fun x => bpp height width x.lik.quantizedLatent) (by simp [rateTable]), ?_, ?_⟩
  · rw [h "val/target" (fun _ => target) (by simp [rateTable]), average_const l hl]
  · rw [h "val/lam2" (fun _ => lam2) (by simp [rateTable]), average_const l hl]

/-- **C139, training without discriminator.** However the images are spread over batches and devices, every reported number is
the average over all images: the distortion, the rates in bits per pixel, and the rate loss with a weight for every image; the
total loss is the sum of the weighted distortion and the rate loss that are reported. -/
theorem C139_target (c : Config) (hc : c.init = .ok c) (globalStep : ℤ) (height width : ℕ) (distortionLam : ℝ)
    (devices : List (List (List Item))) (hb : ∀ bs ∈ devices, ∀ b ∈ bs, b ≠ []) (hne : devices.flatten.flatten ≠ []) :
    ∃ r target lam2, scheduled globalStep c.targetBpp c.targetFactors c.targetSteps = .ok target ∧
      scheduled globalStep c.lamLevels.2 c.lam2Factors c.lam2Steps = .ok lam2 ∧
      validate (evalTarget c globalStep height width distortionLam) devices = .ok r ∧
      Rates r devices.flatten.flatten height width c.lamLevels.1 lam2 target ∧
      r "val/distortion_loss" = average devices.flatten.flatten (·.distortion) ∧
      r "val/total_loss" = distortionLam * r "val/distortion_loss" + r "val/rate_loss" := by
  obtain ⟨target, ht⟩ := (((C60_config c).2 hc) globalStep c.targetBpp).1
  obtain ⟨lam2, hl⟩ := (((C60_config c).2 hc) globalStep c.lamLevels.2).2
  obtain ⟨r, h1, h2⟩ := validate_table (· ≠ []) (fun _ h => h) (evalTarget c globalStep height width distortionLam)
    (("val/total_loss", fun x => distortionLam * x.distortion + weightedRate height width c.lamLevels.1 lam2 target x) ::
      ("val/distortion_loss", fun x => x.distortion) :: rateTable height width c.lamLevels.1 lam2 target)
    (by simp [rateTable]) (by
      intro b hbn
      obtain ⟨out, h1, h2, h3⟩ := rate_spec c globalStep height width b hbn target lam2 ht hl
      unfold evalTarget
      simp only [bind, Except.bind, h1, pure, Except.pure, List.map_cons, average_add, average_mul]
      rw [h2, h3]
      rfl) devices hb
  have hR := rates_of_table hne fun key f hm => h2 key f (List.mem_cons_of_mem _ (List.mem_cons_of_mem _ hm))
  have hD := h2 "val/distortion_loss" (fun x => x.distortion) (by simp)
  have hT := h2 "val/total_loss" _ (List.mem_cons_self ..)
  exact ⟨r, target, lam2, ht, hl, h1, hR, hD, by rw [hT, hD, hR.1, average_add, average_mul]⟩

/-- **C139, training with a discriminator.** The same with the generator loss. -/
theorem C139_gan (c : Config) (hc : c.init = .ok c) (globalStep : ℤ) (height width : ℕ) (distortionLam generatorWeight : ℝ)
    (devices : List (List (List Item))) (hb : ∀ bs ∈ devices, ∀ b ∈ bs, b ≠ []) (hne : devices.flatten.flatten ≠ []) :
    ∃ r target lam2, scheduled globalStep c.targetBpp c.targetFactors c.targetSteps = .ok target ∧
      scheduled globalStep c.lamLevels.2 c.lam2Factors c.lam2Steps = .ok lam2 ∧
      validate (evalGan c globalStep height width distortionLam generatorWeight) devices = .ok r ∧
      Rates r devices.flatten.flatten height width c.lamLevels.1 lam2 target ∧
      r "val/distortion_loss" = average devices.flatten.flatten (·.distortion) ∧
      r "val/generator_loss" = average devices.flatten.flatten (·.generator) ∧
      r "val/total_model_loss" = distortionLam * r "val/distortion_loss" + r "val/rate_loss" +
        generatorWeight * r "val/generator_loss" := by
  obtain ⟨target, ht⟩ := (((C60_config c).2 hc) globalStep c.targetBpp).1
  obtain ⟨lam2, hl⟩ := (((C60_config c).2 hc) globalStep c.lamLevels.2).2
  obtain ⟨r, h1, h2⟩ := validate_table (· ≠ []) (fun _ h => h) (evalGan c globalStep height width distortionLam generatorWeight)
    (("val/total_model_loss", fun x => distortionLam * x.distortion + weightedRate height width c.lamLevels.1 lam2 target x +
        generatorWeight * x.generator) ::
      ("val/distortion_loss", fun x => x.distortion) :: ("val/generator_loss", fun x => x.generator) ::
      rateTable height width c.lamLevels.1 lam2 target)
    (by simp [rateTable]) (by
      intro b hbn
      obtain ⟨out, h1, h2, h3⟩ := rate_spec c globalStep height width b hbn target lam2 ht hl
      unfold evalGan
      simp only [bind, Except.bind, h1, pure, Except.pure, List.map_cons, average_add, average_mul]
      rw [h2, h3]
      rfl) devices hb
  have hR := rates_of_table hne fun key f hm =>
    h2 key f (List.mem_cons_of_mem _ (List.mem_cons_of_mem _ (List.mem_cons_of_mem _ hm)))
  have hD := h2 "val/distortion_loss" (fun x => x.distortion) (by simp)
  have hG := h2 "val/generator_loss" (fun x => x.generator) (by simp)
  have hT := h2 "val/total_model_loss" _ (List.mem_cons_self ..)
  exact ⟨r, target, lam2, ht, hl, h1, hR, hD, hG, by rw [hT, hD, hG, hR.1, average_add, average_add, average_mul, average_mul]⟩

/-- **C139, splits.** Two ways to spread images, in any order, over batches and devices report the same numbers. -/
theorem C139_splits (c : Config) (hc : c.init = .ok c) (globalStep : ℤ) (height width : ℕ) (distortionLam : ℝ)
    (devices devices' : List (List (List Item))) (hb : ∀ bs ∈ devices, ∀ b ∈ bs, b ≠ [])
    (hb' : ∀ bs ∈ devices', ∀ b ∈ bs, b ≠ []) (hp : devices.flatten.flatten.Perm devices'.flatten.flatten)
    (hne : devices.flatten.flatten ≠ []) :
    ∃ r r', validate (evalTarget c globalStep height width distortionLam) devices = .ok r ∧
      validate (evalTarget c globalStep height width distortionLam) devices' = .ok r' ∧
      ∀ key ∈ ["val/total_loss", "val/distortion_loss", "val/rate_loss", "val/total_bpp", "val/quantized_total_bpp",
        "val/hyper_bpp", "val/quantized_hyper_bpp", "val/latent_bpp", "val/quantized_latent_bpp", "val/target", "val/lam2"],
        r key = r' key := by
  have perm : ∀ f, average devices.flatten.flatten f = average devices'.flatten.flatten f := by
    intro f
    rw [average, average, hp.length_eq, (hp.map f).sum_eq]
  obtain ⟨r, t, m, h1, h2, h3, ⟨a1, a2, a3, a4, a5, a6, a7, a8, a9⟩, h5, h6⟩ :=
    C139_target c hc globalStep height width distortionLam devices hb hne
  obtain ⟨r', t', m', g1, g2, g3, ⟨b1, b2, b3, b4, b5, b6, b7, b8, b9⟩, g5, g6⟩ :=
    C139_target c hc globalStep height width distortionLam devices' hb' (by
      intro h0
      rw [h0] at hp
      exact hne hp.eq_nil)
  rw [h1] at g1
  rw [h2] at g2
  cases g1
  cases g2
  refine ⟨r, r', h3, g3, ?_⟩
  intro key hk
  simp only [List.mem_cons, List.not_mem_nil, or_false] at hk
  rcases hk with rfl | rfl | rfl | rfl | rfl | rfl | rfl | rfl | rfl | rfl | rfl
  · rw [h6, g6, h5, g5, a1, b1, perm, perm]
  · rw [h5, g5, perm]
  · rw [a1, b1, perm]
  · rw [a2, b2, perm]
  · rw [a3, b3, perm]
  · rw [a4, b4, perm]
  · rw [a5, b5, perm]
  · rw [a6, b6, perm]
  · rw [a7, b7, perm]
  · rw [a8, b8]
  · rw [a9, b9]

/-- **C139, splits with a discriminator.** Also with a discriminator two ways to spread images, in any order,
over batches and devices report the same numbers. -/
theorem C139_splits_gan (c : Config) (hc : c.init = .ok c) (globalStep : ℤ) (height width : ℕ) (distortionLam generatorWeight : ℝ)
    (devices devices' : List (List (List Item))) (hb : ∀ bs ∈ devices, ∀ b ∈ bs, b ≠ [])
    (hb' : ∀ bs ∈ devices', ∀ b ∈ bs, b ≠ []) (hp : devices.flatten.flatten.Perm devices'.flatten.flatten)
    (hne : devices.flatten.flatten ≠ []) :
    ∃ r r', validate (evalGan c globalStep height width distortionLam generatorWeight) devices = .ok r ∧
      validate (evalGan c globalStep height width distortionLam generatorWeight) devices' = .ok r' ∧
      ∀ key ∈ ["val/total_model_loss", "val/distortion_loss", "val/generator_loss", "val/rate_loss", "val/total_bpp",
        "val/quantized_total_bpp", "val/hyper_bpp", "val/quantized_hyper_bpp", "val/latent_bpp", "val/quantized_latent_bpp", "val/target", "val/lam2"],
        r key = r' key := by
  have perm : ∀ f, average devices.flatten.flatten f = average devices'.flatten.flatten f := by
    intro f
    rw [average, average, hp.length_eq, (hp.map f).sum_eq]
  obtain ⟨r, t, m, h1, h2, h3, ⟨a1, a2, a3, a4, a5, a6, a7, a8, a9⟩, h5, h7, h6⟩ :=
    C139_gan c hc globalStep height width distortionLam generatorWeight devices hb hne
  obtain ⟨r', t', m', g1, g2, g3, ⟨b1, b2, b3, b4, b5, b6, b7, b8, b9⟩, g5, g7, g6⟩ :=
    C139_gan c hc globalStep height width distortionLam generatorWeight devices' hb' (by
      intro h0
      rw [h0] at hp
      exact hne hp.eq_nil)
  rw [h1] at g1
  rw [h2] at g2
  cases g1
  cases g2
  refine ⟨r, r', h3, g3, ?_⟩
  intro key hk
  simp only [List.mem_cons, List.not_mem_nil, or_false] at hk
  rcases hk with rfl | rfl | rfl | rfl | rfl | rfl | rfl | rfl | rfl | rfl | rfl | rfl
  · rw [h6, g6, h5, g5, h7, g7, a1, b1, perm, perm, perm]
  · rw [h5, g5, perm]
  · rw [h7, g7, perm]
  · rw [a1, b1, perm]
  · rw [a2, b2, perm]
  · rw [a3, b3, perm]
  · rw [a4, b4, perm]
  · rw [a5, b5, perm]
  · rw [a6, b6, perm]
  · rw [a7, b7, perm]
  · rw [a8, b8]
  · rw [a9, b9]

theorem average_le {α : Type} (l : List α) (f g : α → ℝ) (h : ∀ x ∈ l, f x ≤ g x) : average l f ≤ average l g := by
  unfold average
  exact div_le_div_of_nonneg_right (List.sum_le_sum h) (Nat.cast_nonneg _)

theorem bpp_nonneg (height width : ℕ) (p : List ℝ) (h : ∀ x ∈ p, 0 < x ∧ x ≤ 1) : 0 ≤ bpp height width p := by
  rw [← bits_bpp]
  exact div_nonneg ((C82_bits p).2 h) (Nat.cast_nonneg _)

/-- **C139, sums and bounds.** In every such report the total rates are the sums of those of latent and hyper-latent, and with
`lam1 ≤ lam2` and probabilities as likelihoods the rate loss lies between `lam1` and `lam2` times the total rate: at `lam1` if no
coded image is above the target, at `lam2` if all are. -/
theorem C139_rates (r : String → ℝ) (l : List Item) (height width : ℕ) (lam1 lam2 target : ℝ)
    (h : Rates r l height width lam1 lam2 target) :
    r "val/total_bpp" = r "val/latent_bpp" + r "val/hyper_bpp" ∧
    r "val/quantized_total_bpp" = r "val/quantized_latent_bpp" + r "val/quantized_hyper_bpp" ∧
    (lam1 ≤ lam2 → (∀ x ∈ l, (∀ p ∈ x.lik.latent, 0 < p ∧ p ≤ 1) ∧ ∀ p ∈ x.lik.hyper, 0 < p ∧ p ≤ 1) →
      lam1 * r "val/total_bpp" ≤ r "val/rate_loss" ∧ r "val/rate_loss" ≤ lam2 * r "val/total_bpp") ∧
    ((∀ x ∈ l, codedBpp height width x ≤ target) → r "val/rate_loss" = lam1 * r "val/total_bpp") ∧
    ((∀ x ∈ l, target < codedBpp height width x) → r "val/rate_loss" = lam2 * r "val/total_bpp") := by
  obtain ⟨a1, a2, a3, a4, a5, a6, a7, a8, a9⟩ := h
  refine ⟨?_, ?_, ?_, ?_, ?_⟩
  · rw [a2, a6, a4, ← average_add]
    rfl
  · rw [a3, a7, a5, ← average_add]
    rfl
  · intro hl hp
    have hs : ∀ x ∈ l, 0 ≤ softBpp height width x := fun x hx =>
      add_nonneg (bpp_nonneg _ _ _ (hp x hx).1) (bpp_nonneg _ _ _ (hp x hx).2)
    rw [a1, a2, ← average_mul, ← average_mul]
    constructor
    · refine average_le _ _ _ fun x hx => ?_
      unfold weightedRate
      split
      · exact mul_le_mul_of_nonneg_right hl (hs x hx)
      · exact le_refl _
    · refine average_le _ _ _ fun x hx => ?_
      unfold weightedRate
      split
      · exact le_refl _
      · exact mul_le_mul_of_nonneg_right hl (hs x hx)
  · intro hc
    rw [a1, a2, ← average_mul]
    unfold average
    congr 2
    refine List.map_congr_left fun x hx => ?_
    rw [weightedRate, if_neg (not_lt.2 (hc x hx))]
  · intro hc
    rw [a1, a2, ← average_mul]
    unfold average
    congr 2
    refine List.map_congr_left fun x hx => ?_
    rw [weightedRate, if_pos (hc x hx)]

/-- Two images of two by one pixels: two bits and one bit of the latent, one bit of the hyper-latent. -/
noncomputable def sample : Item × Item :=
  (⟨⟨[1 / 4], [1 / 4], [1 / 2], [1 / 2]⟩, 3, 1⟩, ⟨⟨[1 / 2], [1 / 2], [1 / 2], [1 / 2]⟩, 1, 5⟩)

theorem logb_half : Real.logb 2 (1 / 2) = -1 := by
  rw [one_div, Real.logb_inv, Real.logb_self_eq_one (by norm_num)]

theorem logb_quarter : Real.logb 2 (1 / 4) = -2 := by
  rw [show (1 / 4 : ℝ) = (1 / 2) * (1 / 2) by norm_num, Real.logb_mul (by norm_num) (by norm_num), logb_half]
  norm_num

/-- Two devices with batches of one and two images: three images of 1.5, 1 and 1 bits per pixel report 7/6 bits per pixel, not
the average of the batches, and with the weights 1 and 10 for a target of 1.2 the rate loss is (15 + 1 + 1) / 3. -/
example : ∃ r, validate (evalGan ⟨6 / 5, [1], [], (1, 10), [1], []⟩ 7 2 1 4 2) [[[sample.1]], [[sample.2, sample.2]]] = .ok r ∧
    r "val/quantized_total_bpp" = 7 / 6 ∧ r "val/rate_loss" = 17 / 3 ∧ r "val/generator_loss" = 11 / 3 ∧
    r "val/total_model_loss" = 4 * (5 / 3) + 17 / 3 + 2 * (11 / 3) := by
  obtain ⟨r, t, m, h1, h2, h3, hr, hd, hg, ht⟩ := C139_gan ⟨6 / 5, [1], [], (1, 10), [1], []⟩ (by simp [Config.init]) 7 2 1 4 2
    [[[sample.1]], [[sample.2, sample.2]]] (by simp) (by simp)
  have et : t = 6 / 5 := by
    have : scheduled 7 (6 / 5) [1] [] = .ok (6 / 5 * 1) := rfl
    rw [this] at h1
    cases h1
    norm_num
  have em : m = 10 := by
    have : scheduled 7 10 [1] [] = .ok (10 * 1) := rfl
    rw [this] at h2
    cases h2
    norm_num
  subst et em
  have b1 : bpp 2 1 [1 / 4] = 1 := by
    simp only [bpp, List.map_cons, List.map_nil, List.sum_cons, List.sum_nil, logb_quarter]
    norm_num
  have b2 : bpp 2 1 [1 / 2] = 1 / 2 := by
    simp only [bpp, List.map_cons, List.map_nil, List.sum_cons, List.sum_nil, logb_half]
    norm_num
  have w1 : weightedRate 2 1 1 10 (6 / 5) sample.1 = 15 := by
    simp only [weightedRate, codedBpp, softBpp, sample, b1, b2]
    norm_num
  have w2 : weightedRate 2 1 1 10 (6 / 5) sample.2 = 1 := by
    simp only [weightedRate, codedBpp, softBpp, sample, b2]
    norm_num
  have e1 : r "val/quantized_total_bpp" = 7 / 6 := by
    rw [hr.2.2.1]
    simp only [average, codedBpp, sample, b1, b2, List.flatten_cons, List.flatten_nil, List.append_nil, List.cons_append,
      List.nil_append, List.map_cons, List.map_nil, List.sum_cons, List.sum_nil, List.length_cons, List.length_nil]
    norm_num
  have e2 : r "val/rate_loss" = 17 / 3 := by
    rw [hr.1]
    simp only [average, w1, w2, List.flatten_cons, List.flatten_nil, List.append_nil, List.cons_append,
      List.nil_append, List.map_cons, List.map_nil, List.sum_cons, List.sum_nil, List.length_cons, List.length_nil]
    norm_num
  have e3 : r "val/generator_loss" = 11 / 3 := by
    rw [hg]
    simp [average, sample]
    norm_num
  have e4 : r "val/distortion_loss" = 5 / 3 := by
    rw [hd]
    simp [average, sample]
    norm_num
  exact ⟨r, h3, e1, e2, e3, by rw [ht, e2, e3, e4]⟩

end Verif.Train.Validation

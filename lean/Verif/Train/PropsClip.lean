import Verif.Train.Clip
import Mathlib.Tactic.Ring
import Mathlib.Tactic.NormNum
import Mathlib.Tactic.FieldSimp

/-!
C157: gradient clipping of the image and video training.
-/

namespace Verif.Train.Clip

variable {P W : Type} [DecidableEq P]

/-! ### Specification -/

/-- All entries of the gradients of some parameters. -/
def entries (opt : List P) (g : Grads P) : List ℝ := opt.flatMap fun p => (g p).getD []

/-- The Euclidean length of all these entries together. -/
noncomputable def size (opt : List P) (g : Grads P) : ℝ := Real.sqrt ((entries opt g).map (· ^ 2)).sum

/-- `g'` is `g` clipped to length `v`: the same direction, not longer, not longer than `v`; unchanged exactly if the length is at most
`v` up to the millionth that the implementation adds, and else as long as `v` up to a millionth. -/
def Clipped (v : ℝ) (opt : List P) (g g' : Grads P) : Prop :=
  size opt g' ≤ v ∧ (v < size opt g + 1 / 10 ^ 6 → v - 1 / 10 ^ 6 ≤ size opt g') ∧
  ∃ k : ℝ, 0 < k ∧ k ≤ 1 ∧ (k = 1 ↔ size opt g + 1 / 10 ^ 6 ≤ v) ∧
    ∀ p ∈ opt, g' p = (g p).map fun l => l.map fun x => k * x

/-- `g'` is `g` with each entry limited to absolute value `v`, keeping its sign. -/
def Limited (v : ℝ) (opt : List P) (g g' : Grads P) : Prop :=
  ∀ p ∈ opt, (g p = none → g' p = none) ∧
    ∀ l, g p = some l → ∃ l', g' p = some l' ∧ List.Forall₂ (fun x y => |y| = min |x| v ∧ 0 ≤ x * y) l l'

/-- What the settings promise. -/
def Treated (val : Option ℝ) (algorithm : String) (opt : List P) (g g' : Grads P) : Prop :=
  ((∀ v, val = some v → v ≤ 0) → ∀ p ∈ opt, g' p = g p) ∧
  ∀ v, val = some v → 0 < v →
    (algorithm.toLower = "norm" → Clipped v opt g g') ∧ (algorithm.toLower = "value" → Limited v opt g g')

/-! ### Lengths -/

theorem norm_sq (l : List ℝ) : norm l ^ 2 = (l.map (· ^ 2)).sum := by
  unfold norm
  rw [Real.sq_sqrt]
  apply List.sum_nonneg
  intro x hx
  obtain ⟨y, -, rfl⟩ := List.mem_map.1 hx
  positivity

theorem totalNorm_eq (opt : List P) (g : Grads P) : norm ((opt.filterMap g).map norm) = size opt g := by
  unfold size
  rw [norm]
  congr 1
  unfold entries
  induction opt with
  | nil => rfl
  | cons p opt ih =>
    simp only [List.filterMap_cons, List.flatMap_cons, List.map_append, List.sum_append]
    rw [← ih]
    cases g p with
    | none => simp
    | some l => simp only [Option.getD_some, List.map_cons, List.sum_cons, norm_sq]

theorem size_nonneg (opt : List P) (g : Grads P) : 0 ≤ size opt g := Real.sqrt_nonneg _

theorem entries_congr {opt : List P} {g h : Grads P} (e : ∀ p ∈ opt, g p = h p) : entries opt g = entries opt h := by
  unfold entries
  induction opt with
  | nil => rfl
  | cons p opt ih =>
    simp only [List.flatMap_cons]
    rw [e p (by simp), ih fun q hq => e q (by simp [hq])]

theorem size_congr {opt : List P} {g h : Grads P} (e : ∀ p ∈ opt, g p = h p) : size opt g = size opt h := by
  unfold size
  rw [entries_congr e]

theorem size_scaled {opt : List P} {g g' : Grads P} {k : ℝ} (hk : 0 ≤ k)
    (e : ∀ p ∈ opt, g' p = (g p).map fun l => l.map fun x => k * x) : size opt g' = k * size opt g := by
  have h : entries opt g' = (entries opt g).map fun x => k * x := by
    unfold entries
    induction opt with
    | nil => rfl
    | cons p opt ih =>
      simp only [List.flatMap_cons, List.map_append]
      rw [e p (by simp), ih fun q hq => e q (by simp [hq])]
      cases g p <;> simp
  unfold size
  rw [h, List.map_map]
  have hs : ((entries opt g).map ((· ^ 2) ∘ fun x => k * x)).sum = k ^ 2 * ((entries opt g).map (· ^ 2)).sum := by
    rw [← List.sum_map_mul_left]
    congr 1
    apply List.map_congr_left
    intro x _
    simp only [Function.comp]
    ring
  rw [hs, Real.sqrt_mul (by positivity), Real.sqrt_sq hk]

/-! ### Clipping -/

/-- The factor for a limit of any sign. -/
theorem clipNorm_eq (v : ℝ) (opt : List P) (g : Grads P) : ∀ p ∈ opt, clipNorm v opt g p =
    (g p).map fun l => l.map fun x => min (v / (size opt g + 1 / 10 ^ 6)) 1 * x := by
  intro p hp
  unfold clipNorm
  simp only [totalNorm_eq, if_pos hp]
  congr 1
  funext l
  apply List.map_congr_left
  intro x _
  ring

/-- **C157, clipping by norm** (`clip_grad_norm_`), for every positive limit: the gradients of the optimiser's parameters are scaled
by one factor, those of others are left alone. -/
theorem C157_norm {v : ℝ} (hv : 0 < v) (opt : List P) (g : Grads P) :
    Clipped v opt g (clipNorm v opt g) ∧ ∀ p ∉ opt, clipNorm v opt g p = g p := by
  have hn := size_nonneg opt g
  have hp : 0 < size opt g + 1 / 10 ^ 6 := by positivity
  have hk : 0 < min (v / (size opt g + 1 / 10 ^ 6)) 1 := lt_min (div_pos hv hp) one_pos
  have hs := size_scaled hk.le (clipNorm_eq v opt g)
  refine ⟨⟨?_, ?_, _, hk, min_le_right _ _, ?_, clipNorm_eq v opt g⟩, ?_⟩
  · rw [hs]
    calc min (v / (size opt g + 1 / 10 ^ 6)) 1 * size opt g ≤ v / (size opt g + 1 / 10 ^ 6) * size opt g :=
          mul_le_mul_of_nonneg_right (min_le_left _ _) hn
      _ = v * (size opt g / (size opt g + 1 / 10 ^ 6)) := by ring
      _ ≤ v * 1 := mul_le_mul_of_nonneg_left ((div_le_one hp).2 (by linarith [show (0 : ℝ) < 1 / 10 ^ 6 by norm_num])) hv.le
      _ = v := mul_one v
  · intro hlt
    rw [hs, min_eq_left ((div_le_one hp).2 hlt.le)]
    have e : v / (size opt g + 1 / 10 ^ 6) * size opt g = v - v / (size opt g + 1 / 10 ^ 6) * (1 / 10 ^ 6) := by
      field_simp
      ring
    rw [e]
    have : v / (size opt g + 1 / 10 ^ 6) * (1 / 10 ^ 6) ≤ 1 * (1 / 10 ^ 6) :=
      mul_le_mul_of_nonneg_right ((div_le_one hp).2 hlt.le) (by norm_num)
    linarith
  · rw [min_eq_right_iff, one_le_div hp]
  · intro p hp'
    simp [clipNorm, hp']

/-- **C157, clipping by value** (`clip_grad_value_`). -/
theorem C157_value {v : ℝ} (hv : 0 < v) (opt : List P) (g : Grads P) :
    Limited v opt g (clipValue v opt g) ∧ ∀ p ∉ opt, clipValue v opt g p = g p := by
  refine ⟨?_, fun p hp => by simp [clipValue, hp]⟩
  intro p hp
  unfold clipValue
  rw [if_pos hp]
  refine ⟨fun h => by simp [h], ?_⟩
  intro l hl
  refine ⟨_, by rw [hl]; rfl, ?_⟩
  rw [List.forall₂_map_right_iff, List.forall₂_same]
  intro x _
  rcases le_total x (-v) with h | h
  · rw [max_eq_right h, min_eq_left (by linarith), abs_neg, abs_of_pos hv, abs_of_nonpos (by linarith),
      min_eq_right (by linarith)]
    refine ⟨rfl, ?_⟩
    nlinarith
  · rw [max_eq_left h]
    rcases le_total x v with h' | h'
    · rw [min_eq_left h', min_eq_left (abs_le.2 ⟨h, h'⟩)]
      exact ⟨rfl, mul_self_nonneg x⟩
    · rw [min_eq_right h', abs_of_pos hv, abs_of_nonneg (by linarith), min_eq_right h']
      refine ⟨rfl, ?_⟩
      nlinarith

/-- **C157, the settings.**  The image training raises exactly for a limit together with an algorithm that is neither `norm` nor
`value` in any case of letters; else gradients are treated as the settings say, and those of other parameters are left alone. -/
theorem C157_settings (val : Option ℝ) (algorithm : String) (opt : List P) (g : Grads P) :
    (clip val algorithm opt g = .error .misconfiguration ↔
      val ≠ none ∧ algorithm.toLower ≠ "norm" ∧ algorithm.toLower ≠ "value") ∧
    ∀ g', clip val algorithm opt g = .ok g' → Treated val algorithm opt g g' ∧ ∀ p ∉ opt, g' p = g p := by
  cases val with
  | none =>
    refine ⟨by simp [clip], ?_⟩
    intro g' h
    simp only [clip, Except.ok.injEq] at h
    subst h
    exact ⟨⟨fun _ _ _ => rfl, fun v hv => by simp at hv⟩, fun _ _ => rfl⟩
  | some v =>
    simp only [clip, clipGradients]
    split_ifs with h1 h2 h3
    · refine ⟨by simp [h1.1, h1.2], fun g' h => by simp at h⟩
    · refine ⟨?_, ?_⟩
      · simp only [reduceCtorEq, false_iff]
        rintro ⟨-, a, b⟩
        exact h1 ⟨b, a⟩
      · intro g' h
        cases h
        refine ⟨⟨fun _ _ _ => rfl, ?_⟩, fun _ _ => rfl⟩
        intro w hw hpos
        cases hw
        exact absurd hpos (not_lt.2 h2)
    · refine ⟨by simp [h3], ?_⟩
      intro g' h
      cases h
      refine ⟨⟨fun hall => absurd (hall v rfl) h2, ?_⟩, (C157_value (not_le.1 h2) opt g).2⟩
      intro w hw hpos
      cases hw
      refine ⟨fun hn => ?_, fun _ => (C157_value hpos opt g).1⟩
      rw [h3] at hn
      exact absurd hn (by decide)
    · have hn : algorithm.toLower = "norm" := by
        by_contra hn
        exact h1 ⟨h3, hn⟩
      refine ⟨by simp [hn], ?_⟩
      intro g' h
      cases h
      refine ⟨⟨fun hall => absurd (hall v rfl) h2, ?_⟩, (C157_norm (not_le.1 h2) opt g).2⟩
      intro w hw hpos
      cases hw
      exact ⟨fun _ => (C157_norm hpos opt g).1, fun hv => absurd hv h3⟩

theorem Clipped.congr {v : ℝ} {opt : List P} {g g' h h' : Grads P} (e : ∀ p ∈ opt, g p = h p) (e' : ∀ p ∈ opt, g' p = h' p)
    (c : Clipped v opt g g') : Clipped v opt h h' := by
  obtain ⟨a, b, k, k0, k1, ki, kp⟩ := c
  rw [size_congr e', size_congr e] at b
  rw [size_congr e'] at a
  rw [size_congr e] at ki
  exact ⟨a, b, k, k0, k1, ki, fun p hp => by rw [← e' p hp, ← e p hp]; exact kp p hp⟩

theorem Treated.congr {val : Option ℝ} {algorithm : String} {opt : List P} {g g' h h' : Grads P} (e : ∀ p ∈ opt, g p = h p)
    (e' : ∀ p ∈ opt, g' p = h' p) (c : Treated val algorithm opt g g') : Treated val algorithm opt h h' := by
  refine ⟨fun hv p hp => ?_, fun v hv hpos => ⟨fun hn => ((c.2 v hv hpos).1 hn).congr e e', fun hn p hp => ?_⟩⟩
  · rw [← e' p hp, ← e p hp]
    exact c.1 hv p hp
  · rw [← e' p hp, ← e p hp]
    exact (c.2 v hv hpos).2 hn p hp

/-! ### The training steps -/

theorem fresh {opt frozen : List P} {loss g : Grads P} {p : P} (hp : p ∈ opt) (hf : p ∉ frozen) :
    backward frozen loss (zeroGrad opt g) p = loss p := by
  unfold backward zeroGrad
  rw [if_neg hf]
  simp only [if_pos hp]
  cases loss p <;> rfl

/-- **C157, a step of adversarial training.**  Whatever gradients were left over, the optimiser of the model sees the gradients of the
generator's loss at the weights of the start, treated as the settings say; that of the discriminator those of its own loss, treated in
the same way and on their own; that of the quantiles those of their loss, unclipped.  No optimiser sees gradients of other parameters. -/
theorem C157_gan {val : Option ℝ} {algorithm : String} {o : Opts P W} {genLoss : W → Grads P} {discLoss : W → W → Grads P}
    {quantileLoss : W → Grads P} {w : W} {g : Grads P} (hd : ∀ p ∈ o.model, p ∉ o.disc)
    (hq : ∀ q, o.quantile = some q → ∀ p ∈ q, p ∉ o.model) {seen : Seen P} {w' : W} {g' : Grads P}
    (h : ganStep val algorithm o genLoss discLoss quantileLoss w g = .ok (seen, w', g')) :
    Treated val algorithm o.model (genLoss w) seen.model ∧ (∀ p ∉ o.model, seen.model p = none) ∧
    Treated val algorithm o.disc (discLoss w (o.modelRule seen.model w)) seen.disc ∧ (∀ p ∉ o.disc, seen.disc p = none) ∧
    (o.quantile = none → seen.quantile = none ∧ w' = o.discRule seen.disc (o.modelRule seen.model w)) ∧
    ∀ q, o.quantile = some q → ∃ s, seen.quantile = some s ∧
      (∀ p ∈ q, s p = quantileLoss (o.discRule seen.disc (o.modelRule seen.model w)) p) ∧ (∀ p ∉ q, s p = none) ∧
      w' = o.quantileRule s (o.discRule seen.disc (o.modelRule seen.model w)) := by
  unfold ganStep at h
  simp only [bind, Except.bind, pure, Except.pure] at h
  cases h1 : clip val algorithm o.model (backward o.disc (genLoss w) (zeroGrad o.model g)) with
  | error e => simp [h1] at h
  | ok g1 =>
  simp only [h1] at h
  cases h2 : clip val algorithm o.disc
      (backward o.model (discLoss w (o.modelRule (seenBy o.model g1) w)) (zeroGrad o.disc g1)) with
  | error e => simp [h2] at h
  | ok g2 =>
  simp only [h2] at h
  have t1 : Treated val algorithm o.model (genLoss w) (seenBy o.model g1) :=
    ((C157_settings _ _ _ _).2 g1 h1).1.congr (fun p hp => fresh hp (hd p hp)) fun p hp => by simp [seenBy, hp]
  have t2 : Treated val algorithm o.disc (discLoss w (o.modelRule (seenBy o.model g1) w)) (seenBy o.disc g2) :=
    ((C157_settings _ _ _ _).2 g2 h2).1.congr (fun p hp => fresh hp fun hm => hd p hm hp) fun p hp => by simp [seenBy, hp]
  have n1 : ∀ (l : List P) (x : Grads P), ∀ p ∉ l, seenBy l x p = none := fun l x p hp => by simp [seenBy, hp]
  cases hquant : o.quantile with
  | none =>
    simp only [hquant, Except.ok.injEq, Prod.mk.injEq] at h
    obtain ⟨rfl, rfl, -⟩ := h
    exact ⟨t1, n1 _ _, t2, n1 _ _, fun _ => ⟨rfl, rfl⟩, fun q h => by simp at h⟩
  | some q =>
    simp only [hquant, Except.ok.injEq, Prod.mk.injEq] at h
    obtain ⟨rfl, rfl, -⟩ := h
    refine ⟨t1, n1 _ _, t2, n1 _ _, fun h => by simp at h, ?_⟩
    intro q' hq'
    cases hq'
    refine ⟨_, rfl, ?_, n1 _ _, rfl⟩
    intro p hp
    simp only [seenBy, if_pos hp]
    exact fresh hp (hq q hquant p hp)

/-- **C157, a step of adversarial training raises** exactly if the settings are refused. -/
theorem C157_gan_raises (val : Option ℝ) (algorithm : String) (o : Opts P W) (genLoss : W → Grads P) (discLoss : W → W → Grads P)
    (quantileLoss : W → Grads P) (w : W) (g : Grads P) :
    (∃ r, ganStep val algorithm o genLoss discLoss quantileLoss w g = .ok r) ↔
      (val = none ∨ algorithm.toLower = "norm" ∨ algorithm.toLower = "value") := by
  have key : ∀ (opt : List P) (g : Grads P), (∃ g', clip val algorithm opt g = .ok g') ↔
      (val = none ∨ algorithm.toLower = "norm" ∨ algorithm.toLower = "value") := by
    intro opt g
    have h := (C157_settings val algorithm opt g).1
    cases hc : clip val algorithm opt g with
    | ok g' =>
      rw [hc] at h
      simp only [reduceCtorEq, false_iff] at h
      simp only [Except.ok.injEq, exists_eq', true_iff]
      tauto
    | error e =>
      cases e
      rw [hc] at h
      simp only [true_iff] at h
      simp only [reduceCtorEq, exists_false, false_iff]
      tauto
  rw [← key o.model (backward o.disc (genLoss w) (zeroGrad o.model g))]
  unfold ganStep
  simp only [bind, Except.bind, pure, Except.pure]
  cases h1 : clip val algorithm o.model (backward o.disc (genLoss w) (zeroGrad o.model g)) with
  | error e => simp
  | ok g1 =>
    obtain ⟨g2, h2⟩ := (key o.disc (backward o.model (discLoss w (o.modelRule (seenBy o.model g1) w)) (zeroGrad o.disc g1))).2
      ((key _ _).1 ⟨g1, h1⟩)
    simp only [h2]
    cases o.quantile <;> simp

/-- **C157, a step of the training without a discriminator.** -/
theorem C157_target {val : Option ℝ} {algorithm : String} {model quantile : List P} {modelRule quantileRule : Grads P → W → W}
    {loss quantileLoss : W → Grads P} {w : W} {g : Grads P} {sm sq : Grads P} {w' : W} {g' : Grads P}
    (h : targetStep val algorithm model quantile modelRule quantileRule loss quantileLoss w g = .ok ((sm, sq), w', g')) :
    Treated val algorithm model (loss w) sm ∧ (∀ p ∉ model, sm p = none) ∧
    (∀ p ∈ quantile, sq p = quantileLoss (modelRule sm w) p) ∧ (∀ p ∉ quantile, sq p = none) ∧
    w' = quantileRule sq (modelRule sm w) := by
  unfold targetStep at h
  simp only [bind, Except.bind, pure, Except.pure] at h
  cases h1 : clip val algorithm model (backward [] (loss w) (zeroGrad model g)) with
  | error e => simp [h1] at h
  | ok g1 =>
  simp only [h1, Except.ok.injEq, Prod.mk.injEq] at h
  obtain ⟨⟨rfl, rfl⟩, rfl, -⟩ := h
  refine ⟨((C157_settings _ _ _ _).2 g1 h1).1.congr (fun p hp => fresh hp (by simp)) fun p hp => by simp [seenBy, hp],
    fun p hp => by simp [seenBy, hp], ?_, fun p hp => by simp [seenBy, hp], rfl⟩
  intro p hp
  simp only [seenBy, if_pos hp]
  exact fresh hp (by simp)

/-- **C157, the video training.**  For every P-frame the optimiser sees the gradients of the loss of that frame only, at the weights that
the previous frame left, clipped by norm to the limit. -/
theorem C157_frames {v : ℝ} (hv : 0 < v) (opt : List P) (rule : Grads P → W → W) :
    ∀ (frames : List (W → Grads P)) (w : W) (g : Grads P),
      (dvcFrames v opt rule frames w g).length = frames.length ∧
      ∀ i (h : i < frames.length), ∃ wi seen, (dvcFrames v opt rule frames w g)[i]? = some (wi, seen) ∧
        Clipped v opt (frames[i] wi) seen ∧ (∀ p ∉ opt, seen p = none) ∧
        (i = 0 → wi = w) ∧ ∀ wj s, (dvcFrames v opt rule frames w g)[i + 1]? = some (wj, s) → wj = rule seen wi
  | [], w, g => ⟨rfl, fun i h => by simp at h⟩
  | f :: rest, w, g => by
    have ih := C157_frames hv opt rule rest (rule (seenBy opt (clipNorm v opt (backward [] (f w) (zeroGrad opt g)))) w)
      (clipNorm v opt (backward [] (f w) (zeroGrad opt g)))
    refine ⟨by simp [dvcFrames, ih.1], ?_⟩
    rintro (_ | i) h
    · refine ⟨w, _, rfl, ?_, fun p hp => by simp [seenBy, hp], fun _ => rfl, ?_⟩
      · exact (C157_norm hv opt (backward [] (f w) (zeroGrad opt g))).1.congr (fun p hp => fresh hp List.not_mem_nil)
          fun p hp => by simp [seenBy, hp]
      · intro wj s hs
        cases rest with
        | nil => simp [dvcFrames] at hs
        | cons f' rest' =>
          simp only [dvcFrames, List.getElem?_cons_succ, List.getElem?_cons_zero, Option.some.injEq, Prod.mk.injEq] at hs
          exact hs.1.symm
    · obtain ⟨wi, seen, h1, h2, h3, -, h5⟩ := ih.2 i (by simpa using h)
      exact ⟨wi, seen, by simpa [dvcFrames] using h1, h2, h3, fun h0 => absurd h0 (Nat.succ_ne_zero i), fun wj s hs => h5 wj s (by simpa [dvcFrames] using hs)⟩

/-- **C157, limits that are not positive.**  The image training does not clip then.  The video training multiplies all gradients by zero for
a limit of zero, and by a negative number for a negative one: it climbs the loss. -/
theorem C157_not_positive (opt : List P) (g : Grads P) {v : ℝ} (hv : v ≤ 0) :
    ∃ k : ℝ, (∀ p ∈ opt, clipNorm v opt g p = (g p).map fun l => l.map fun x => k * x) ∧ (v = 0 → k = 0) ∧ (v < 0 → k < 0) := by
  have hp : 0 < size opt g + 1 / 10 ^ 6 := by
    have := size_nonneg opt g
    positivity
  have hle : v / (size opt g + 1 / 10 ^ 6) ≤ 0 := div_nonpos_of_nonpos_of_nonneg hv hp.le
  refine ⟨_, clipNorm_eq v opt g, ?_, ?_⟩
  · rintro rfl
    simp
  · intro h
    rw [min_eq_left (by linarith)]
    exact div_neg_of_neg_of_pos h hp

/-! ### Not vacuous -/

/-- Two parameters with gradients `[3]` and `[4]` together have length 5; with a limit of 1 both are scaled, the gradient of the third,
which the optimiser does not have, is not. -/
example : ∃ k : ℝ, 0 < k ∧ k < 1 ∧ clipNorm 1 [0, 1] (fun p : ℕ => some [(p : ℝ) + 3]) 0 = some [k * 3] ∧
    clipNorm 1 [0, 1] (fun p : ℕ => some [(p : ℝ) + 3]) 1 = some [k * 4] ∧
    clipNorm 1 [0, 1] (fun p : ℕ => some [(p : ℝ) + 3]) 2 = some [5] := by
  obtain ⟨⟨-, -, k, k0, k1, ki, kp⟩, ko⟩ := C157_norm one_pos [0, 1] (fun p : ℕ => some [(p : ℝ) + 3])
  have hs : size [0, 1] (fun p : ℕ => some [(p : ℝ) + 3]) = 5 := by
    have : ((entries [0, 1] fun p : ℕ => some [(p : ℝ) + 3]).map (· ^ 2)).sum = 5 ^ 2 := by
      simp [entries]
      norm_num
    rw [size, this, Real.sqrt_sq (by norm_num)]
  refine ⟨k, k0, lt_of_le_of_ne k1 fun h => ?_, ?_, ?_, ?_⟩
  · have := ki.1 h
    rw [hs] at this
    norm_num at this
  · rw [kp 0 (by simp)]
    simp
  · rw [kp 1 (by simp)]
    norm_num
  · rw [ko 2 (by simp)]
    norm_num

/-- The hypotheses of the step are met by three disjoint optimisers, and the default settings are accepted. -/
example : ∃ r, ganStep (some 1) "norm" (⟨[0], [1], some [2], fun _ w => w, fun _ w => w, fun _ w => w⟩ : Opts ℕ Unit)
    (fun _ _ => some [3]) (fun _ _ _ => some [4]) (fun _ _ => some [5]) () (fun _ => none) = .ok r :=
  (C157_gan_raises _ _ _ _ _ _ _ _).2 (Or.inr (Or.inl (by decide +kernel)))

end Verif.Train.Clip

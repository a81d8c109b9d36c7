import Verif.Train.TestSets
import Mathlib.Tactic.Linarith
import Mathlib.Tactic.Ring
import Mathlib.Tactic.FieldSimp
import Mathlib.Tactic.NormNum

/-!
C98: the metrics that a test or validation of the image project reports are those of its own data, whatever ran before.
-/

namespace Verif.Train.TestSets

variable {F : Type}

/-! ### Specification -/

/-- All images of a data set. -/
def allImages (bs : List (Batch F)) : List (Image F) := bs.flatMap Batch.images

/-- The number of values of all images. -/
def allValues (bs : List (Batch F)) : ℕ := (bs.map fun b => b.images.length * b.numel).sum

/-- The mean of a measure over the images. -/
noncomputable def perImage (bs : List (Batch F)) (f : Image F → ℝ) : ℝ :=
  ((allImages bs).map f).sum / (allImages bs).length

/-- The mean of a measure of batches, each weighted by its number of images. -/
noncomputable def perBatch (bs : List (Batch F)) (f : Batch F → ℝ) : ℝ :=
  (bs.map fun b => b.images.length * f b).sum / (allImages bs).length

/-- The mean squared error over all values. -/
noncomputable def mseOf (bs : List (Batch F)) : ℝ := ((allImages bs).map Image.sse).sum / allValues bs

/-- The features that enter a distance: of patches if `patch`, else of whole images. -/
def featuresOf (patch : Bool) (bs : List (Batch F)) (d : Dist) (real : Bool) : List F :=
  if patch then (allImages bs).flatMap fun i => i.patches d real else (allImages bs).map fun i => i.whole d real

/-- The metrics of a data set. -/
noncomputable def specReport (distance : Dist → List F → List F → ℝ) (name : String) (bs : List (Batch F)) : Report where
  psnr := perBatch bs Batch.psnr
  mse := mseOf bs
  msssim := perImage bs Image.msssim
  lpips := perImage bs Image.lpips
  dists := perImage bs Image.dists
  hific := perBatch bs fun b => 0.00234375 * ((b.images.map Image.sse).sum / (b.images.length * b.numel : ℕ))
    + (b.images.map Image.lpips).sum / b.images.length
  bpp := perBatch bs Batch.bpp
  dist := fun d => if name = "kodak" then 0
    else distance d (featuresOf (clicEval name) bs d true) (featuresOf (clicEval name) bs d false)

/-! ### Accumulation -/

theorem hific_eq (a b : ℝ) : hific a b = 0.00234375 * a + b := by unfold hific; norm_num

theorem testSteps_eq (name : String) (bs : List (Batch F)) : ∀ (s : State F) (t : TestMetrics F) (l : Logged),
    s.name = some name → s.test = some t →
    ∃ (s' : State F) (t' : TestMetrics F) (l' : Logged), testSteps s l bs = .ok (s', l') ∧ s'.name = some name ∧ s'.test = some t' ∧
      t'.mse = ⟨t.mse.sum + ((allImages bs).map Image.sse).sum, t.mse.count + allValues bs⟩ ∧
      t'.msssim = ⟨t.msssim.sum + ((allImages bs).map Image.msssim).sum, t.msssim.count + (allImages bs).length⟩ ∧
      t'.lpips = ⟨t.lpips.sum + ((allImages bs).map Image.lpips).sum, t.lpips.count + (allImages bs).length⟩ ∧
      t'.dists = ⟨t.dists.sum + ((allImages bs).map Image.dists).sum, t.dists.count + (allImages bs).length⟩ ∧
      (∀ d r, t'.feats d r = t.feats d r ++ featuresOf (clicEval name) bs d r) ∧
      l'.psnr = ⟨l.psnr.sum + (bs.map fun b => (b.images.length : ℝ) * b.psnr).sum, l.psnr.count + (allImages bs).length⟩ ∧
      l'.hific = ⟨l.hific.sum + (bs.map fun b => b.images.length * hific b.mse b.lpips).sum,
        l.hific.count + (allImages bs).length⟩ ∧
      l'.bpp = ⟨l.bpp.sum + (bs.map fun b => (b.images.length : ℝ) * b.bpp).sum, l.bpp.count + (allImages bs).length⟩ := by
  induction bs with
  | nil =>
    intro s t l h1 h2
    refine ⟨s, t, l, rfl, h1, h2, ?_⟩
    simp [allImages, allValues, featuresOf]
  | cons b bs ih =>
    intro s t l h1 h2
    obtain ⟨s', t', l', e, hn, ht, a1, a2, a3, a4, a5, a6, a7, a8⟩ :=
      ih { s with test := some (testUpdate name b t) } (testUpdate name b t) (l.add b) h1 rfl
    refine ⟨s', t', l', ?_, hn, ht, ?_⟩
    · have : testStep s l b = .ok ({ s with test := some (testUpdate name b t) }, l.add b) := by
        unfold testStep; rw [h1, h2]
      unfold testSteps
      rw [this]
      exact e
    · have hc : allImages (b :: bs) = b.images ++ allImages bs := by simp [allImages]
      have hv : allValues (b :: bs) = b.images.length * b.numel + allValues bs := by simp [allValues]
      rw [a1, a2, a3, a4, a6, a7, a8, hc, hv]
      refine ⟨?_, ?_, ?_, ?_, ?_, ?_, ?_, ?_⟩
      · simp [testUpdate, Acc.add, Batch.total, add_assoc]
      · simp [testUpdate, Acc.add, Batch.total, add_assoc]
      · simp [testUpdate, Acc.add, Batch.total, add_assoc]
      · simp [testUpdate, Acc.add, Batch.total, add_assoc]
      · intro d r
        rw [a5]
        unfold testUpdate featuresOf Batch.features
        rw [hc]
        by_cases hh : clicEval name = true
        · simp [hh]
        · simp [hh]
      · simp [Logged.add, Acc.add, add_assoc]
      · simp [Logged.add, Acc.add, add_assoc]
      · simp [Logged.add, Acc.add, add_assoc]

theorem trainerTest_eq (distance : Dist → List F → List F → ℝ) (s : State F) (name : String) (bs : List (Batch F))
    (h : bs ≠ []) : ∃ s', trainerTest distance (updateName s name) bs = .ok (some (specReport distance name bs), s') := by
  obtain ⟨s', t', l', e, hn, ht, a1, a2, a3, a4, a5, a6, a7, a8⟩ :=
    testSteps_eq name bs (resetAll (updateName s name)) {} {} rfl rfl
  unfold trainerTest
  have he : bs.isEmpty = false := by cases bs <;> simp_all
  rw [he]
  simp only [Bool.false_eq_true, if_false]
  rw [e]
  unfold testEnd
  dsimp only
  rw [ht]
  dsimp only
  have hr : specReport distance name bs =
      { psnr := l'.psnr.mean, mse := t'.mse.mean, msssim := t'.msssim.mean, lpips := t'.lpips.mean, dists := t'.dists.mean
        hific := l'.hific.mean, bpp := l'.bpp.mean
        dist := fun d => if s'.name = some "kodak" then 0 else distance d (t'.feats d true) (t'.feats d false) } := by
    unfold specReport perBatch mseOf perImage Acc.mean
    congr 1
    · rw [a6]; simp
    · rw [a1]; simp
    · rw [a2]; simp
    · rw [a3]; simp
    · rw [a4]; simp
    · rw [a7]; simp only [hific_eq]; simp [Batch.mse, Batch.lpips, Batch.total]
    · rw [a8]; simp
    · funext d
      rw [hn]
      simp [a5]
  rw [hr]
  exact ⟨_, rfl⟩

/-! ### Tests -/

/-- **C98, isolation.** After any history of names, tests (completed or interrupted) and validations, a test reports
exactly the metrics of its own data. -/
theorem C98_isolated (distance : Dist → List F → List F → ℝ) (fid : List F → List F → Except Err ℝ) (history : List (Event F))
    (name : String) (bs : List (Batch F)) (h : bs ≠ []) :
    (trainerTest distance (updateName (history.foldl (Event.apply distance fid) {}) name) bs).map Prod.fst =
      .ok (some (specReport distance name bs)) := by
  obtain ⟨s', e⟩ := trainerTest_eq distance (history.foldl (Event.apply distance fid) {}) name bs h
  rw [e]; rfl

/-- **C98, the loop over the test sets.** If all sets can be built and none is empty, the reports are those of each set
tested by itself, in order. -/
theorem C98_main_partial (distance : Dist → List F → List F → ℝ) (data : Entry → List (Batch F)) (s : State F) (es : List Entry)
    (hb : ∀ e ∈ es, instantiate e = .ok ()) (hd : ∀ e ∈ es, data e ≠ []) :
    mainTest distance data s es = (es.map fun e => (e.name, some (specReport distance e.name (data e))), none) := by
  have hball : buildAll es = .ok () := by
    clear hd
    induction es with
    | nil => rfl
    | cons e es ih =>
      have e1 : buildAll (e :: es) = match instantiate e with | .error x => .error x | .ok () => buildAll es := rfl
      rw [e1, hb e List.mem_cons_self]
      exact ih fun x hx => hb x (List.mem_cons_of_mem _ hx)
  unfold mainTest
  rw [hball]
  clear hball hb
  dsimp only
  induction es generalizing s with
  | nil => rfl
  | cons e es ih =>
    obtain ⟨s', h⟩ := trainerTest_eq distance s e.name (data e) (hd e List.mem_cons_self)
    unfold runTests
    rw [h]
    dsimp only
    rw [ih s' fun x hx => hd x (List.mem_cons_of_mem _ hx)]
    rfl

/-- **C98, empty sets.** A data set without images (such as a directory that does not exist, for CLIC and DIV2K) is passed
over: nothing is reported and nothing is raised. -/
theorem C98_violated_empty (distance : Dist → List F → List F → ℝ) (data : Entry → List (Batch F)) (s : State F) (e : Entry)
    (hb : instantiate e = .ok ()) (hd : data e = []) : mainTest distance data s [e] = ([(e.name, none)], none) := by
  unfold mainTest buildAll
  rw [hb]
  unfold runTests trainerTest
  rw [hd]
  rfl

/-- **C98, violated by the shipped configuration.** Whatever the roots of the data sets: nothing is tested, because two of
the three sets cannot be built (`test_fid` is not a split of CLIC, and the class is called `DIV2KDataset`). -/
theorem C98_violated_shipped (distance : Dist → List F → List F → ℝ) (data : Entry → List (Batch F)) (s : State F) :
    mainTest distance data s shipped = ([], some .instantiation) ∧
      (shipped.filter fun e => instantiate e = .ok ()).map Entry.name = ["kodak"] := by
  refine ⟨?_, by decide +kernel⟩
  have : buildAll shipped = .error .instantiation := by decide +kernel
  unfold mainTest
  rw [this]

/-- **C98, one set that cannot be built** keeps all others from being tested. -/
theorem C98_build (distance : Dist → List F → List F → ℝ) (data : Entry → List (Batch F)) (s : State F) (es : List Entry)
    (h : ∃ e ∈ es, instantiate e ≠ .ok ()) : ∃ x, mainTest distance data s es = ([], some x) := by
  have : ∃ x, buildAll es = .error x := by
    induction es with
    | nil => obtain ⟨e, he, _⟩ := h; cases he
    | cons e es ih =>
      have e1 : buildAll (e :: es) = match instantiate e with | .error x => .error x | .ok () => buildAll es := rfl
      rw [e1]
      cases hi : instantiate e with
      | error x => exact ⟨x, rfl⟩
      | ok u =>
        obtain ⟨e', he', hne⟩ := h
        rcases List.mem_cons.1 he' with rfl | hm
        · exact absurd hi hne
        · exact ih ⟨e', hm, hne⟩
  obtain ⟨x, hx⟩ := this
  exact ⟨x, by unfold mainTest; rw [hx]⟩

/-- **C98, without a name** a test of a fresh module raises `ValueError`. -/
theorem C98_unnamed (distance : Dist → List F → List F → ℝ) (bs : List (Batch F)) (h : bs ≠ []) :
    trainerTest distance {} bs = .error .value := by
  cases bs with
  | nil => exact absurd rfl h
  | cons b bs => rfl

/-- **C98, the distances of Kodak** are reported as 0 whatever the images are. -/
theorem C98_violated_kodak (distance : Dist → List F → List F → ℝ) (s : State F) (bs : List (Batch F)) (h : bs ≠ []) :
    ∃ r s', trainerTest distance (updateName s "kodak") bs = .ok (some r, s') ∧ ∀ d, r.dist d = 0 := by
  obtain ⟨s', e⟩ := trainerTest_eq distance s "kodak" bs h
  exact ⟨_, s', e, fun d => by simp [specReport]⟩

/-- **C98, distances of other sets** are those of the features, of patches exactly if the name contains `clic` or `div2k`. -/
theorem C98_distances (distance : Dist → List F → List F → ℝ) (s : State F) (name : String) (bs : List (Batch F))
    (h : bs ≠ []) (hk : name ≠ "kodak") : ∃ r s', trainerTest distance (updateName s name) bs = .ok (some r, s') ∧
      ((("clic".toList <:+: name.toList) ∨ ("div2k".toList <:+: name.toList)) → ∀ d, r.dist d =
        distance d ((allImages bs).flatMap fun i => i.patches d true) ((allImages bs).flatMap fun i => i.patches d false)) ∧
      ((¬ ("clic".toList <:+: name.toList) ∧ ¬ ("div2k".toList <:+: name.toList)) → ∀ d, r.dist d =
        distance d ((allImages bs).map fun i => i.whole d true) ((allImages bs).map fun i => i.whole d false)) := by
  obtain ⟨s', e⟩ := trainerTest_eq distance s name bs h
  have key : ∀ n : String, contains n name = true ↔ n.toList <:+: name.toList := by
    intro n
    unfold contains
    rw [List.any_eq_true]
    constructor
    · rintro ⟨l, hl, hp⟩
      rw [List.mem_tails] at hl
      rw [List.isPrefixOf_iff_prefix] at hp
      exact hp.isInfix.trans hl.isInfix
    · intro hi
      obtain ⟨l, h1, h2⟩ := List.infix_iff_prefix_suffix.1 hi
      exact ⟨l, (List.mem_tails _ _).2 h2, List.isPrefixOf_iff_prefix.2 h1⟩
  refine ⟨_, s', e, ?_, ?_⟩
  · intro hc d
    have : clicEval name = true := by
      unfold clicEval
      rw [Bool.or_eq_true, key, key]
      exact hc
    unfold specReport featuresOf
    simp [hk, this]
  · intro hc d
    have : clicEval name = false := by
      unfold clicEval
      rw [Bool.or_eq_false_iff, ← Bool.not_eq_true, ← Bool.not_eq_true, key, key]
      exact hc
    unfold specReport featuresOf
    simp [hk, this]

/-! ### The distortion of HiFiC -/

/-- **C98, HiFiC distortion.** If all images have the same number of values, the reported distortion is that of the
reported mean squared error and LPIPS. -/
theorem C98_hific_partial (distance : Dist → List F → List F → ℝ) (name : String) (bs : List (Batch F)) (n : ℕ)
    (hn : 0 < n) (h : ∀ b ∈ bs, b.numel = n ∧ b.images ≠ []) (hne : bs ≠ []) :
    (specReport distance name bs).hific =
      0.00234375 * (specReport distance name bs).mse + (specReport distance name bs).lpips := by
  have e1 : allValues bs = (allImages bs).length * n := by
    clear hne
    induction bs with
    | nil => simp [allValues, allImages]
    | cons b bs ih =>
      have := ih fun x hx => h x (List.mem_cons_of_mem _ hx)
      unfold allValues allImages at *
      rw [List.map_cons, List.sum_cons, this, (h b List.mem_cons_self).1]
      simp [Nat.add_mul]
  have e2 : (bs.map fun b => (b.images.length : ℝ) * (0.00234375 * ((b.images.map Image.sse).sum / (b.images.length * b.numel : ℕ))
      + (b.images.map Image.lpips).sum / b.images.length)).sum =
      0.00234375 * (((allImages bs).map Image.sse).sum / n) + ((allImages bs).map Image.lpips).sum := by
    clear hne e1
    induction bs with
    | nil => simp [allImages]
    | cons b bs ih =>
      have := ih fun x hx => h x (List.mem_cons_of_mem _ hx)
      have hc : allImages (b :: bs) = b.images ++ allImages bs := by simp [allImages]
      rw [List.map_cons, List.sum_cons, this, hc, List.map_append, List.sum_append, List.map_append, List.sum_append]
      have hb := h b List.mem_cons_self
      have hl : (b.images.length : ℝ) ≠ 0 := by
        simpa using hb.2
      have hn' : (n : ℝ) ≠ 0 := by exact_mod_cast hn.ne'
      rw [hb.1]
      push_cast
      field_simp
      ring
  have hlen : ((allImages bs).length : ℝ) ≠ 0 := by
    cases bs with
    | nil => exact absurd rfl hne
    | cons b bs =>
      have := (h b List.mem_cons_self).2
      have hp : 0 < b.images.length := List.length_pos_of_ne_nil this
      have : 0 < (allImages (b :: bs)).length := by
        simp only [allImages, List.flatMap_cons, List.length_append]; omega
      exact_mod_cast this.ne'
  unfold specReport perBatch mseOf perImage
  dsimp only
  rw [e2, e1]
  have hn' : (n : ℝ) ≠ 0 := by exact_mod_cast hn.ne'
  push_cast
  field_simp

/-- An image with an error. -/
def img (sse : ℝ) : Image Unit := ⟨sse, 0, 0, 1, fun _ _ => (), fun _ _ => []⟩

/-- A set of two images, of 1 and of 3 values, with squared errors 4 and 0. -/
noncomputable def mixed : List (Batch Unit) := [⟨1, [img 4], 0, 0⟩, ⟨3, [img 0], 0, 0⟩]

/-- **C98, images of different sizes** (as in CLIC): the reported distortion is not that of the reported mean squared error
and LPIPS, because the error is weighted by size and the distortion is not. -/
theorem C98_violated_hific (distance : Dist → List Unit → List Unit → ℝ) (s : State Unit) (name : String) :
    ∃ r s', trainerTest distance (updateName s name) mixed = .ok (some r, s') ∧ r.mse = 1 ∧ r.lpips = 0 ∧
      r.hific = 0.00234375 * 2 + 0 ∧ r.hific ≠ 0.00234375 * r.mse + r.lpips := by
  obtain ⟨s', e⟩ := trainerTest_eq distance s name mixed (by simp [mixed])
  refine ⟨_, s', e, ?_, ?_, ?_, ?_⟩ <;>
    simp [specReport, mseOf, perImage, perBatch, allImages, allValues, mixed, img] <;> norm_num

/-! ### Validation -/

/-- What the FID of a validation set enters: features of whole images. -/
noncomputable def specVal (bs : List (Batch F)) (v : Option ℝ) : ValReport where
  psnr := mseOf bs
  mse := mseOf bs
  msssim := perImage bs Image.msssim
  lpips := perImage bs Image.lpips
  hific := perBatch bs fun b => 0.00234375 * ((b.images.map Image.sse).sum / (b.images.length * b.numel : ℕ))
    + (b.images.map Image.lpips).sum / b.images.length
  fid := v

theorem evalFold (bs : List (Batch F)) : ∀ e : EvalMetrics F,
    (bs.foldl (fun e b => evalUpdate b e) e).psnr = ⟨e.psnr.sum + ((allImages bs).map Image.sse).sum, e.psnr.count + allValues bs⟩ ∧
    (bs.foldl (fun e b => evalUpdate b e) e).mse = ⟨e.mse.sum + ((allImages bs).map Image.sse).sum, e.mse.count + allValues bs⟩ ∧
    (bs.foldl (fun e b => evalUpdate b e) e).msssim =
      ⟨e.msssim.sum + ((allImages bs).map Image.msssim).sum, e.msssim.count + (allImages bs).length⟩ ∧
    (bs.foldl (fun e b => evalUpdate b e) e).lpips =
      ⟨e.lpips.sum + ((allImages bs).map Image.lpips).sum, e.lpips.count + (allImages bs).length⟩ ∧
    ∀ r, (bs.foldl (fun e b => evalUpdate b e) e).fid r = e.fid r ++ (allImages bs).map fun i => i.whole .fid r := by
  induction bs with
  | nil => intro e; simp [allImages, allValues]
  | cons b bs ih =>
    intro e
    have hc : allImages (b :: bs) = b.images ++ allImages bs := by simp [allImages]
    have hv : allValues (b :: bs) = b.images.length * b.numel + allValues bs := by simp [allValues]
    obtain ⟨a1, a2, a3, a4, a5⟩ := ih (evalUpdate b e)
    rw [List.foldl_cons, a1, a2, a3, a4, hc, hv]
    refine ⟨?_, ?_, ?_, ?_, ?_⟩
    · simp [evalUpdate, Acc.add, Batch.total, add_assoc]
    · simp [evalUpdate, Acc.add, Batch.total, add_assoc]
    · simp [evalUpdate, Acc.add, Batch.total, add_assoc]
    · simp [evalUpdate, Acc.add, Batch.total, add_assoc]
    · intro r
      rw [a5]
      simp [evalUpdate]

theorem hificFold (bs : List (Batch F)) : ∀ a : Acc,
    bs.foldl (fun (a : Acc) b => a.add (b.images.length * hific b.mse b.lpips) b.images.length) a =
      ⟨a.sum + (bs.map fun b => b.images.length * hific b.mse b.lpips).sum, a.count + (allImages bs).length⟩ := by
  induction bs with
  | nil => intro a; simp [allImages]
  | cons b bs ih =>
    intro a
    have hc : allImages (b :: bs) = b.images ++ allImages bs := by simp [allImages]
    rw [List.foldl_cons, ih, hc]
    simp [Acc.add, add_assoc]

/-- **C98, validation.** After any history a validation reports the metrics of its own data; if the FID cannot be computed
for an `IndexError` or `ValueError`, all others are still reported; any other exception is raised. -/
theorem C98_validation (distance : Dist → List F → List F → ℝ) (fid : List F → List F → Except Err ℝ) (history : List (Event F))
    (bs : List (Batch F)) :
    (validate fid (history.foldl (Event.apply distance fid) {}) bs).1 =
      match fid ((allImages bs).map fun i => i.whole .fid true) ((allImages bs).map fun i => i.whole .fid false) with
      | .ok v => .ok (specVal bs (some v))
      | .error .index => .ok (specVal bs none)
      | .error .value => .ok (specVal bs none)
      | .error e => .error e := by
  generalize history.foldl (Event.apply distance fid) {} = s
  unfold validate
  obtain ⟨a1, a2, a3, a4, a5⟩ := evalFold bs (resetAll s).eval
  dsimp only
  rw [a5, a5, a1, a2, a3, a4, hificFold]
  have hr : (resetAll s).eval = {} := rfl
  rw [hr]
  simp only [List.nil_append]
  have hv : ∀ v, ({ psnr := (⟨(0 : ℝ) + ((allImages bs).map Image.sse).sum, 0 + allValues bs⟩ : Acc).mean
                    mse := (⟨(0 : ℝ) + ((allImages bs).map Image.sse).sum, 0 + allValues bs⟩ : Acc).mean
                    msssim := (⟨(0 : ℝ) + ((allImages bs).map Image.msssim).sum, 0 + (allImages bs).length⟩ : Acc).mean
                    lpips := (⟨(0 : ℝ) + ((allImages bs).map Image.lpips).sum, 0 + (allImages bs).length⟩ : Acc).mean
                    hific := (⟨(0 : ℝ) + (bs.map fun b => b.images.length * hific b.mse b.lpips).sum,
                      0 + (allImages bs).length⟩ : Acc).mean
                    fid := v } : ValReport) = specVal bs v := by
    intro v
    unfold specVal mseOf perImage perBatch Acc.mean
    simp only [hific_eq, Batch.mse, Batch.lpips, Batch.total, zero_add]
  cases fid ((allImages bs).map fun i => i.whole .fid true) ((allImages bs).map fun i => i.whole .fid false) with
  | ok v => exact congrArg Except.ok (hv _)
  | error e => cases e <;> first | exact congrArg Except.ok (hv _) | rfl

/-! ### Keys -/

theorem metric_suffix : ∀ a ∈ metricNames, ∀ b ∈ metricNames, ('_' :: a.toList) <:+ ('_' :: b.toList) → a = b := by
  decide +kernel

/-- **C98, keys.** Values of different data sets or metrics are logged under different keys. -/
theorem C98_keys (name name' m m' : String) (h : m ∈ metricNames) (h' : m' ∈ metricNames) (e : key name m = key name' m') :
    name = name' ∧ m = m' := by
  unfold key at e
  rw [List.append_assoc, List.append_assoc] at e
  have e := List.append_cancel_left e
  have s1 : ('_' :: m.toList) <:+ (name.toList ++ '_' :: m.toList) := List.suffix_append _ _
  have s2 : ('_' :: m'.toList) <:+ (name.toList ++ '_' :: m.toList) := e ▸ List.suffix_append _ _
  have : m = m' := by
    rcases List.suffix_or_suffix_of_suffix s1 s2 with hs | hs
    · exact metric_suffix m h m' h' hs
    · exact (metric_suffix m' h' m h hs).symm
  subst this
  refine ⟨?_, rfl⟩
  have := List.append_cancel_right e
  exact String.ext this

/-! ### Instances -/

/-- Two sets one after the other, with an interrupted test before. -/
example (distance : Dist → List Unit → List Unit → ℝ) (fid : List Unit → List Unit → Except Err ℝ) :
    (trainerTest distance (updateName ([Event.name "kodak", .test mixed, .abort mixed].foldl (Event.apply distance fid) {})
      "clic2020_test") mixed).map Prod.fst = .ok (some (specReport distance "clic2020_test" mixed)) :=
  C98_isolated distance fid _ _ _ (by simp [mixed])

/-- A configuration that works. -/
example : ∀ e ∈ [(⟨"kodak", "Kodak", none⟩ : Entry), ⟨"clic2020_test", "CLIC2020Image", some "test"⟩,
    ⟨"div2k_val", "DIV2KDataset", some "val"⟩], instantiate e = .ok () := by decide +kernel

example : ∀ b ∈ ([⟨3, [img 4], 0, 0⟩, ⟨3, [img 1, img 0], 0, 0⟩] : List (Batch Unit)), b.numel = 3 ∧ b.images ≠ [] := by
  simp

example : ("clic".toList <:+: "clic2020_test".toList) ∧ clicEval "clic2020_test" = true ∧ clicEval "div2k_val" = true ∧
    clicEval "kodak" = false := by decide +kernel

end Verif.Train.TestSets

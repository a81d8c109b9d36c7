import Verif.Train.Accum
import Verif.Functional.PropsMsSsim

/-!
C59: metrics accumulate a mean over the images.
-/

namespace Verif.Train.Accum

open Verif.Functional.MsSsim

/-- One image of a batch, as a batch of one. -/
def _root_.Verif.Functional.MsSsim.Batch.image (x : Verif.Functional.MsSsim.Batch) (b : ℕ) :
    Verif.Functional.MsSsim.Batch := { x with batch := 1, pix := fun _ => x.pix b }

/-- The images of an update. -/
def pairs (preds target : Verif.Functional.MsSsim.Batch) :
    List (Verif.Functional.MsSsim.Batch × Verif.Functional.MsSsim.Batch) :=
  (List.range preds.batch).map fun b => (preds.image b, target.image b)

/-- Specification: the score of one pair of images, evaluated alone. -/
def HasScore (cfg : Config) (x : Verif.Functional.MsSsim.Batch × Verif.Functional.MsSsim.Batch) (r : ℝ) : Prop :=
  msSsim cfg.params cfg.factors "none" x.1 x.2 = .ok (.perImage [r])

theorem padAndDownsample_image (x : Verif.Functional.MsSsim.Batch) (b : ℕ) :
    padAndDownsample (x.image b) = (padAndDownsample x).image b := rfl

/-- The scales of a batch, image by image. -/
theorem scaleOutputs_image (p : Params) (factors : List ℝ) : ∀ (scale : ℕ) (x y : Verif.Functional.MsSsim.Batch) (b : ℕ),
    scaleOutputs p factors scale (x.image b) (y.image b) =
      (scaleOutputs p factors scale x y).map fun outs => outs.map fun o c _ => o c b := by
  induction factors with
  | nil => intro scale x y b; rfl
  | cons f fs ih =>
    intro scale x y b
    unfold scaleOutputs
    have e : ∀ z : Verif.Functional.MsSsim.Batch,
        (if scale ≠ 0 then padAndDownsample (z.image b) else z.image b) =
          (if scale ≠ 0 then padAndDownsample z else z).image b := by
      intro z
      split_ifs <;> rfl
    dsimp only
    rw [e x, e y]
    set x' := (if scale ≠ 0 then padAndDownsample x else x)
    set y' := (if scale ≠ 0 then padAndDownsample y else y)
    have hs : ssimMultichannel p (x'.image b) (y'.image b) = (ssimMultichannel p x' y').map fun s c _ => s c b := by
      unfold ssimMultichannel Batch.image
      dsimp only
      split_ifs <;> rfl
    show (if x'.height < p.windowSize ∨ x'.width < p.windowSize then _ else _) = _
    split_ifs with h
    · rfl
    · rw [hs, ih]
      cases ssimMultichannel p x' y' with
      | error e => rfl
      | ok s =>
        dsimp only [Except.map, Except.bind]
        cases scaleOutputs p fs (scale + 1) x' y' with
        | error e => rfl
        | ok outs => rfl

/-- What an update adds is the sum of the scores of its images, each evaluated alone. -/
theorem msSsim_sum (cfg : Config) (x y : Verif.Functional.MsSsim.Batch) (out : Out)
    (h : msSsim cfg.params cfg.factors "sum" x y = .ok out) :
    ∃ rs : List ℝ, List.Forall₂ (HasScore cfg) (pairs x y) rs ∧ out = .scalar rs.sum := by
  unfold msSsim at h
  cases ho : scaleOutputs cfg.params cfg.factors 0 x y with
  | error e => rw [ho] at h; exact (nomatch h)
  | ok outs =>
    rw [ho] at h
    dsimp only [Except.bind] at h
    cases hl : outs.getLast? with
    | none => rw [hl] at h; exact (nomatch h)
    | some last =>
      rw [hl] at h
      dsimp only at h
      refine ⟨(List.range x.batch).map fun b =>
        (∑ c ∈ Finset.range x.channels, combine outs last c b) / x.channels, ?_, ?_⟩
      · unfold pairs
        rw [List.forall₂_map_left_iff, List.forall₂_map_right_iff, List.forall₂_same]
        intro b _
        unfold HasScore msSsim
        dsimp only
        rw [scaleOutputs_image, ho]
        dsimp only [Except.map, Except.bind]
        rw [List.getLast?_map, hl]
        dsimp only [Option.map]
        unfold reduce
        rw [if_neg (by decide), if_neg (by decide), if_pos rfl]
        have hb : (List.range (x.image b).batch) = [0] := rfl
        rw [hb, List.map_cons, List.map_nil]
        have hcomb : ∀ c, combine (outs.map fun o c _ => o c b) (fun c _ => last c b) c 0 = combine outs last c b := by
          intro c
          unfold combine
          rw [← List.map_dropLast, List.map_map]
          rfl
        simp only [hcomb]
        rfl
      · unfold reduce at h
        rw [if_neg (by decide), if_pos rfl] at h
        injection h with h
        exact h.symm

/-- The images a replica has seen since its last reset. -/
def seenImages (acc : List (Verif.Functional.MsSsim.Batch × Verif.Functional.MsSsim.Batch)) :
    List Op → List (Verif.Functional.MsSsim.Batch × Verif.Functional.MsSsim.Batch)
  | [] => acc
  | .update preds target :: ops => seenImages (acc ++ pairs preds target) ops
  | .reset :: ops => seenImages [] ops

/-- The state of a replica holds the sum of the scores of some images, and their number. -/
def Holds (cfg : Config) (imgs : List (Verif.Functional.MsSsim.Batch × Verif.Functional.MsSsim.Batch)) (s : State) : Prop :=
  s.total = imgs.length ∧ ∃ rs : List ℝ, List.Forall₂ (HasScore cfg) imgs rs ∧ s.scoreSum = rs.sum

theorem run_holds (cfg : Config) (ops : List Op) :
    ∀ (s s' : State) (acc : List (Verif.Functional.MsSsim.Batch × Verif.Functional.MsSsim.Batch)), Holds cfg acc s →
      run cfg s ops = .ok s' → Holds cfg (seenImages acc ops) s' := by
  induction ops with
  | nil =>
    intro s s' acc h e
    injection e with e
    subst e
    exact h
  | cons op ops ih =>
    intro s s' acc h e
    unfold run at e
    cases op with
    | reset => exact ih State.init s' [] ⟨rfl, [], List.Forall₂.nil, rfl⟩ e
    | update x y =>
      change ((msSsim cfg.params cfg.factors "sum" x y).bind fun out => match out with
        | .scalar r => Except.ok (⟨s.scoreSum + r, s.total + x.batch⟩ : State)
        | .perImage _ => .error .runtime).bind (fun s => run cfg s ops) = .ok s' at e
      cases hm : msSsim cfg.params cfg.factors "sum" x y with
      | error er => rw [hm] at e; exact (nomatch e)
      | ok out =>
        obtain ⟨rs, hrs, rfl⟩ := msSsim_sum cfg x y out hm
        rw [hm] at e
        obtain ⟨h1, rs', h2, h3⟩ := h
        refine ih _ s' (acc ++ pairs x y) ⟨?_, rs' ++ rs, ?_, ?_⟩ e
        · simp [pairs, h1]
        · exact List.rel_append h2 hrs
        · rw [List.sum_append, h3]

theorem forall2_perm {α β : Type} {R : α → β → Prop} {l₁ l₂ : List α} (h : l₁.Perm l₂) :
    ∀ {rs : List β}, List.Forall₂ R l₁ rs → ∃ rs', List.Forall₂ R l₂ rs' ∧ rs.Perm rs' := by
  induction h with
  | nil => intro rs h; exact ⟨rs, h, List.Perm.refl _⟩
  | cons a _ ih =>
    intro rs h
    cases h with
    | cons hr ht =>
      obtain ⟨rs', h1, h2⟩ := ih ht
      exact ⟨_ :: rs', List.Forall₂.cons hr h1, h2.cons _⟩
  | swap a b l =>
    intro rs h
    cases h with
    | cons hr ht =>
      cases ht with
      | cons hr' ht' => exact ⟨_ :: _ :: _, List.Forall₂.cons hr' (List.Forall₂.cons hr ht'), List.Perm.swap _ _ _⟩
  | trans _ _ ih1 ih2 =>
    intro rs h
    obtain ⟨rs', h1, h2⟩ := ih1 h
    obtain ⟨rs'', h3, h4⟩ := ih2 h1
    exact ⟨rs'', h3, h2.trans h4⟩

theorem forall2_unique (cfg : Config) {l : List (Verif.Functional.MsSsim.Batch × Verif.Functional.MsSsim.Batch)}
    {rs rs' : List ℝ} (h : List.Forall₂ (HasScore cfg) l rs) (h' : List.Forall₂ (HasScore cfg) l rs') : rs = rs' := by
  induction h generalizing rs' with
  | nil => cases h'; rfl
  | cons hr _ ih =>
    cases h' with
    | cons hr' ht' =>
      unfold HasScore at hr hr'
      rw [hr] at hr'
      injection hr' with hr'
      injection hr' with hr'
      injection hr' with hr'
      rw [hr', ih ht']

/-- The images that all replicas together have seen since their resets. -/
def allImages (replicas : List (List Op)) : List (Verif.Functional.MsSsim.Batch × Verif.Functional.MsSsim.Batch) :=
  (replicas.map (seenImages [])).flatten

/-- The replicas run from the default state. -/
def RunAll (cfg : Config) (replicas : List (List Op)) (states : List State) : Prop :=
  List.Forall₂ (fun ops s => run cfg State.init ops = .ok s) replicas states

theorem merge_holds (cfg : Config) {replicas : List (List Op)} {states : List State} (h : RunAll cfg replicas states) :
    Holds cfg (allImages replicas) (merge states) := by
  induction h with
  | nil => exact ⟨rfl, [], List.Forall₂.nil, rfl⟩
  | cons hr _ ih =>
    obtain ⟨t1, rs1, f1, s1⟩ := run_holds cfg _ _ _ [] ⟨rfl, [], List.Forall₂.nil, rfl⟩ hr
    obtain ⟨t2, rs2, f2, s2⟩ := ih
    refine ⟨?_, rs1 ++ rs2, ?_, ?_⟩
    · unfold merge allImages at *
      simp only [List.map_cons, List.sum_cons, List.flatten_cons, List.length_append]
      dsimp only at t2
      rw [t1, t2]
    · exact List.rel_append f1 f2
    · unfold merge at *
      simp only [List.map_cons, List.sum_cons, List.sum_append]
      dsimp only at s2
      rw [s1, s2]

/-- **C59.** For any number of replicas, each with any history of updates and resets that raises nothing: the value of the
merged metric is the mean, over all images seen since the resets, of the score of the image alone. -/
theorem C59_mean (cfg : Config) (replicas : List (List Op)) (states : List State) (h : RunAll cfg replicas states)
    (hne : allImages replicas ≠ []) :
    ∃ rs : List ℝ, List.Forall₂ (HasScore cfg) (allImages replicas) rs ∧
      compute (merge states) = some (rs.sum / (allImages replicas).length) := by
  obtain ⟨t, rs, f, s⟩ := merge_holds cfg h
  refine ⟨rs, f, ?_⟩
  unfold compute
  rw [if_neg (by rw [t]; exact fun h0 => hne (List.length_eq_zero_iff.1 h0)), s, t]

/-- **C59, independence.** Two sets of replicas that have seen the same images in any order and any grouping (into
batches and replicas) have the same value. -/
theorem C59_independent (cfg : Config) (replicas replicas' : List (List Op)) (states states' : List State)
    (h : RunAll cfg replicas states) (h' : RunAll cfg replicas' states') (hp : (allImages replicas).Perm (allImages replicas')) :
    compute (merge states) = compute (merge states') := by
  obtain ⟨t, rs, f, s⟩ := merge_holds cfg h
  obtain ⟨t', rs', f', s'⟩ := merge_holds cfg h'
  obtain ⟨rs'', f'', hperm⟩ := forall2_perm hp f
  have := forall2_unique cfg f' f''
  subst this
  unfold compute
  rw [t, t', s, s', hp.length_eq, hperm.sum_eq]

/-- A failing update leaves the metric as it was (the exception is raised before the state is written), so C59 applies to
the remaining updates. -/
theorem C59_failed (cfg : Config) (s : State) (x y : Verif.Functional.MsSsim.Batch) :
    (∃ s', update cfg s x y = .ok s') ↔ ∃ out, msSsim cfg.params cfg.factors "sum" x y = .ok out := by
  unfold update
  constructor
  · rintro ⟨s', h⟩
    cases hm : msSsim cfg.params cfg.factors "sum" x y with
    | error e => rw [hm] at h; exact (nomatch h)
    | ok out => exact ⟨out, rfl⟩
  · rintro ⟨out, h⟩
    obtain ⟨rs, -, rfl⟩ := msSsim_sum cfg x y out h
    rw [h]
    exact ⟨_, rfl⟩

/-! ### DISTS, FID, KID -/

/-- **C59, DISTS.** After any sequence of accepted updates: the mean (or the sum) of the scores of all images. -/
theorem C59_dists {Img : Type} (inRange : Img → Bool) (net : Img → Img → ℝ) (mean : Bool)
    (updates : List (Tensor Img × Tensor Img))
    (hv : ∀ u ∈ updates, validImg inRange u.1 = true ∧ validImg inRange u.2 = true ∧
      u.1.images.length = u.2.images.length) :
    let imgs := (updates.map fun u => u.1.images.zip u.2.images).flatten
    ∃ s, updates.foldlM (fun s u => distsUpdate inRange net s u.1 u.2) ⟨0, 0⟩ = some s ∧
      (mean = false → distsCompute mean s = some ((imgs.map fun x => net x.1 x.2).sum)) ∧
      (mean = true → imgs ≠ [] → distsCompute mean s = some ((imgs.map fun x => net x.1 x.2).sum / imgs.length)) := by
  intro imgs
  have key : ∀ (us : List (Tensor Img × Tensor Img)) (s0 : DistsState),
      (∀ u ∈ us, validImg inRange u.1 = true ∧ validImg inRange u.2 = true ∧ u.1.images.length = u.2.images.length) →
      us.foldlM (fun s u => distsUpdate inRange net s u.1 u.2) s0 =
        some ⟨s0.sumScores + (((us.map fun u => u.1.images.zip u.2.images).flatten).map fun x => net x.1 x.2).sum,
          s0.total + ((us.map fun u => u.1.images.zip u.2.images).flatten).length⟩ := by
    intro us
    induction us with
    | nil => intro s0 _; simp
    | cons u us ih =>
      intro s0 h
      obtain ⟨h1, h2, h3⟩ := h u List.mem_cons_self
      rw [List.foldlM_cons]
      unfold distsUpdate
      rw [h1, h2]
      simp only [Bool.and_self, if_true]
      show List.foldlM (fun s u => distsUpdate inRange net s u.1 u.2) _ us = _
      rw [ih _ fun u hu => h u (List.mem_cons_of_mem _ hu)]
      simp [h3, add_assoc]
  refine ⟨_, key updates ⟨0, 0⟩ hv, fun hm => ?_, fun hm hne => ?_⟩
  · simp [distsCompute, hm, imgs]
  · unfold distsCompute
    rw [if_pos hm, if_neg]
    · simp [imgs]
    · simp only [Nat.zero_add]
      exact fun h0 => hne (List.length_eq_zero_iff.1 h0)

/-- An invalid pair is refused. -/
theorem C59_dists_rejects {Img : Type} (inRange : Img → Bool) (net : Img → Img → ℝ) (s : DistsState) (a b : Tensor Img) :
    distsUpdate inRange net s a b = none ↔
      ¬ (a.rank4 = true ∧ a.channels = 3 ∧ (∀ x ∈ a.images, inRange x = true) ∧
        b.rank4 = true ∧ b.channels = 3 ∧ (∀ x ∈ b.images, inRange x = true)) := by
  unfold distsUpdate validImg
  split_ifs with h
  · simp only [Bool.and_eq_true, decide_eq_true_eq, List.all_eq_true] at h
    simp only [reduceCtorEq, false_iff, not_not]
    tauto
  · simp only [Bool.and_eq_true, decide_eq_true_eq, List.all_eq_true] at h
    simp only [true_iff]
    tauto

/-- The images of one kind in a sequence of updates. -/
def ofKind {Img : Type} (real : Bool) (updates : List (List Img × Bool)) : List Img :=
  ((updates.filter fun u => u.2 = real).map Prod.fst).flatten

theorem torchCat_list {F : Type} (l : List (List F)) : torchCat (.list l) = if l = [] then .error .runtime else .ok l.flatten := by
  cases l <;> rfl

theorem feat_state {Img F : Type} (extract : Img → F) : ∀ (us : List (List Img × Bool)) (s0 : FeatState F),
    (us.foldl (fun s u => featUpdate extract s u.1 u.2) s0).real =
        s0.real ++ ((us.filter fun u => u.2 = true).map fun u => u.1.map extract) ∧
      (us.foldl (fun s u => featUpdate extract s u.1 u.2) s0).fake =
        s0.fake ++ ((us.filter fun u => u.2 = false).map fun u => u.1.map extract) := by
  intro us
  induction us with
  | nil => intro s0; simp
  | cons u us ih =>
    intro s0
    obtain ⟨imgs, real⟩ := u
    rw [List.foldl_cons]
    obtain ⟨h1, h2⟩ := ih (featUpdate extract s0 imgs real)
    rw [h1, h2]
    cases real <;> simp [featUpdate]

/-- **C59, feature metrics.** The value depends only on the images that were passed as real and those passed as fake, in
their order, not on the batches or on how real and fake updates alternate; it exists as soon as there was an update of each
kind. -/
theorem C59_features {Img F R : Type} (extract : Img → F) (distance : List F → List F → R)
    (updates : List (List Img × Bool)) :
    let s := updates.foldl (fun s u => featUpdate extract s u.1 u.2) ⟨[], []⟩
    ((∃ u ∈ updates, u.2 = true) → (∃ u ∈ updates, u.2 = false) → localCompute distance s =
      .ok (distance ((ofKind true updates).map extract) ((ofKind false updates).map extract))) ∧
    (¬ ((∃ u ∈ updates, u.2 = true) ∧ (∃ u ∈ updates, u.2 = false)) → localCompute distance s = .error .runtime) := by
  intro s
  obtain ⟨k1, k2⟩ := feat_state extract updates ⟨[], []⟩
  have fl : ∀ real : Bool, ((updates.filter fun u => u.2 = real).map fun u => u.1.map extract).flatten =
      (ofKind real updates).map extract := by
    intro real
    unfold ofKind
    rw [List.map_flatten, List.map_map]
    rfl
  have hr : torchCat (.list s.real) = if ∃ u ∈ updates, u.2 = true then
      .ok ((ofKind true updates).map extract) else .error .runtime := by
    have hs : s.real = (updates.filter fun u => u.2 = true).map fun u => u.1.map extract := k1
    rw [torchCat_list, ← fl, hs]
    by_cases h : ∃ u ∈ updates, u.2 = true
    · rw [if_pos h, if_neg (by simpa using h)]
    · rw [if_neg h, if_pos (by simpa using h)]
  have hf : torchCat (.list s.fake) = if ∃ u ∈ updates, u.2 = false then
      .ok ((ofKind false updates).map extract) else .error .runtime := by
    have hs : s.fake = (updates.filter fun u => u.2 = false).map fun u => u.1.map extract := k2
    rw [torchCat_list, ← fl, hs]
    by_cases h : ∃ u ∈ updates, u.2 = false
    · rw [if_pos h, if_neg (by simpa using h)]
    · rw [if_neg h, if_pos (by simpa using h)]
  unfold localCompute featCompute
  rw [hr, hf]
  constructor
  · intro h1 h2
    rw [if_pos h1, if_pos h2]
    rfl
  · intro h
    by_cases h1 : ∃ u ∈ updates, u.2 = true
    · rw [if_pos h1, if_neg fun h2 => h ⟨h1, h2⟩]
      rfl
    · rw [if_neg h1]
      rfl

/-! ### C87: distributed evaluation -/

/-- **C87 is violated**: in a distributed run, also with one process, FID and FID-SwAV raise `TypeError` as soon as a real image
was seen, for every number of replicas and all features. -/
theorem C87_violated {F R : Type} (distance : List F → List F → R) (replicas : List (FeatState F))
    (h : ∃ s ∈ replicas, s.real ≠ []) : fidDistributed distance replicas = .error .type := by
  unfold fidDistributed featCompute syncCat
  rw [if_neg]
  · rfl
  · obtain ⟨s, hs, hne⟩ := h
    simp only [List.all_eq_true, List.mem_map, forall_exists_index, and_imp, forall_apply_eq_imp_iff₂, not_forall]
    exact ⟨s, hs, by simpa using hne⟩

theorem interleave_perm {F : Type} : ∀ (n : ℕ) (replicas : List (List (List F))), (∀ r ∈ replicas, r.length = n) →
    ((List.range n).flatMap fun k => replicas.map fun r => r.getD k []).flatten.Perm
      (replicas.map List.flatten).flatten := by
  intro n replicas
  induction replicas with
  | nil => intro _; simp
  | cons r rs ih =>
    intro h
    have hr := h r List.mem_cons_self
    have e : ((List.range n).flatMap fun k => (r :: rs).map fun r => r.getD k []).flatten.Perm
        (((List.range n).map fun k => r.getD k []).flatten ++
          ((List.range n).flatMap fun k => rs.map fun r => r.getD k []).flatten) := by
      clear ih h hr
      induction n with
      | zero => simp
      | succ n ih =>
        rw [List.range_succ, List.flatMap_append, List.flatMap_append, List.map_append, List.flatten_append,
          List.flatten_append, List.flatten_append]
        refine (ih.append_right _).trans ?_
        simp only [List.flatMap_cons, List.flatMap_nil, List.append_nil, List.map_cons, List.map_nil, List.flatten_cons,
          List.flatten_nil]
        rw [List.append_assoc, List.append_assoc]
        refine List.Perm.append_left _ ?_
        rw [← List.append_assoc, ← List.append_assoc]
        exact List.Perm.append_right _ List.perm_append_comm
    have hget : ((List.range n).map fun k => r.getD k []) = r := by
      apply List.ext_getElem
      · simp [hr]
      · intro i h1 h2
        simp [List.getElem?_eq_getElem h2]
    rw [hget] at e
    rw [List.map_cons, List.flatten_cons]
    exact e.trans (List.Perm.append_left _ (ih fun r hr => h r (List.mem_cons_of_mem _ hr)))

/-- **C87, KID.** In a distributed run where all replicas have the same positive number of updates, KID is computed from the
features of all images of all replicas, up to their order. -/
theorem C87_kid_partial {F R : Type} (distance : List F → List F → R) (nReal nFake : ℕ) (replicas : List (FeatState F))
    (hn : replicas ≠ []) (h1 : 0 < nReal) (h2 : 0 < nFake)
    (hr : ∀ s ∈ replicas, s.real.length = nReal) (hf : ∀ s ∈ replicas, s.fake.length = nFake) :
    ∃ real fake, kidDistributed distance nReal nFake replicas = .ok (distance real fake) ∧
      real.Perm (replicas.map fun s => s.real.flatten).flatten ∧
      fake.Perm (replicas.map fun s => s.fake.flatten).flatten := by
  have ne : ∀ (n : ℕ) (rs : List (List (List F))), 0 < n → rs ≠ [] →
      ((List.range n).flatMap fun k => rs.map fun r => r.getD k []) ≠ [] := by
    intro n rs hn hrs h
    rw [List.flatMap_eq_nil_iff] at h
    exact hrs (List.map_eq_nil_iff.1 (h 0 (List.mem_range.2 hn)))
  have pr := interleave_perm nReal (replicas.map FeatState.real) (by
    intro r hr'
    obtain ⟨s, hs, rfl⟩ := List.mem_map.1 hr'
    exact hr s hs)
  have pf := interleave_perm nFake (replicas.map FeatState.fake) (by
    intro r hr'
    obtain ⟨s, hs, rfl⟩ := List.mem_map.1 hr'
    exact hf s hs)
  rw [List.map_map] at pr pf
  refine ⟨_, _, ?_, pr, pf⟩
  unfold kidDistributed featCompute syncNone
  rw [torchCat_list, torchCat_list, if_neg (ne _ _ h1 (by simpa using hn)), if_neg (ne _ _ h2 (by simpa using hn))]
  rfl

/-- **C87, single process.** Without `torch.distributed` the three metrics are the distance of all features seen. -/
theorem C87_single_partial {F R : Type} (distance : List F → List F → R) (s : FeatState F) (h1 : s.real ≠ [])
    (h2 : s.fake ≠ []) : localCompute distance s = .ok (distance s.real.flatten s.fake.flatten) := by
  unfold localCompute featCompute
  rw [torchCat_list, torchCat_list, if_neg h1, if_neg h2]
  rfl

/-- C87 is not vacuous: two replicas with two updates each. -/
example : kidDistributed (fun a b => (a, b)) 2 1
    [(⟨[[1], [2, 3]], [[7]]⟩ : FeatState ℕ), ⟨[[4, 5], [6]], [[8]]⟩] = .ok ([1, 4, 5, 2, 3, 6], [7, 8]) := by
  decide +kernel

/-- C59 is not vacuous: an update with two black images and themselves, in two replicas, has the value one. -/
example : ∃ (cfg : Config) (x : Verif.Functional.MsSsim.Batch) (s : State),
    RunAll cfg [[.update x x], [.reset, .update x x]] [s, s] ∧ compute (merge [s, s]) = some 1 := by
  have hx := (C45_identical (p := {}) ⟨by norm_num, by norm_num, by norm_num, by norm_num⟩ (factors := [1]) (by simp)
    ⟨2, 1, 11, 11, fun _ _ _ _ => 0⟩ (by norm_num) (by norm_num) (by simp [LargeEnough, sizeAt])).2.1
  refine ⟨⟨{}, [1]⟩, ⟨2, 1, 11, 11, fun _ _ _ _ => 0⟩, ⟨2, 2⟩, ?_, ?_⟩
  · have hr : run ⟨{}, [1]⟩ State.init [.update ⟨2, 1, 11, 11, fun _ _ _ _ => 0⟩ ⟨2, 1, 11, 11, fun _ _ _ _ => 0⟩] =
        .ok ⟨2, 2⟩ := by
      unfold run step update
      dsimp only
      rw [hx]
      simp [Except.bind, run, State.init]
    exact List.Forall₂.cons hr (List.Forall₂.cons hr List.Forall₂.nil)
  · norm_num [compute, merge]

end Verif.Train.Accum

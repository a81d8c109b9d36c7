import Verif.Layers.EntropyQueries
import Verif.Layers.PropsEntropy

/-!
C113: what an entropy layer answers about itself.
-/

namespace Verif.Layers.Entropy.Queries

open Verif.Layers.Entropy

/-- The cases of a construction. -/
theorem construct_ok {q : List ℝ → List ℤ} {a : FullArgs} {o : Object} (h : construct q a = .ok o) :
    ∃ l, init q a.base = .ok l ∧ o.layer = l ∧
      o.held = (match a.base.compressible, a.base.prior with
        | true, some p => .prior p
        | _, _ => .absent) ∧
      o.codingRank = a.codingRank ∧ o.tailMass = a.tailMass ∧ o.precision = a.precision ∧
      o.dtype = (match a.base.prior with
        | none => a.dtype
        | some _ => .float32) ∧ o.maximumCdfSize = a.base.maximumCdfSize := by
  unfold construct at h
  cases hl : init q a.base with
  | error e => rw [hl] at h; exact (nomatch h)
  | ok l =>
    rw [hl] at h
    injection h with h
    subst h
    exact ⟨l, rfl, rfl, rfl, rfl, rfl, rfl, rfl, rfl⟩

/-- What `init` stores. -/
theorem init_fields {q : List ℝ → List ℤ} {a : Args} {l : Layer} (h : init q a = .ok l) :
    l.compressible = a.compressible ∧ l.stateless = a.stateless ∧
      (a.prior = none → a.priorShape = some l.priorShape) ∧ (∀ p, a.prior = some p → l.priorShape = p.batchShape) ∧
      (a.prior = none → a.maximumCdfSize = none → l.cdfs = a.cdfs ∧ l.cdfSizes = a.cdfSizes ∧
        l.cdfOffsets = a.cdfOffsets) := by
  obtain ⟨compressible, stateless, prior, priorShape, priorDtype, cdfs, cdfSizes, cdfOffsets, maximum⟩ := a
  cases prior with
  | some p =>
    cases hu : update q p <;>
      cases compressible <;> cases cdfs <;> cases cdfSizes <;> cases cdfOffsets <;> cases maximum <;>
      simp [init, contextShape, isNone, hu, Except.map] at h <;> subst h <;> simp
  | none =>
    cases priorShape with
    | none => simp [init, contextShape] at h
    | some shape =>
      cases priorDtype with
      | false => simp [init, contextShape] at h
      | true =>
        cases compressible <;> cases cdfs <;> cases cdfSizes <;> cases cdfOffsets <;> cases maximum <;>
          simp [init, contextShape, isNone, emptyTables] at h <;>
          first
          | (subst h; simp)
          | (split_ifs at h; simp at h; subst h; simp; done)
          | skip

/-- **C113, settings.** A layer keeps the coding rank, tail mass, precision and maximal table size it was built with, whether it is
compressible and stateless, and as shape of the prior and of its tables the given shape, or the batch shape of the prior;
without a prior also the type that was given. -/
theorem C113_settings (q : List ℝ → List ℤ) (a : FullArgs) (o : Object) (h : construct q a = .ok o) :
    o.codingRank = a.codingRank ∧ o.tailMass = a.tailMass ∧ o.precision = a.precision ∧
      o.layer.compressible = a.base.compressible ∧ o.layer.stateless = a.base.stateless ∧
      (∀ p, a.base.prior = some p → priorShapeOf o = p.batchShape) ∧
      (a.base.prior = none → a.base.priorShape = some (priorShapeOf o) ∧ priorDtypeOf o = a.dtype) ∧
      contextShapeOf o = priorShapeOf o ∧ o.maximumCdfSize = a.base.maximumCdfSize := by
  obtain ⟨l, hl, rfl, -, h1, h2, h3, h4, h5⟩ := construct_ok h
  obtain ⟨f1, f2, f3, f4, -⟩ := init_fields hl
  refine ⟨h1, h2, h3, f1, f2, f4, fun hp => ⟨f3 hp, ?_⟩, rfl, h5⟩
  unfold priorDtypeOf
  rw [h4, hp]

/-- **C113, tables.** The tables of a layer can be read exactly if it is compressible, otherwise reading each of them raises
`RuntimeError`; a layer that was given tables returns these. -/
theorem C113_tables (q : List ℝ → List ℤ) (a : FullArgs) (o : Object) (h : construct q a = .ok o) :
    (a.base.compressible = false →
      getCdfs o = .error .runtime ∧ getSizes o = .error .runtime ∧ getOffsets o = .error .runtime) ∧
    (a.base.compressible = true →
      (∃ t, getCdfs o = .ok t) ∧ (∃ t, getSizes o = .ok t) ∧ (∃ t, getOffsets o = .ok t) ∧
      ∀ c, a.base.cdfs = some c →
        getCdfs o = .ok a.base.cdfs ∧ getSizes o = .ok a.base.cdfSizes ∧ getOffsets o = .ok a.base.cdfOffsets) := by
  obtain ⟨l, hl, rfl, -⟩ := construct_ok h
  obtain ⟨f1, -, -, -, f5⟩ := init_fields hl
  constructor
  · intro hc
    simp [getCdfs, getSizes, getOffsets, validateCompress, f1, hc]
  · intro hc
    refine ⟨?_, ?_, ?_, ?_⟩
    · simp [getCdfs, validateCompress, f1, hc]
    · simp [getSizes, validateCompress, f1, hc]
    · simp [getOffsets, validateCompress, f1, hc]
    · intro c hcd
      have hdoc : ¬ ¬ Documented a.base := fun hn => by
        rw [(C50_rejects_partial q a.base).2 hn] at hl
        exact (nomatch hl)
      push Not at hdoc
      obtain ⟨-, hdoc, -⟩ := hdoc
      obtain ⟨-, hone, -⟩ := hdoc hc
      have hp : a.base.prior = none ∧ a.base.maximumCdfSize = none := by
        rcases hone with ⟨_, h2, _⟩ | ⟨h1, _, h3⟩ | ⟨_, h2, _⟩
        · rw [hcd] at h2; simp at h2
        · exact ⟨by simpa using h1, by simpa using h3⟩
        · rw [hcd] at h2; simp at h2
      obtain ⟨g1, g2, g3⟩ := f5 hp.1 hp.2
      simp [getCdfs, getSizes, getOffsets, validateCompress, f1, hc, g1, g2, g3]

/-- **C113, the prior** of a compressible layer can be read until it is deleted; then reading it raises the
documented `RuntimeError`, and all other answers stay as they were, the tables included. -/
theorem C113_prior_partial (q : List ℝ → List ℤ) (a : FullArgs) (o : Object) (h : construct q a = .ok o)
    (hc : a.base.compressible = true) (p : Prior) (hp : a.base.prior = some p) :
    getPrior o = .ok p ∧ getPrior (deletePrior o) = .error .runtime ∧
      getPrior (deletePrior (deletePrior o)) = .error .runtime ∧
      getCdfs (deletePrior o) = getCdfs o ∧ getSizes (deletePrior o) = getSizes o ∧
      getOffsets (deletePrior o) = getOffsets o ∧ priorShapeOf (deletePrior o) = priorShapeOf o ∧
      priorDtypeOf (deletePrior o) = priorDtypeOf o ∧ (deletePrior o).tailMass = o.tailMass := by
  obtain ⟨l, -, -, hh, -⟩ := construct_ok h
  rw [hc, hp] at hh
  refine ⟨?_, rfl, rfl, rfl, rfl, rfl, rfl, rfl, rfl⟩
  unfold getPrior
  rw [hh]

/-- **C113 is violated for the prior**: a layer that was given a prior but is not compressible (the default) does not
hold it, and reading it raises `AttributeError` and not the documented `RuntimeError`; the same holds for a layer that
was never given a prior. -/
theorem C113_violated_prior (q : List ℝ → List ℤ) (a : FullArgs) (o : Object) (h : construct q a = .ok o)
    (hc : a.base.compressible = false ∨ a.base.prior = none) : getPrior o = .error .attribute := by
  obtain ⟨l, -, -, hh, -⟩ := construct_ok h
  unfold getPrior
  rw [hh]
  rcases hc with hc | hc
  · rw [hc]
  · rw [hc]
    cases a.base.compressible <;> rfl

/-- Such a layer exists for every prior. -/
example (q : List ℝ → List ℤ) (p : Prior) : ∃ o, construct q ⟨{ prior := some p }, none, 1 / 256, 12, .float32, .float32⟩ =
    .ok o ∧ getPrior o = .error .attribute := by
  refine ⟨_, rfl, ?_⟩
  rfl

/-- **C113 is violated for the type of the prior**: a layer with a prior always reports `float32`, also for a prior in
double or half precision. -/
theorem C113_violated_dtype (q : List ℝ → List ℤ) (a : FullArgs) (o : Object) (h : construct q a = .ok o) (p : Prior)
    (hp : a.base.prior = some p) : priorDtypeOf o = .float32 := by
  obtain ⟨l, -, -, -, -, -, -, h4⟩ := construct_ok h
  unfold priorDtypeOf
  rw [h4.1, hp]

/-- **C113, check of the tables.** The check accepts exactly layers with non-empty offsets and sizes of rank one and
non-empty functions of rank two. -/
theorem C113_check (o : Object) :
    validate o = .ok () ↔ ∃ c s f, o.layer.cdfs = some c ∧ o.layer.cdfSizes = some s ∧ o.layer.cdfOffsets = some f ∧
      (∃ m n, c.shape = [m, n] ∧ 0 < m ∧ 0 < n) ∧ (∃ n, s.shape = [n] ∧ 0 < n) ∧ ∃ n, f.shape = [n] ∧ 0 < n := by
  have vec : ∀ t : Option IntTensor, validateVector t = .ok () ↔ ∃ x n, t = some x ∧ x.shape = [n] ∧ 0 < n := by
    intro t
    cases t with
    | none => simp [validateVector]
    | some x =>
      unfold validateVector
      dsimp only
      rcases hx : x.shape with _ | ⟨n, _ | ⟨m, l⟩⟩
      · simp [hx]
      · by_cases hn : n = 0
        · simp [hx, hn]
        · simp [hx, hn, Nat.pos_of_ne_zero hn]
      · split_ifs <;> simp_all
  have tab : ∀ t : Option IntTensor, validateTable t = .ok () ↔ ∃ x m n, t = some x ∧ x.shape = [m, n] ∧ 0 < m ∧ 0 < n := by
    intro t
    cases t with
    | none => simp [validateTable]
    | some x =>
      unfold validateTable
      dsimp only
      rcases hx : x.shape with _ | ⟨n, _ | ⟨m, _ | ⟨k, l⟩⟩⟩
      · simp [hx]
      · split_ifs <;> simp_all
      · by_cases hn : n = 0
        · simp [hx, hn]
        · by_cases hm : m = 0
          · simp [hx, hm]
          · simp [hx, hn, hm, Nat.pos_of_ne_zero hn, Nat.pos_of_ne_zero hm]
      · split_ifs <;> simp_all
  unfold validate
  constructor
  · intro h
    cases h1 : validateVector o.layer.cdfOffsets with
    | error e => rw [h1] at h; exact (nomatch h)
    | ok u =>
      rw [h1] at h
      dsimp only at h
      cases h2 : validateVector o.layer.cdfSizes with
      | error e => rw [h2] at h; exact (nomatch h)
      | ok v =>
        rw [h2] at h
        obtain ⟨f, nf, e1, e2, e3⟩ := (vec _).1 h1
        obtain ⟨s, ns, s1, s2, s3⟩ := (vec _).1 h2
        obtain ⟨c, m, n, c1, c2, c3, c4⟩ := (tab _).1 h
        exact ⟨c, s, f, c1, s1, e1, ⟨m, n, c2, c3, c4⟩, ⟨ns, s2, s3⟩, nf, e2, e3⟩
  · rintro ⟨c, s, f, c1, s1, e1, ⟨m, n, c2, c3, c4⟩, ⟨ns, s2, s3⟩, nf, e2, e3⟩
    rw [(vec _).2 ⟨f, nf, e1, e2, e3⟩]
    dsimp only
    rw [(vec _).2 ⟨s, ns, s1, s2, s3⟩]
    exact (tab _).2 ⟨c, m, n, c1, c2, c3, c4⟩

/-- **C113 is violated by the check**: the empty tables of a layer that is still to be restored, whose entries are all
zero, pass the check for initialised tables. -/
theorem C113_violated_check (q : List ℝ → List ℤ) (a : FullArgs) (o : Object) (h : construct q a = .ok o)
    (hc : a.base.compressible = true) (m : ℕ) (hm : a.base.maximumCdfSize = some m) (h0 : 0 < m) :
    validate o = .ok () ∧ ∃ c s f, getCdfs o = .ok (some c) ∧ getSizes o = .ok (some s) ∧ getOffsets o = .ok (some f) ∧
      (∀ x ∈ c.data, x = 0) ∧ (∀ x ∈ s.data, x = 0) ∧ ∀ x ∈ f.data, x = 0 := by
  obtain ⟨l, hl, rfl, -⟩ := construct_ok h
  obtain ⟨base, rank, tail, prec, dt, pe⟩ := a
  dsimp only at hl hc hm
  obtain ⟨compressible, stateless, prior, priorShape, priorDtype, cdfs, cdfSizes, cdfOffsets, maximum⟩ := base
  dsimp only at hc hm
  subst hc hm
  have key : ∃ k, 0 < k ∧ o.layer.compressible = true ∧ o.layer.cdfs = some (zeros [k, m]) ∧
      o.layer.cdfSizes = some (zeros [m]) ∧ o.layer.cdfOffsets = some (zeros [m]) := by
    cases prior with
    | some p =>
      cases cdfs <;> cases cdfSizes <;> cases cdfOffsets <;> simp [init, contextShape, isNone] at hl
    | none =>
      cases priorShape with
      | none => simp [init, contextShape] at hl
      | some shape =>
        cases priorDtype with
        | false => simp [init, contextShape] at hl
        | true =>
          cases cdfs <;> cases cdfSizes <;> cases cdfOffsets <;> simp [init, contextShape, isNone, emptyTables] at hl
          split_ifs at hl with h1 h2
          injection hl with hl
          rw [← hl]
          exact ⟨shape.length, List.length_pos_iff.2 h2, rfl, rfl, rfl, rfl⟩
  obtain ⟨k, hk, k0, k1, k2, k3⟩ := key
  refine ⟨(C113_check o).2 ⟨_, _, _, k1, k2, k3, ⟨k, m, rfl, hk, h0⟩, ⟨m, rfl, h0⟩, m, rfl, h0⟩, zeros [k, m], zeros [m],
    zeros [m], ?_, ?_, ?_, ?_, ?_, ?_⟩
  · simp [getCdfs, validateCompress, k0, k1]
  · simp [getSizes, validateCompress, k0, k2]
  · simp [getOffsets, validateCompress, k0, k3]
  all_goals
    intro x hx
    exact (List.mem_replicate.1 hx).2

/-- Non-vacuity: the layer of the test suite that waits for tables of size 16, and a compressible layer for two
distributions. -/
example (q : List ℝ → List ℤ) :
    let base : Args := { compressible := true, priorShape := some [32], priorDtype := true, maximumCdfSize := some 16 }
    ∃ o, construct q ⟨base, some 1, 1 / 256, 12, .float64, .float32⟩ = .ok o ∧ priorDtypeOf o = .float64 ∧
      o.codingRank = some 1 := ⟨_, rfl, rfl, rfl⟩

example (q : List ℝ → List ℤ) (p : Prior) (h : p.noisy = false) (h2 : p.batch = some 2) :
    ∃ o, construct q ⟨{ compressible := true, prior := some p }, none, 1 / 256, 12, .float32, .float64⟩ = .ok o ∧
      getPrior o = .ok p ∧ priorDtypeOf o = .float32 := by
  have : ∃ t, update q p = .ok t := by
    unfold update
    rw [h2]
    simp [h]
  obtain ⟨t, ht⟩ := this
  refine ⟨_, by unfold construct init contextShape; simp [isNone, ht, Except.map]; rfl, rfl, rfl⟩

end Verif.Layers.Entropy.Queries

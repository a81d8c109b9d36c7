import Verif.Script.RateFiles
import Mathlib.Algebra.Order.BigOperators.Group.List
import Mathlib.Algebra.BigOperators.Field
import Mathlib.Tactic.FieldSimp
import Mathlib.Tactic.Linarith
import Mathlib.Tactic.Positivity

/-!
# C118: the files with the rates of the diffusion steps

The rate of the stream in step `t` is the number of bits per value over all encoded batches, `streamRate`.
-/

namespace Verif.Script.RateFiles

open Finset

/-- The specification: bits per value that all batches together take in step `t`. -/
noncomputable def streamRate (c : Cfg) (name : Name) (t : ℕ) : ℝ :=
  (∑ i ∈ range c.total, 8 * (c.bytes name i t : ℝ)) / (c.size * c.total)

/-- The rates after the batches `j + 1, ..., k`. -/
noncomputable def rowsFrom (c : Cfg) (name : Name) (j k : ℕ) : List (ℕ → ℝ) :=
  (List.range (k - j)).map fun i => c.rate name (j + i + 1)

theorem rowsFrom_succ (c : Cfg) (name : Name) {j k : ℕ} (h : j ≤ k) :
    rowsFrom c name j (k + 1) = rowsFrom c name j k ++ [c.rate name (k + 1)] := by
  unfold rowsFrom
  rw [Nat.succ_sub h, List.range_succ, List.map_append]
  simp only [List.map_cons, List.map_nil]
  rw [show j + (k - j) = k by omega]

/-- What all reachable states satisfy. -/
def Inv (c : Cfg) (w : World) : Prop :=
  w.dir.ckpt ≤ c.total ∧
  (∀ name f, w.dir.files name = some f → ∃ j < c.total, f = summary (rowsFrom c name j c.total)) ∧
  match w.proc with
  | .encoding k rows => ∃ j, j ≤ k ∧ j < c.total ∧ k ≤ c.total ∧ ∀ name, rows name = rowsFrom c name j k
  | .writing rows => ∃ j < c.total, ∀ name, rows name = rowsFrom c name j c.total
  | _ => True

theorem inv_step (c : Cfg) {w w' : World} (h : Inv c w) (hs : Step c w w') : Inv c w' := by
  obtain ⟨h1, h2, h3⟩ := h
  cases hs with
  | startEncode d p hp hlt =>
    exact ⟨h1, h2, d.ckpt, le_rfl, hlt, h1, fun name => by simp [rowsFrom]⟩
  | startDone d p hp hlt => exact ⟨h1, h2, trivial⟩
  | batch d k rows hlt =>
    obtain ⟨j, hjk, hj, hk, hr⟩ := h3
    refine ⟨?_, h2, j, by omega, hj, by omega, fun name => ?_⟩
    · dsimp only at h1 ⊢
      split <;> omega
    · dsimp only
      rw [hr name, rowsFrom_succ c name hjk]
  | writePush d k rows hlt =>
    obtain ⟨j, hjk, hj, hk, hr⟩ := h3
    have : k = c.total := by omega
    subst this
    refine ⟨h1, fun name f hf => ?_, j, hj, hr⟩
    dsimp only at hf
    split at hf
    · rename_i hn
      subst hn
      exact ⟨j, hj, by rw [← hr]; exact (Option.some.inj hf).symm⟩
    · exact h2 name f hf
  | writePop d rows =>
    obtain ⟨j, hj, hr⟩ := h3
    refine ⟨h1, fun name f hf => ?_, trivial⟩
    dsimp only at hf
    split at hf
    · rename_i hn
      subst hn
      exact ⟨j, hj, by rw [← hr]; exact (Option.some.inj hf).symm⟩
    · exact h2 name f hf
  | crash d p => exact ⟨h1, h2, trivial⟩

theorem inv_reachable (c : Cfg) {w : World} (h : Reachable c w) : Inv c w := by
  induction h with
  | refl => exact ⟨Nat.zero_le _, fun _ _ h => (nomatch h), trivial⟩
  | tail _ hs ih => exact inv_step c ih hs

theorem rate_total (c : Cfg) (name : Name) (t : ℕ) : c.rate name c.total t = streamRate c name t := by
  unfold Cfg.rate streamRate
  rw [← mul_sum, mul_comm (c.size : ℝ)]

theorem mem_rowsFrom (c : Cfg) (name : Name) {j k : ℕ} (h : j < k) (t : ℕ) :
    c.rate name k t ∈ (rowsFrom c name j k).map (· t) := by
  unfold rowsFrom
  rw [List.map_map, List.mem_map]
  exact ⟨k - j - 1, List.mem_range.2 (by omega), by simp only [Function.comp]; congr 1; omega⟩

theorem mem_rowsFrom_iff (c : Cfg) (name : Name) (j k t : ℕ) (x : ℝ) :
    x ∈ (rowsFrom c name j k).map (· t) ↔ ∃ m, j < m ∧ m ≤ k ∧ x = c.rate name m t := by
  unfold rowsFrom
  rw [List.map_map, List.mem_map]
  constructor
  · rintro ⟨i, hi, rfl⟩
    have := List.mem_range.1 hi
    exact ⟨j + i + 1, by omega, by omega, rfl⟩
  · rintro ⟨m, h1, h2, rfl⟩
    exact ⟨m - j - 1, List.mem_range.2 (by omega), by simp only [Function.comp]; congr 1; omega⟩

theorem min_getD {xs : List ℝ} (h : xs ≠ []) : xs.min?.getD 0 ∈ xs ∧ ∀ x ∈ xs, xs.min?.getD 0 ≤ x := by
  rcases hm : xs.min? with _ | m
  · exact absurd (List.min?_eq_none_iff.1 hm) h
  · exact List.min?_eq_some_iff.1 hm

theorem max_getD {xs : List ℝ} (h : xs ≠ []) : xs.max?.getD 0 ∈ xs ∧ ∀ x ∈ xs, x ≤ xs.max?.getD 0 := by
  rcases hm : xs.max? with _ | m
  · exact absurd (List.max?_eq_none_iff.1 hm) h
  · exact List.max?_eq_some_iff.1 hm

theorem listMean_bounds {xs : List ℝ} (h : xs ≠ []) {a b : ℝ} (ha : ∀ x ∈ xs, a ≤ x) (hb : ∀ x ∈ xs, x ≤ b) :
    a ≤ listMean xs ∧ listMean xs ≤ b := by
  have hl : (0 : ℝ) < xs.length := by exact_mod_cast List.length_pos_iff.2 h
  unfold listMean
  rw [le_div_iff₀ hl, div_le_iff₀ hl]
  have e1 := List.card_nsmul_le_sum xs a ha
  have e2 := List.sum_le_card_nsmul xs b hb
  simp only [nsmul_eq_mul] at e1 e2
  constructor <;> linarith

/-- **C118, range.** After every history: if a file with rates is there, the rate of the stream and the mean in the file
are between the minimum and the maximum in the file, and these are rates of the stream at some point of the run. -/
theorem C118_range (c : Cfg) (w : World) (h : Reachable c w) (name : Name) (f : File) (hf : w.dir.files name = some f)
    (t : ℕ) :
    (f.min t ≤ streamRate c name t ∧ streamRate c name t ≤ f.max t) ∧ (f.min t ≤ f.mean t ∧ f.mean t ≤ f.max t) ∧
      (∃ k, 0 < k ∧ k ≤ c.total ∧ f.min t = c.rate name k t) ∧ (∃ k, 0 < k ∧ k ≤ c.total ∧ f.max t = c.rate name k t) := by
  obtain ⟨j, hj, rfl⟩ := (inv_reachable c h).2.1 name f hf
  have hmem := mem_rowsFrom c name hj t
  have hne : (rowsFrom c name j c.total).map (· t) ≠ [] := List.ne_nil_of_mem hmem
  obtain ⟨hm1, hm2⟩ := min_getD hne
  obtain ⟨hM1, hM2⟩ := max_getD hne
  rw [← rate_total]
  refine ⟨⟨hm2 _ hmem, hM2 _ hmem⟩, listMean_bounds hne hm2 hM2, ?_, ?_⟩
  · obtain ⟨m, h1, h2, h3⟩ := (mem_rowsFrom_iff c name j c.total t _).1 hm1
    exact ⟨m, by omega, h2, h3⟩
  · obtain ⟨m, h1, h2, h3⟩ := (mem_rowsFrom_iff c name j c.total t _).1 hM1
    exact ⟨m, by omega, h2, h3⟩

/-- **C118, what holds for the mean.** If a step costs the same in all batches, the mean in the file is the rate of the
stream and the deviation is zero, after every history. -/
theorem C118_mean_partial (c : Cfg) (hsize : 0 < c.size) (w : World) (h : Reachable c w) (name : Name) (f : File)
    (hf : w.dir.files name = some f) (t : ℕ) (hc : ∀ i < c.total, c.bytes name i t = c.bytes name 0 t) :
    f.mean t = streamRate c name t ∧ f.stdd t = 0 ∧ f.min t = streamRate c name t ∧ f.max t = streamRate c name t := by
  have hrange := C118_range c w h name f hf t
  have hall : ∀ k, 0 < k → k ≤ c.total → c.rate name k t = 8 * (c.bytes name 0 t : ℝ) / c.size := by
    intro k hk hk'
    unfold Cfg.rate
    rw [sum_congr rfl (g := fun _ => (c.bytes name 0 t : ℝ)) fun i hi => by
      rw [hc i (by have := mem_range.1 hi; omega)]]
    rw [sum_const, card_range, nsmul_eq_mul]
    have : (k : ℝ) ≠ 0 := by exact_mod_cast hk.ne'
    have : (c.size : ℝ) ≠ 0 := by exact_mod_cast hsize.ne'
    field_simp
  obtain ⟨_, _, ⟨k, hk, hk', hmin⟩, ⟨l, hl, hl', hmax⟩⟩ := hrange
  obtain ⟨⟨a1, a2⟩, ⟨a3, a4⟩, _⟩ := C118_range c w h name f hf t
  rw [hall k hk hk'] at hmin
  rw [hall l hl hl'] at hmax
  have hs : streamRate c name t = 8 * (c.bytes name 0 t : ℝ) / c.size := by linarith
  have hm : f.mean t = 8 * (c.bytes name 0 t : ℝ) / c.size := by linarith
  refine ⟨by linarith, ?_, by linarith, by linarith⟩
  obtain ⟨j, hj, rfl⟩ := (inv_reachable c h).2.1 name f hf
  change Real.sqrt _ = 0
  rw [Real.sqrt_eq_zero']
  have : ((rowsFrom c name j c.total).map fun r => (r t - listMean ((rowsFrom c name j c.total).map (· t))) ^ 2) =
      (rowsFrom c name j c.total).map fun _ => 0 := by
    apply List.map_congr_left
    intro r hr
    obtain ⟨i, hi, rfl⟩ := List.mem_map.1 hr
    have := List.mem_range.1 hi
    rw [hall (j + i + 1) (by omega) (by omega), ← hm]
    change (listMean _ - listMean _) ^ 2 = 0
    simp
  rw [this]
  simp [listMean]

/-- Encoding from batch `j` to batch `k`. -/
theorem encode_to (c : Cfg) (d : Dir) {j k : ℕ} (hjk : j ≤ k) (hk : k ≤ c.total) :
    ∃ d' : Dir, d'.files = d.files ∧ (j < k → c.total ≤ k ∨ c.save k = true → d'.ckpt = k) ∧
      Relation.ReflTransGen (Step c) ⟨d, .encoding j fun _ => []⟩ ⟨d', .encoding k fun name => rowsFrom c name j k⟩ := by
  induction k, hjk using Nat.le_induction with
  | base =>
    refine ⟨d, rfl, fun h => absurd h (lt_irrefl _), ?_⟩
    have : (fun name => rowsFrom c name j j) = fun _ => [] := by funext n; simp [rowsFrom]
    rw [this]
  | succ k hjk ih =>
    obtain ⟨d', hd, -, hr⟩ := ih (by omega)
    have := hr.tail (Step.batch d' k _ (by omega))
    simp only [← rowsFrom_succ c _ hjk] at this
    exact ⟨{ d' with ckpt := if c.total ≤ k + 1 ∨ c.save (k + 1) = true then k + 1 else d'.ckpt }, hd,
      fun _ h => if_pos h, this⟩

/-- The start in an empty directory, up to batch `k`. -/
theorem encode_first (c : Cfg) (h0 : 0 < c.total) {k : ℕ} (hk : k ≤ c.total) :
    ∃ d : Dir, d.files = (fun _ => none) ∧ (0 < k → c.total ≤ k ∨ c.save k = true → d.ckpt = k) ∧
      Reachable c ⟨d, .encoding k fun name => rowsFrom c name 0 k⟩ := by
  obtain ⟨d, hd, hc, hr⟩ := encode_to c {} (Nat.zero_le k) hk
  exact ⟨d, hd, hc, .head (.startEncode {} .idle (Or.inl rfl) h0) hr⟩

/-- A run without a crash from an empty directory. -/
theorem run_to_end (c : Cfg) (h0 : 0 < c.total) :
    ∃ w, Reachable c w ∧ w.proc = .done ∧ ∀ name, w.dir.files name = some (summary (rowsFrom c name 0 c.total)) := by
  obtain ⟨d, hd, -, hr⟩ := encode_first c h0 le_rfl
  refine ⟨_, (hr.tail (.writePush d c.total _ (lt_irrefl _))).tail (.writePop _ _), rfl, fun name => ?_⟩
  cases name <;> simp

theorem harmonic_swap (b : ℕ → ℝ) (K : ℕ) :
    ∑ k ∈ range K, (∑ i ∈ range (k + 1), b i) / ((k : ℝ) + 1) =
      ∑ i ∈ range K, b i * ∑ k ∈ Ico i K, 1 / ((k : ℝ) + 1) := by
  simp only [sum_div, mul_sum]
  rw [range_eq_Ico, sum_sigma', sum_sigma']
  refine sum_bij' (fun p _ => ⟨p.2, p.1⟩) (fun p _ => ⟨p.2, p.1⟩) ?_ ?_ ?_ ?_ ?_
  · rintro ⟨a, b⟩ h
    simp only [mem_sigma, mem_Ico, mem_range] at h ⊢
    omega
  · rintro ⟨a, b⟩ h
    simp only [mem_sigma, mem_Ico, mem_range] at h ⊢
    omega
  · rintro ⟨a, b⟩ _; rfl
  · rintro ⟨a, b⟩ _; rfl
  · rintro ⟨a, b⟩ _
    simp only
    ring

theorem listSum_rowsFrom (c : Cfg) (name : Name) (j k t : ℕ) :
    ((rowsFrom c name j k).map (· t)).sum = ∑ i ∈ range (k - j), c.rate name (j + i + 1) t := by
  unfold rowsFrom
  rw [List.map_map, ← List.sum_toFinset]
  · simp [List.toFinset_range]
  · exact List.nodup_range

/-- **C118, violated: the mean.** The run without interruption completes and writes as "mean" the mean of the rates of the
growing stream, in which batch `i` counts `1/(i+1) + ... + 1/total` times: the first batch most, the last one hardly. -/
theorem C118_violated_weights (c : Cfg) (h0 : 0 < c.total) :
    ∃ w, Reachable c w ∧ w.proc = .done ∧ ∀ name, ∃ f, w.dir.files name = some f ∧ ∀ t,
      f.mean t = (∑ i ∈ range c.total, 8 * (c.bytes name i t : ℝ) * ∑ k ∈ Ico i c.total, 1 / ((k : ℝ) + 1)) /
        (c.size * c.total) := by
  obtain ⟨w, h, hd, hf⟩ := run_to_end c h0
  refine ⟨w, h, hd, fun name => ⟨_, hf name, fun t => ?_⟩⟩
  change listMean _ = _
  unfold listMean
  rw [listSum_rowsFrom]
  have hlen : ((rowsFrom c name 0 c.total).map (· t)).length = c.total := by simp [rowsFrom]
  rw [hlen, ← harmonic_swap]
  simp only [Cfg.rate, Nat.sub_zero, zero_add]
  rw [← div_div]
  congr 1
  rw [sum_div]
  refine sum_congr rfl fun k _ => ?_
  rw [← mul_sum, div_div]
  push_cast
  rfl

/-- In particular, if only the first of several batches costs anything in a step, the mean is above the rate. -/
theorem C118_violated_mean (c : Cfg) (h2 : 2 ≤ c.total) (hsize : 0 < c.size) (name : Name) (t : ℕ)
    (hpos : 0 < c.bytes name 0 t) (hz : ∀ i, 0 < i → c.bytes name i t = 0) :
    ∃ w f, Reachable c w ∧ w.proc = .done ∧ w.dir.files name = some f ∧ streamRate c name t < f.mean t := by
  obtain ⟨w, h, hd, hf⟩ := C118_violated_weights c (by omega)
  obtain ⟨f, hf, hm⟩ := hf name
  refine ⟨w, f, h, hd, hf, ?_⟩
  rw [hm, streamRate]
  have hs : (0 : ℝ) < c.size * c.total := by
    have h1 : (0 : ℝ) < c.size := by exact_mod_cast hsize
    have h2 : (0 : ℝ) < c.total := by exact_mod_cast (show 0 < c.total by omega)
    positivity
  apply div_lt_div_of_pos_right _ hs
  have hb : (0 : ℝ) < c.bytes name 0 t := by exact_mod_cast hpos
  obtain ⟨K, hK⟩ : ∃ K, c.total = K + 2 := ⟨c.total - 2, by omega⟩
  rw [hK]
  have e1 : ∑ i ∈ range (K + 2), 8 * (c.bytes name i t : ℝ) = 8 * (c.bytes name 0 t : ℝ) := by
    rw [sum_range_succ', sum_eq_zero fun i _ => by rw [hz (i + 1) (by omega)]; simp]
    simp
  have e2 : ∑ i ∈ range (K + 2), 8 * (c.bytes name i t : ℝ) * ∑ k ∈ Ico i (K + 2), 1 / ((k : ℝ) + 1) =
      8 * (c.bytes name 0 t : ℝ) * ∑ k ∈ Ico 0 (K + 2), 1 / ((k : ℝ) + 1) := by
    rw [sum_range_succ', sum_eq_zero fun i _ => by rw [hz (i + 1) (by omega)]; simp]
    simp
  rw [e1, e2]
  have hh : 1 < ∑ k ∈ Ico 0 (K + 2), 1 / ((k : ℝ) + 1) := by
    rw [← range_eq_Ico, sum_range_succ', sum_range_succ']
    have : 0 ≤ ∑ k ∈ range K, 1 / (((k + 1 + 1 : ℕ) : ℝ) + 1) := sum_nonneg fun i _ => by positivity
    norm_num at this ⊢
    linarith
  nlinarith

example : ∃ w f, Reachable ⟨2, fun _ => false, fun _ i _ => if i = 0 then 4 else 0, 1⟩ w ∧ w.proc = .done ∧
    w.dir.files .push = some f ∧ streamRate ⟨2, fun _ => false, fun _ i _ => if i = 0 then 4 else 0, 1⟩ .push 0 < f.mean 0 :=
  C118_violated_mean _ (by decide) (by decide) .push 0 (by decide) fun i hi => if_neg hi.ne'

/-- **C118, violated: interrupted runs.** If the run is killed after a checkpoint at batch `j` and started again, the files
cover the rates from batch `j + 1` on only. -/
theorem C118_violated_resume (c : Cfg) {j : ℕ} (h0 : 0 < j) (hj : j < c.total) (hsave : c.save j = true) :
    ∃ w, Reachable c w ∧ w.proc = .done ∧ ∀ name, ∃ f, w.dir.files name = some f ∧ ∀ t,
      f.mean t * (c.total - j) = ∑ k ∈ Ioc j c.total, c.rate name k t := by
  obtain ⟨d, -, hck, hr⟩ := encode_first c (by omega) hj.le
  have hd := hck h0 (Or.inr hsave)
  have hstart := (hr.tail (.crash _ _)).tail (.startEncode d .idle (Or.inl rfl) (by omega))
  rw [hd] at hstart
  obtain ⟨d', -, -, hr2⟩ := encode_to c d hj.le le_rfl
  have hr' := hstart.trans hr2
  refine ⟨_, (hr'.tail (.writePush d' c.total _ (lt_irrefl _))).tail (.writePop _ _), rfl, fun name => ?_⟩
  refine ⟨summary (rowsFrom c name j c.total), by cases name <;> simp, fun t => ?_⟩
  change listMean _ * _ = _
  unfold listMean
  rw [listSum_rowsFrom]
  have hlen : (((rowsFrom c name j c.total).map (· t)).length : ℝ) = c.total - j := by
    simp [rowsFrom, Nat.cast_sub hj.le]
  have hne : ((c.total : ℝ) - j) ≠ 0 := by
    have : (j : ℝ) < c.total := by exact_mod_cast hj
    linarith
  rw [hlen, div_mul_cancel₀ _ hne]
  rw [← Finset.Ico_add_one_add_one_eq_Ioc, sum_Ico_eq_sum_range]
  refine sum_congr (by congr 1; omega) fun i _ => by congr 1; omega

/-- **C118, violated: missing files.** If the run is killed after its last checkpoint and before the files, it reports
completion when started again, and however often it is started, there are no files with the rates. -/
theorem C118_violated_missing (c : Cfg) (h0 : 0 < c.total) :
    ∃ w, Reachable c w ∧ w.proc = .done ∧ ∀ w', Relation.ReflTransGen (Step c) w w' →
      (∀ name, w'.dir.files name = none) ∧ (w'.proc = .idle ∨ w'.proc = .done) := by
  obtain ⟨d, hd, hck, hr⟩ := encode_first c h0 le_rfl
  have hck := hck h0 (Or.inl le_rfl)
  have hstart := (hr.tail (.crash _ _)).tail (.startDone d .idle (Or.inl rfl) (by omega))
  refine ⟨_, hstart, rfl, fun w' hw' => ?_⟩
  suffices h : w'.dir = d ∧ (w'.proc = .idle ∨ w'.proc = .done) by
    refine ⟨fun name => ?_, h.2⟩
    rw [h.1, hd]
  induction hw' with
  | refl => exact ⟨rfl, Or.inr rfl⟩
  | tail _ hs ih =>
    obtain ⟨e, hp⟩ := ih
    cases hs with
    | startEncode d' p hp' hlt => dsimp only at e; subst e; omega
    | startDone d' p hp' hlt => exact ⟨e, Or.inr rfl⟩
    | batch d' k rows hlt => rcases hp with h | h <;> cases h
    | writePush d' k rows hlt => rcases hp with h | h <;> cases h
    | writePop d' rows => rcases hp with h | h <;> cases h
    | crash d' p => exact ⟨e, Or.inl rfl⟩

end Verif.Script.RateFiles

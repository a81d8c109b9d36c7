import Verif.Script.Vlb
import Mathlib.Tactic.Ring
import Mathlib.Tactic.FieldSimp
import Mathlib.Tactic.Linarith
import Mathlib.Data.List.Nodup

/-!
C96: what `compute_vlb.py` reports.
-/

namespace Verif.Script.Vlb

variable (T W B : ℕ) (batch : ℕ → ℕ → List Sample)

/-- All batches of all processes have the same size. -/
def Sized : Prop := ∀ k r, (batch k r).length = B

/-- The samples of the first `k` iterations, of all processes. -/
def samples (k : ℕ) : List Sample := (List.range k).flatMap fun t => (List.range W).flatMap fun r => batch t r

theorem samples_succ (k : ℕ) : samples W batch (k + 1) = samples W batch k ++ (List.range W).flatMap fun r => batch k r := by
  unfold samples
  rw [List.range_succ, List.flatMap_append]
  simp

theorem length_ranks (h : Sized B batch) (k : ℕ) : ∀ V, ((List.range V).flatMap fun r => batch k r).length = B * V
  | 0 => rfl
  | V + 1 => by
    rw [List.range_succ, List.flatMap_append, List.length_append, length_ranks h k V]
    simp [h k V]
    ring

theorem length_samples (h : Sized B batch) : ∀ k, (samples W batch k).length = k * (B * W)
  | 0 => by simp [samples]
  | k + 1 => by
    rw [samples_succ, List.length_append, length_samples h k, length_ranks B batch h k W]
    ring

theorem run_complete (h : Sized B batch) : ∀ k, (run T W batch k).complete = k * (B * W)
  | 0 => by show 0 = _; simp
  | k + 1 => by
    show (run T W batch k).complete + (batch k 0).length * W = _
    rw [run_complete h k, h]
    ring

/-- **C96, number of samples.** The loop ends, after the least number of iterations that reaches `num_samples`: the number
of evaluated samples is the least multiple of the effective batch size that is not below it. -/
theorem C96_count (h : Sized B batch) (hB : 0 < B) (hW : 0 < W) (n : ℕ) :
    ∃ k, EndsAfter T W batch n k ∧ (∀ k', EndsAfter T W batch n k' → k' = k) ∧
      (run T W batch k).complete = k * (B * W) ∧ n ≤ k * (B * W) ∧ k * (B * W) < n + B * W ∧
      (B * W ∣ n → k * (B * W) = n) := by
  have hp : 0 < B * W := Nat.mul_pos hB hW
  have hk1 : n ≤ (n + B * W - 1) / (B * W) * (B * W) := by
    have := Nat.lt_div_mul_add hp (a := n + B * W - 1)
    omega
  have hk2 : (n + B * W - 1) / (B * W) * (B * W) < n + B * W := by
    have := Nat.div_mul_le_self (n + B * W - 1) (B * W)
    omega
  have hj : ∀ j, j < (n + B * W - 1) / (B * W) → j * (B * W) < n := by
    intro j hj
    have h1 : (j + 1) * (B * W) ≤ (n + B * W - 1) / (B * W) * (B * W) := Nat.mul_le_mul_right _ hj
    have h2 : (j + 1) * (B * W) = j * (B * W) + B * W := by ring
    omega
  refine ⟨(n + B * W - 1) / (B * W), ⟨by rw [run_complete T W B batch h]; exact hk1, fun j hj' => by
    rw [run_complete T W B batch h]; exact hj j hj'⟩, ?_, run_complete T W B batch h _, hk1, hk2, ?_⟩
  · rintro k' ⟨h1, h2⟩
    rw [run_complete T W B batch h] at h1
    rcases Nat.lt_trichotomy k' ((n + B * W - 1) / (B * W)) with hlt | heq | hgt
    · have := hj k' hlt
      omega
    · exact heq
    · have := h2 _ hgt
      rw [run_complete T W B batch h] at this
      omega
  · rintro ⟨c, hc⟩
    have e : (n + B * W - 1) / (B * W) = c := by
      rw [hc]
      rw [Nat.div_eq_iff hp]
      constructor
      · have : c * (B * W) = B * W * c := by ring
        omega
      · have : c * (B * W) = B * W * c := by ring
        omega
    rw [e, hc]
    ring

/-- **C96, violated: dropping samples.** `setup` announces that samples are dropped if `num_samples` is not a multiple of the
effective batch size; in fact more samples than asked for are evaluated. -/
theorem C96_violated_dropping (h : Sized B batch) (hB : 0 < B) (hW : 0 < W) (n k : ℕ) (hn : ¬ B * W ∣ n)
    (hk : EndsAfter T W batch n k) : n < (run T W batch k).complete := by
  rcases Nat.lt_or_eq_of_le hk.1 with hlt | heq
  · exact hlt
  · rw [run_complete T W B batch h] at heq
    exact absurd ⟨k, by rw [heq]; ring⟩ hn

theorem sum_ranks (h : Sized B batch) (hB : 0 < B) (k : ℕ) : ∀ V : ℕ,
    ((List.range V).map fun r => mean ((batch k r).map Sample.total) / W).sum =
      (((List.range V).flatMap fun r => batch k r).map Sample.total).sum / (B * W)
  | 0 => by simp
  | V + 1 => by
    rw [List.range_succ, List.map_append, List.sum_append, sum_ranks h hB k V, List.flatMap_append, List.map_append,
      List.sum_append]
    have e : mean ((batch k V).map Sample.total) = ((batch k V).map Sample.total).sum / B := by
      unfold mean
      rw [List.length_map, h k V]
    simp only [List.map_cons, List.map_nil, List.sum_cons, List.sum_nil, add_zero, List.flatMap_cons, List.flatMap_nil,
      List.append_nil]
    rw [e]
    have hB' : (B : ℝ) ≠ 0 := by exact_mod_cast hB.ne'
    rcases eq_or_ne (W : ℝ) 0 with hw | hw
    · rw [hw]; simp
    · field_simp

theorem run_bpds (h : Sized B batch) (hB : 0 < B) : ∀ k, (run T W batch k).bpds.length = k ∧
    (run T W batch k).bpds.sum = ((samples W batch k).map Sample.total).sum / (B * W)
  | 0 => ⟨rfl, by show (0 : ℝ) = _; simp [samples]⟩
  | k + 1 => by
    obtain ⟨h1, h2⟩ := run_bpds h hB k
    have e : (run T W batch (k + 1)).bpds = (run T W batch k).bpds ++
      [((List.range W).map fun r => mean ((batch k r).map Sample.total) / W).sum] := rfl
    refine ⟨by rw [e, List.length_append, h1]; rfl, ?_⟩
    rw [e, List.sum_append, h2, samples_succ, List.map_append, List.sum_append, List.sum_cons, List.sum_nil, add_zero,
      sum_ranks W B batch h hB k W]
    ring

/-- **C96, reported bound.** The reported `total_bpd` is the mean over all samples of all processes. -/
theorem C96_total (h : Sized B batch) (hB : 0 < B) (k : ℕ) :
    reported (run T W batch k) = ((samples W batch k).map Sample.total).sum / (samples W batch k).length := by
  obtain ⟨h1, h2⟩ := run_bpds T W B batch h hB k
  unfold reported mean
  rw [h1, h2, length_samples W B batch h k]
  push_cast
  rw [div_div]
  congr 1
  ring

/-- What a row of a saved array should be: the terms of a sample by time step from 0 on, and for the bound the prior term
at the end. -/
def Row (s : Sample) : Metric → List ℝ
  | .vb => (List.range T).map s.vb ++ [s.prior]
  | .mse => (List.range T).map s.mse
  | .xstartMse => (List.range T).map s.xstartMse

theorem reverse_descending (f : ℕ → ℝ) : (descending T f).reverse = (List.range T).map f := by
  unfold descending
  rw [← List.map_reverse, List.reverse_reverse]

theorem batchRow_reverse (s : Sample) (m : Metric) : (batchRow T s m).reverse = Row T s m := by
  cases m with
  | vb =>
    show (s.prior :: descending T s.vb).reverse = _
    rw [List.reverse_cons, reverse_descending]
    rfl
  | mse => exact reverse_descending T _
  | xstartMse => exact reverse_descending T _

theorem run_terms (m : Metric) : ∀ k, ((run T W batch k).terms m).flatten = (samples W batch k).map fun s => batchRow T s m
  | 0 => rfl
  | k + 1 => by
    have e : (run T W batch (k + 1)).terms m = (run T W batch k).terms m ++
      (List.range W).map fun r => (batch k r).map fun x => batchRow T x m := rfl
    rw [e, List.flatten_append, run_terms m k, samples_succ, List.map_append]
    congr 1
    rw [← List.flatMap_def, List.map_flatMap]

/-- **C96, saved terms.** If at least one sample is asked for, the assertion on the shape holds and the saved arrays have one
row per evaluated sample of any process; column `t` has the terms of time step `t`, the last column of the bound the prior. -/
theorem C96_terms (h : Sized B batch) (hW : 0 < W) (k : ℕ) (hk : 0 < k) (m : Metric) :
    terms T (run T W batch k) m = .ok ((samples W batch k).map fun s => Row T s m) := by
  have hne : (run T W batch k).terms m ≠ [] := by
    obtain ⟨k, rfl⟩ := Nat.exists_eq_succ_of_ne_zero hk.ne'
    have e : (run T W batch (k + 1)).terms m = (run T W batch k).terms m ++
      (List.range W).map fun r => (batch k r).map fun x => batchRow T x m := rfl
    rw [e]
    intro he
    have := congrArg List.length he
    simp at this
    omega
  have hrows : ((run T W batch k).terms m).flatten.map List.reverse = (samples W batch k).map fun s => Row T s m := by
    rw [run_terms, List.map_map]
    apply List.map_congr_left
    intro s _
    exact batchRow_reverse T s m
  unfold terms
  cases hc : (run T W batch k).terms m with
  | nil => exact absurd hc hne
  | cons a l =>
    rw [hc] at hrows
    simp only [hrows]
    rw [if_pos]
    refine ⟨by rw [List.length_map, length_samples W B batch h, run_complete T W B batch h], fun r hr => ?_⟩
    obtain ⟨s, -, rfl⟩ := List.mem_map.1 hr
    cases m <;> simp [Row]

/-- **C96, nothing asked for.** With `num_samples = 0` nothing is evaluated and saving raises. -/
theorem C96_zero (m : Metric) : EndsAfter T W batch 0 0 ∧ terms T (run T W batch 0) m = .error .value :=
  ⟨⟨Nat.zero_le _, fun j hj => absurd hj (Nat.not_lt_zero j)⟩, rfl⟩

theorem sum_columns (l : List Sample) (f : Sample → ℕ → ℝ) : ∀ T : ℕ,
    (l.map fun s => ((List.range T).map (f s)).sum).sum = ((List.range T).map fun t => (l.map fun s => f s t).sum).sum
  | 0 => by simp
  | T + 1 => by
    simp only [List.range_succ, List.map_append, List.sum_append, List.map_cons, List.map_nil, List.sum_cons, List.sum_nil,
      add_zero]
    rw [← sum_columns l f T]
    induction l with
    | nil => simp
    | cons a l ih =>
      simp only [List.map_cons, List.sum_cons]
      rw [ih]
      ring

/-- **C96, consistency.** The reported bound is the sum of the column means of the saved terms of the bound: over all time
steps, and the prior. -/
theorem C96_sum (h : Sized B batch) (hB : 0 < B) (k : ℕ)
    (htotal : ∀ t r, ∀ s ∈ batch t r, s.total = s.prior + ((List.range T).map s.vb).sum) :
    reported (run T W batch k) = mean ((samples W batch k).map Sample.prior) +
      ((List.range T).map fun t => mean ((samples W batch k).map fun s => s.vb t)).sum := by
  rw [C96_total T W B batch h hB k]
  have e1 : (samples W batch k).map Sample.total =
      (samples W batch k).map fun s => s.prior + ((List.range T).map s.vb).sum := by
    apply List.map_congr_left
    intro s hs
    unfold samples at hs
    obtain ⟨t, -, hs⟩ := List.mem_flatMap.1 hs
    obtain ⟨r, -, hs⟩ := List.mem_flatMap.1 hs
    exact htotal t r s hs
  have e2 : ∀ (l : List Sample) (g : Sample → ℝ), (l.map fun s => s.prior + g s).sum = (l.map Sample.prior).sum + (l.map g).sum := by
    intro l g
    induction l with
    | nil => simp
    | cons a l ih =>
      simp only [List.map_cons, List.sum_cons]
      rw [ih]
      ring
  have e3 : ∀ (ts : List ℕ) (n : ℝ), (ts.map fun t => ((samples W batch k).map fun s => s.vb t).sum / n).sum =
      (ts.map fun t => ((samples W batch k).map fun s => s.vb t).sum).sum / n := by
    intro ts n
    induction ts with
    | nil => simp
    | cons a l ih =>
      simp only [List.map_cons, List.sum_cons]
      rw [ih]
      ring
  rw [e1, e2, sum_columns _ (fun s => s.vb) T]
  unfold mean
  simp only [List.length_map]
  rw [e3]
  ring

/-! ### Which images -/

/-- The number of images of process `r`. -/
theorem shard_spec (n r j : ℕ) (hW : 0 < W) (hr : r < W) : j < (n - r + (W - 1)) / W ↔ r + W * j < n := by
  rw [Nat.lt_iff_add_one_le, Nat.le_div_iff_mul_le hW]
  have : (j + 1) * W = W * j + W := by ring
  rw [this]
  omega

/-- **C96, images.** As long as no process comes to the end of its images, the evaluated images are different images of the
data. -/
theorem C96_distinct_partial (n k : ℕ) (hW : 0 < W) (hB : 0 < B) (hk : k * (B * W) ≤ n) :
    (evaluated n W B k).Nodup ∧ (∀ p ∈ evaluated n W B k, p < n) ∧ (evaluated n W B k).length = k * (B * W) := by
  have hshard : ∀ r < W, k * B ≤ (n - r + (W - 1)) / W := by
    intro r hr
    rw [Nat.le_div_iff_mul_le hW]
    have : k * B * W = k * (B * W) := by ring
    rw [this]
    omega
  have hpos : ∀ r < W, ∀ t < k, ∀ i, position n W B r t i = r + W * (B * t + i) := by
    intro r hr t ht i
    unfold position
    have : k ≤ (n - r + (W - 1)) / W / B := by
      rw [Nat.le_div_iff_mul_le hB]
      exact hshard r hr
    simp only
    rw [Nat.mod_eq_of_lt (by omega)]
  have hinj : ∀ r < W, ∀ t, ∀ i < B, ∀ r' < W, ∀ t', ∀ i' < B, r + W * (B * t + i) = r' + W * (B * t' + i') →
      r = r' ∧ t = t' ∧ i = i' := by
    intro r hr t i hi r' hr' t' i' hi' e
    have e1 : r = r' := by
      have := congrArg (· % W) e
      simpa [Nat.add_mul_mod_self_left, Nat.mod_eq_of_lt hr, Nat.mod_eq_of_lt hr'] using this
    subst e1
    have e2 : B * t + i = B * t' + i' := Nat.eq_of_mul_eq_mul_left hW (by omega)
    have e3 : i = i' := by
      have := congrArg (· % B) e2
      simpa [Nat.mul_add_mod, Nat.mod_eq_of_lt hi, Nat.mod_eq_of_lt hi'] using this
    subst e3
    exact ⟨rfl, Nat.eq_of_mul_eq_mul_left hB (by omega), rfl⟩
  refine ⟨?_, ?_, ?_⟩
  · unfold evaluated
    rw [List.nodup_flatMap]
    refine ⟨fun t ht => ?_, ?_⟩
    · rw [List.nodup_flatMap]
      refine ⟨fun r hr => ?_, ?_⟩
      · refine List.Nodup.map_on ?_ List.nodup_range
        intro i hi i' hi' e
        rw [hpos r (List.mem_range.1 hr) t (List.mem_range.1 ht), hpos r (List.mem_range.1 hr) t (List.mem_range.1 ht)] at e
        exact (hinj r (List.mem_range.1 hr) t i (List.mem_range.1 hi) r (List.mem_range.1 hr) t i' (List.mem_range.1 hi') e).2.2
      · refine List.Nodup.pairwise_of_forall_ne List.nodup_range ?_
        intro r hr r' hr' hne
        show List.Disjoint _ _
        intro p hp hp'
        obtain ⟨i, hi, rfl⟩ := List.mem_map.1 hp
        obtain ⟨i', hi', e⟩ := List.mem_map.1 hp'
        rw [hpos r (List.mem_range.1 hr) t (List.mem_range.1 ht), hpos r' (List.mem_range.1 hr') t (List.mem_range.1 ht)] at e
        exact hne (hinj r' (List.mem_range.1 hr') t i' (List.mem_range.1 hi') r (List.mem_range.1 hr) t i
          (List.mem_range.1 hi) e).1.symm
    · refine List.Nodup.pairwise_of_forall_ne List.nodup_range ?_
      intro t ht t' ht' hne
      show List.Disjoint _ _
      intro p hp hp'
      obtain ⟨r, hr, hp⟩ := List.mem_flatMap.1 hp
      obtain ⟨r', hr', hp'⟩ := List.mem_flatMap.1 hp'
      obtain ⟨i, hi, rfl⟩ := List.mem_map.1 hp
      obtain ⟨i', hi', e⟩ := List.mem_map.1 hp'
      rw [hpos r (List.mem_range.1 hr) t (List.mem_range.1 ht), hpos r' (List.mem_range.1 hr') t' (List.mem_range.1 ht')] at e
      exact hne (hinj r' (List.mem_range.1 hr') t' i' (List.mem_range.1 hi') r (List.mem_range.1 hr) t i
        (List.mem_range.1 hi) e).2.1.symm
  · intro p hp
    unfold evaluated at hp
    obtain ⟨t, ht, hp⟩ := List.mem_flatMap.1 hp
    obtain ⟨r, hr, hp⟩ := List.mem_flatMap.1 hp
    obtain ⟨i, hi, rfl⟩ := List.mem_map.1 hp
    rw [List.mem_range] at ht hr hi
    rw [hpos r hr t ht, ← shard_spec W n r _ hW hr]
    have h1 := hshard r hr
    have h2 : (t + 1) * B ≤ k * B := Nat.mul_le_mul_right _ ht
    have h3 : (t + 1) * B = B * t + B := by ring
    omega
  · unfold evaluated
    simp [List.length_flatMap, Nat.mul_comm W B]

/-- **C96, violated: images again.** If more batches are asked for than the loader of a process has, images are evaluated
again. -/
theorem C96_violated_again (n : ℕ) (hB : 0 < B) (r : ℕ) (hr : r < W) (k b : ℕ) (hb : b = (n - r + (W - 1)) / W / B)
    (hpos : 0 < b) (hk : b < k) : ¬ (evaluated n W B k).Nodup := by
  intro hn
  unfold evaluated at hn
  rw [List.nodup_flatMap] at hn
  have hp := hn.2
  rw [List.pairwise_iff_getElem] at hp
  have hd := hp 0 b (by simp; omega) (by simpa using hk) hpos
  simp only [List.getElem_range] at hd
  have hd' : List.Disjoint ((List.range W).flatMap fun r => (List.range B).map (position n W B r 0))
    ((List.range W).flatMap fun r => (List.range B).map (position n W B r b)) := hd
  have e : position n W B r b 0 = position n W B r 0 0 := by
    unfold position
    simp only
    rw [← hb, Nat.mod_self, Nat.zero_mod]
  exact hd' (List.mem_flatMap.2 ⟨r, List.mem_range.2 hr, List.mem_map.2 ⟨0, List.mem_range.2 hB, rfl⟩⟩)
    (List.mem_flatMap.2 ⟨r, List.mem_range.2 hr, List.mem_map.2 ⟨0, List.mem_range.2 hB, e⟩⟩)

/-- Ten images, two processes, batches of two: after two iterations eight different images, in the third images again
(image 8 and 9 never). -/
example : evaluated 10 2 2 2 = [0, 2, 1, 3, 4, 6, 5, 7] ∧ evaluated 10 2 2 3 = [0, 2, 1, 3, 4, 6, 5, 7, 0, 2, 1, 3] := by
  decide +kernel

/-- Batches that meet the hypotheses: two processes, one sample each. -/
example : Sized 1 (fun k r => [⟨k + r + 3, k, fun _ => r, fun _ => 0, fun _ => 0⟩]) := fun _ _ => rfl

end Verif.Script.Vlb

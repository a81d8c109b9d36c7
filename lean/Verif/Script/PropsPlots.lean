import Verif.Script.Plots
import Mathlib.Tactic.Ring
import Mathlib.Tactic.Linarith
import Mathlib.Tactic.Positivity
import Mathlib.Tactic.NormNum

/-!
# C142: shared batch sizes, entries of the log and plots of the diffusion scripts
-/

namespace Verif.Script.Plots

/-- **C142, batch size.** A batch size is divided among `w` processes exactly if it is a multiple of `w`, and then the processes
together have it; otherwise the run does not start. -/
theorem C142_divide (x : ℤ) (w : ℕ) (hw : 0 < w) :
    (∀ q, divideByNProc x w = .ok q ↔ q * w = x) ∧ (divideByNProc x w = .error .value ↔ ∀ q : ℤ, q * w ≠ x) := by
  have hw' : (w : ℤ) ≠ 0 := by omega
  have h := Int.fmod_add_mul_fdiv x w
  have hiff : Int.fmod x w = 0 ↔ (w : ℤ) ∣ x := by
    rw [Int.dvd_iff_fmod_eq_zero]
  have key : ∀ q, divideByNProc x w = .ok q ↔ q * w = x := by
    intro q
    unfold divideByNProc
    by_cases hr : Int.fmod x w = 0
    · simp only [hr, ne_eq, not_true_eq_false, if_false, Except.ok.injEq]
      rw [hr, zero_add] at h
      constructor
      · rintro rfl
        rw [mul_comm]; exact h
      · intro hq
        exact mul_left_cancel₀ hw' (h.trans (by rw [← hq, mul_comm]))
    · simp only [ne_eq, hr, not_false_eq_true, if_true]
      constructor
      · intro h; cases h
      · intro hq
        exact absurd (hiff.2 ⟨q, by rw [← hq, mul_comm]⟩) hr
  refine ⟨key, ?_⟩
  constructor
  · intro he q hq
    rw [(key q).2 hq] at he
    cases he
  · intro hn
    rcases he : divideByNProc x w with e | q
    · cases e
      · rfl
      · unfold divideByNProc at he
        simp only at he
        split at he <;> simp at he
    · exact absurd ((key q).1 he) (hn q)

/-! ### Entries of the log -/

theorem rename_inj : ∀ a b : List Char, '/' ∉ a → '/' ∉ b → rename a = rename b → a = b
  | [], [], _, _, _ => rfl
  | [], b :: bs, _, _, h => by simp [rename] at h
  | a :: as, [], _, _, h => by simp [rename] at h
  | a :: as, b :: bs, ha, hb, h => by
    simp only [rename, List.map_cons, List.cons.injEq] at h
    simp only [List.mem_cons, not_or] at ha hb
    have h1 : a = b := by
      rcases h with ⟨h, -⟩
      split at h <;> split at h
      · rw [‹a = '_'›, ‹b = '_'›]
      · exact absurd h hb.1
      · exact absurd h.symm ha.1
      · exact h
    rw [h1, rename_inj as bs ha.2 hb.2 h.2]

theorem insert_fresh {V : Type} (d : List (List Char × V)) (k : List Char) (v : V) (h : ∀ e ∈ d, e.1 ≠ k) :
    insert d k v = d ++ [(k, v)] := by
  unfold insert
  rw [if_neg]
  simp only [List.any_eq_true, decide_eq_true_eq, not_exists, not_and]
  exact h

theorem foldl_fresh {V : Type} : ∀ (kvs d : List (List Char × V)), (kvs.map fun e => rename e.1).Nodup →
    (∀ e ∈ d, ∀ f ∈ kvs, e.1 ≠ rename f.1) →
    kvs.foldl (fun d e => insert d (rename e.1) e.2) d = d ++ kvs.map fun e => (rename e.1, e.2)
  | [], d, _, _ => by simp
  | f :: kvs, d, hn, h => by
    rw [List.map_cons, List.nodup_cons] at hn
    rw [List.foldl_cons, insert_fresh d _ _ fun e he => h e he f (by simp), foldl_fresh kvs _ hn.2]
    · simp
    · intro e he g hg
      rcases List.mem_append.1 he with he | he
      · exact h e he g (by simp [hg])
      · simp only [List.mem_cons, List.not_mem_nil, or_false] at he
        subst he
        intro heq
        exact hn.1 (List.mem_map.2 ⟨g, hg, heq.symm⟩)

/-- **C142, log.** Entries whose keys have no slash, as those of the scripts and of training, are all sent, in order, with their
values, under different keys; after `close` sending raises and nothing is sent, and closing again does nothing. -/
theorem C142_log {V : Type} (l : Logger V) (kvs : List (List Char × V)) (hd : (kvs.map Prod.fst).Nodup)
    (hs : ∀ e ∈ kvs, '/' ∉ e.1) :
    (l.run = true → ∃ entries, writekvs l kvs = .ok ⟨l.sent ++ [entries], true⟩ ∧ (entries.map Prod.fst).Nodup ∧
      List.Forall₂ (fun e f => f.2 = e.2 ∧ f.1.length = e.1.length ∧ ∀ (i : ℕ) (c : Char), e.1[i]? = some c →
        f.1[i]? = some (if c = '_' then '/' else c)) kvs entries) ∧
    (∀ kvs', writekvs (close l) kvs' = .error .runtime) ∧ (close l).sent = l.sent ∧ close (close l) = close l := by
  refine ⟨fun hr => ?_, ?_, ?_, ?_⟩
  · have hn : (kvs.map fun e => rename e.1).Nodup := by
      have : (kvs.map fun e => rename e.1) = (kvs.map Prod.fst).map rename := by rw [List.map_map]; rfl
      rw [this]
      refine List.Nodup.map_on ?_ hd
      intro a ha b hb hab
      obtain ⟨e, he, rfl⟩ := List.mem_map.1 ha
      obtain ⟨f, hf, rfl⟩ := List.mem_map.1 hb
      exact rename_inj _ _ (hs e he) (hs f hf) hab
    refine ⟨kvs.map fun e => (rename e.1, e.2), ?_, ?_, ?_⟩
    · unfold writekvs
      rw [foldl_fresh kvs [] hn (by simp)]
      simp [hr]
    · rw [List.map_map]
      exact hn
    · rw [List.forall₂_map_right_iff, List.forall₂_same]
      intro e _
      refine ⟨rfl, by simp [rename], fun i c h => ?_⟩
      simp [rename, h]
  · intro kvs'
    unfold writekvs close
    cases hr : l.run <;> simp [hr]
  · unfold close
    split <;> rfl
  · unfold close
    cases hr : l.run <;> simp [hr]

/-- **Keys with a slash can be lost**: two entries whose keys differ in `_` and `/` only become one, with the later value. -/
theorem C142_violated_merge {V : Type} (v w : V) :
    writekvs {} [(['a', '_', 'b'], v), (['a', '/', 'b'], w)] = .ok ⟨[[(['a', '/', 'b'], w)]], true⟩ := rfl

example : (([(['l', 'o', 's', 's', '_', 'q', '0'], (1 : ℕ)), (['s', 't', 'e', 'p'], 2)]).map Prod.fst).Nodup := by decide

/-! ### Plots -/

theorem mapM_ok {α β ε : Type} (f : α → Except ε β) (g : α → β) : ∀ l : List α, (∀ a ∈ l, f a = .ok (g a)) →
    l.mapM f = .ok (l.map g)
  | [], _ => rfl
  | a :: l, h => by
    rw [List.mapM_cons, h a (by simp), mapM_ok f g l fun b hb => h b (by simp [hb])]
    rfl

theorem sum_ge (lo : ℝ) : ∀ c : List ℝ, (∀ v ∈ c, lo ≤ v) → c.length * lo ≤ c.sum
  | [], _ => by simp
  | v :: c, h => by
    have h1 := h v (by simp)
    have h2 := sum_ge lo c fun w hw => h w (by simp [hw])
    rw [List.length_cons, List.sum_cons]
    push_cast
    linarith

theorem sum_le (hi : ℝ) : ∀ c : List ℝ, (∀ v ∈ c, v ≤ hi) → c.sum ≤ c.length * hi
  | [], _ => by simp
  | v :: c, h => by
    have h1 := h v (by simp)
    have h2 := sum_le hi c fun w hw => h w (by simp [hw])
    rw [List.length_cons, List.sum_cons]
    push_cast
    linarith

theorem sum_sq (lo hi a : ℝ) : ∀ c : List ℝ, (∀ v ∈ c, lo ≤ v ∧ v ≤ hi) →
    (c.map fun v => (v - a) ^ 2).sum ≤ c.sum * (hi + lo - 2 * a) + c.length * (a ^ 2 - hi * lo)
  | [], _ => by simp
  | v :: c, h => by
    have h1 := h v (by simp)
    have h2 := sum_sq lo hi a c fun w hw => h w (by simp [hw])
    have h3 := mul_nonneg (sub_nonneg.2 h1.2) (sub_nonneg.2 h1.1)
    rw [List.map_cons, List.length_cons, List.sum_cons, List.sum_cons]
    push_cast
    nlinarith

theorem sum_sq_nonneg (a : ℝ) (c : List ℝ) : 0 ≤ (c.map fun v => (v - a) ^ 2).sum := by
  refine List.sum_nonneg ?_
  intro x hx
  obtain ⟨v, -, rfl⟩ := List.mem_map.1 hx
  positivity

/-- **C142, plot.** For data with at least one row there are three traces: the mean over the rows, and two closed outlines that
go through the steps upwards on their upper side and back on their lower side: mean plus and minus standard deviation, and largest
and smallest value. The mean is within the range; the deviation is at most half the range. -/
theorem C142_plot (T : ℕ) (data : List (List ℝ)) (hn : data ≠ []) :
    ∃ avg dev top bottom : ℕ → ℝ, plot2 T data = .ok [
      ⟨"mean", List.range T, (List.range T).map avg, false⟩,
      ⟨"stdd", List.range T ++ (List.range T).reverse,
        ((List.range T).map fun t => avg t + dev t) ++ ((List.range T).map fun t => avg t - dev t).reverse, true⟩,
      ⟨"range", List.range T ++ (List.range T).reverse, (List.range T).map top ++ ((List.range T).map bottom).reverse, true⟩] ∧
    ∀ t < T, avg t = (data.map fun r => r.getD t 0).sum / data.length ∧ 0 ≤ dev t ∧
      dev t ^ 2 = (data.map fun r => (r.getD t 0 - avg t) ^ 2).sum / data.length ∧
      (∃ r ∈ data, r.getD t 0 = top t) ∧ (∃ r ∈ data, r.getD t 0 = bottom t) ∧
      (∀ r ∈ data, bottom t ≤ r.getD t 0 ∧ r.getD t 0 ≤ top t) ∧ bottom t ≤ avg t ∧ avg t ≤ top t ∧
      dev t ^ 2 ≤ (top t - avg t) * (avg t - bottom t) ∧ dev t ≤ (top t - bottom t) / 2 := by
  set col : ℕ → List ℝ := fun t => data.map fun r => r.getD t 0 with hcol
  have hne : ∀ t, col t ≠ [] := fun t h => hn (List.map_eq_nil_iff.1 h)
  have hmax : ∀ t, ∃ m, (col t).max? = some m := fun t => by
    rcases h : (col t).max? with _ | m
    · exact absurd (List.max?_eq_none_iff.1 h) (hne t)
    · exact ⟨m, rfl⟩
  have hmin : ∀ t, ∃ m, (col t).min? = some m := fun t => by
    rcases h : (col t).min? with _ | m
    · exact absurd (List.min?_eq_none_iff.1 h) (hne t)
    · exact ⟨m, rfl⟩
  choose top htop using hmax
  choose bottom hbottom using hmin
  have hT : maxima T data = .ok ((List.range T).map top) := by
    unfold maxima columns
    rw [List.mapM_map]
    exact mapM_ok _ _ _ fun t _ => by
      show (match (col t).max? with
        | none => Except.error Err.value
        | some m => .ok m) = _
      rw [htop]
  have hB : minima T data = .ok ((List.range T).map bottom) := by
    unfold minima columns
    rw [List.mapM_map]
    exact mapM_ok _ _ _ fun t _ => by
      show (match (col t).min? with
        | none => Except.error Err.value
        | some m => .ok m) = _
      rw [hbottom]
  refine ⟨fun t => mean (col t), fun t => stdd (col t), top, bottom, ?_, ?_⟩
  · unfold plot2
    rw [hT, hB]
    simp only [columns, List.map_map, List.length_map, List.length_range, List.zipWith_map, bind, Except.bind, pure, Except.pure]
    simp only [Function.comp_def, List.zipWith_self]
    rfl
  · intro t _
    have hlen : (col t).length = data.length := by simp [hcol]
    have hpos : (0 : ℝ) < data.length := by
      have := List.length_pos_iff.2 hn
      exact_mod_cast this
    obtain ⟨htm, htl⟩ := List.max?_eq_some_iff.1 (htop t)
    obtain ⟨hbm, hbl⟩ := List.min?_eq_some_iff.1 (hbottom t)
    have hmean : mean (col t) = (col t).sum / data.length := by unfold mean; rw [hlen]
    have hsum : (col t).sum = data.length * mean (col t) := by rw [hmean]; field_simp
    have hlo : bottom t ≤ mean (col t) := by
      have := sum_ge (bottom t) (col t) hbl
      rw [hlen, hsum] at this
      exact le_of_mul_le_mul_left this hpos
    have hhi : mean (col t) ≤ top t := by
      have := sum_le (top t) (col t) htl
      rw [hlen, hsum] at this
      exact le_of_mul_le_mul_left this hpos
    have hvar : stdd (col t) ^ 2 = ((col t).map fun v => (v - mean (col t)) ^ 2).sum / data.length := by
      unfold stdd
      rw [Real.sq_sqrt]
      · show _ / _ = _
        rw [List.length_map, hlen]
      · exact div_nonneg (sum_sq_nonneg _ _) (Nat.cast_nonneg _)
    have hbd : stdd (col t) ^ 2 ≤ (top t - mean (col t)) * (mean (col t) - bottom t) := by
      rw [hvar, div_le_iff₀ hpos]
      refine le_trans (sum_sq (bottom t) (top t) (mean (col t)) (col t) fun v hv => ⟨hbl v hv, htl v hv⟩) ?_
      rw [hlen, hsum]
      exact le_of_eq (by ring)
    refine ⟨hmean, Real.sqrt_nonneg _, ?_, ?_, ?_, ?_, hlo, hhi, hbd, ?_⟩
    · rw [hvar, hcol]
      simp only [List.map_map]
      rfl
    · obtain ⟨r, hr, e⟩ := List.mem_map.1 htm
      exact ⟨r, hr, e⟩
    · obtain ⟨r, hr, e⟩ := List.mem_map.1 hbm
      exact ⟨r, hr, e⟩
    · exact fun r hr => ⟨hbl _ (List.mem_map.2 ⟨r, hr, rfl⟩), htl _ (List.mem_map.2 ⟨r, hr, rfl⟩)⟩
    · refine abs_le_of_sq_le_sq' ?_ (by linarith) |>.2
      nlinarith [sq_nonneg (top t + bottom t - 2 * mean (col t))]

/-- Data of one dimension are plotted as they are. -/
theorem C142_plot_line (data : List ℝ) : plot1 data = [⟨"mean", List.range data.length, data, false⟩] := rfl

/-- **The documented shape is not the one that is plotted**: for data of shape `[steps, iterations]`, as documented, the
horizontal axis has the iterations, and the means are over the steps. -/
theorem C142_violated_shape (steps iterations : ℕ) (hs : 0 < steps) (hne : iterations ≠ steps) (f : ℕ → ℕ → ℝ) :
    ∃ traces m, plot2 iterations ((List.range steps).map fun s => (List.range iterations).map (f s)) = .ok traces ∧
      m ∈ traces ∧ m.name = "mean" ∧ m.x.length ≠ steps ∧
      ∀ i < iterations, m.y[i]? = some (((List.range steps).map fun s => f s i).sum / steps) := by
  obtain ⟨avg, dev, top, bottom, h, hall⟩ := C142_plot iterations
    ((List.range steps).map fun s => (List.range iterations).map (f s)) (by simp; omega)
  refine ⟨_, _, h, List.mem_cons_self, rfl, by simpa using hne, ?_⟩
  intro i hi
  have e := (hall i hi).1
  simp only [List.map_map, List.length_map, List.length_range] at e
  simp only [List.getElem?_map, List.getElem?_range hi, Option.map_some, Option.some.injEq]
  rw [e]
  congr 2
  refine List.map_congr_left fun s _ => ?_
  simp [hi]

/-- **The band of the deviation can leave the range**: values 0, 0, 0, 1 of a step. -/
theorem C142_violated_band : ∃ mean_ sd range_, plot2 1 [[0], [0], [0], [1]] = .ok [mean_, sd, range_] ∧
    ∃ a b, sd.y[1]? = some a ∧ range_.y[1]? = some b ∧ a < b := by
  obtain ⟨avg, dev, top, bottom, h, hall⟩ := C142_plot 1 [[0], [0], [0], [1]] (by simp)
  refine ⟨_, _, _, h, avg 0 - dev 0, bottom 0, rfl, rfl, ?_⟩
  obtain ⟨h1, h2, h3, -, ⟨r, hr, e⟩, h5, -⟩ := hall 0 (by norm_num)
  have hb : 0 ≤ bottom 0 := by
    rw [← e]
    simp only [List.mem_cons, List.not_mem_nil, or_false] at hr
    rcases hr with rfl | rfl | rfl | rfl <;> norm_num
  norm_num at h1
  rw [h1] at h3
  norm_num at h3
  rw [h1]
  nlinarith

end Verif.Script.Plots

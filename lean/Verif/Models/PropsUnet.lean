import Verif.Models.Unet
import Mathlib.Tactic.Ring
import Mathlib.Tactic.SplitIfs
import Mathlib.Data.Nat.Log

/-!
C57: resolution of the U-Net discriminator.
-/

namespace Verif.Models.Unet

theorem down_ok (l : Level) (c h w : ℕ) (hc : c = l.inPlanes) (hh : 2 ≤ h) (hw : 2 ≤ w) :
    l.down ⟨c, h, w⟩ = .ok ⟨l.downPlanes, h / 2, w / 2⟩ := by
  have e1 : ¬ (h < 2 ∨ w < 2) := by omega
  subst hc
  by_cases hp : l.inPlanes = l.downPlanes
  · simp [Level.down, conv, pool, e1, hp, bind, Except.bind, pure, Except.pure]
  · simp [Level.down, conv, pool, e1, hp, bind, Except.bind, pure, Except.pure]

theorem up_clip (l : Level) (x : Shape) (h : l.clip = true) : l.up x = .ok x := by
  simp [Level.up, h]

theorem up_ok (l : Level) (c h w : ℕ) (hl : l.clip = false) (hc : c = l.downPlanes) :
    l.up ⟨c, h, w⟩ = .ok ⟨l.outPlanes, 2 * h, 2 * w⟩ := by
  subst hc
  by_cases hp : l.downPlanes = l.outPlanes
  · simp [Level.up, conv, hl, hp, upsample, bind, Except.bind, pure, Except.pure]
  · simp [Level.up, conv, hl, hp, upsample, bind, Except.bind, pure, Except.pure]

theorem up_err (l : Level) (c h w : ℕ) (hl : l.clip = false) (hc : c ≠ l.downPlanes) :
    l.up ⟨c, h, w⟩ = .error .runtime := by
  simp [Level.up, conv, hl, hc, upsample, bind, Except.bind]

theorem run_cons (l : Level) (ls : List Level) (x y z : Shape) (h1 : l.down x = .ok y) (h2 : run ls y = .ok z) :
    run (l :: ls) x = l.up z := by
  show (l.down x >>= fun x => run ls x >>= fun x => l.up x) = _
  rw [h1]
  show (run ls y >>= fun x => l.up x) = _
  rw [h2]
  rfl

/-- The number of levels among the `k` innermost that upsample. -/
def ups (numUp : ℤ) (k : ℕ) : ℕ := if numUp < 0 then k else min k numUp.toNat

/-- The channels after the `k` innermost levels; `innermost` and `last` are the channels at the bottom and at the
`k`-th level. -/
def outChans (numUp : ℤ) (k innermost last : ℕ) : ℕ :=
  if numUp < 0 then last else if numUp = 0 then innermost else if (k : ℤ) < numUp then last else 64

/-- The invariant of the loop. -/
def Inv (numUp : ℤ) (innermost k : ℕ) (b : Build) : Prop :=
  (b.clip = decide (0 ≤ numUp ∧ numUp < k)) ∧ (k = 0 → b.lastchan = innermost) ∧
    ∀ h w, 2 ^ k ≤ h → 2 ^ k ≤ w →
      run b.levels ⟨b.lastchan, h, w⟩ = .ok ⟨outChans numUp k innermost b.lastchan,
        h / 2 ^ k * 2 ^ ups numUp k, w / 2 ^ k * 2 ^ ups numUp k⟩

theorem size_step (n k : ℕ) (h : 2 ^ (k + 1) ≤ n) : 2 ≤ n ∧ 2 ^ k ≤ n / 2 ∧ n / 2 / 2 ^ k = n / 2 ^ (k + 1) := by
  have hp : 2 ^ (k + 1) = 2 * 2 ^ k := by ring
  have h1 : 1 ≤ 2 ^ k := Nat.one_le_two_pow
  refine ⟨by omega, by omega, ?_⟩
  rw [Nat.div_div_eq_div_mul, hp]

theorem inv_step (numUp : ℤ) (innermost k : ℕ) (b : Build) (hb : Inv numUp innermost k b) (chan : ℕ) :
    Inv numUp innermost (k + 1) (b.step numUp k chan) := by
  obtain ⟨hclip, h0, hrun⟩ := hb
  have hclip' : (b.step numUp k chan).clip = decide (0 ≤ numUp ∧ numUp < ((k + 1 : ℕ) : ℤ)) := by
    show (if (k : ℤ) = numUp then true else b.clip) = _
    rw [hclip]
    by_cases e : (k : ℤ) = numUp
    · rw [if_pos e]; symm; rw [decide_eq_true_eq]; omega
    · rw [if_neg e]; apply decide_eq_decide.2; omega
  refine ⟨hclip', by omega, ?_⟩
  intro h w hh hw
  obtain ⟨a1, a2, a3⟩ := size_step h k hh
  obtain ⟨b1, b2, b3⟩ := size_step w k hw
  set l := Level.make chan b.lastchan (if (k : ℤ) = numUp - 1 then some 64 else none) (b.step numUp k chan).clip
    with hl
  have hlv : (b.step numUp k chan).levels = l :: b.levels := rfl
  have hlc : (b.step numUp k chan).lastchan = chan := rfl
  have hlclip : l.clip = (b.step numUp k chan).clip := rfl
  have hld : l.downPlanes = b.lastchan := rfl
  have hlo : l.outPlanes = if (k : ℤ) = numUp - 1 then 64 else chan := by
    show (if (k : ℤ) = numUp - 1 then some 64 else none).getD chan = _
    split_ifs <;> rfl
  rw [hlv, hlc, run_cons l b.levels _ _ _ (down_ok l chan h w rfl a1 b1) (by rw [hld]; exact hrun _ _ a2 b2), a3, b3]
  by_cases hc : 0 ≤ numUp ∧ numUp < ((k + 1 : ℕ) : ℤ)
  · rw [up_clip l _ (by rw [hlclip, hclip']; exact decide_eq_true hc)]
    have e1 : ups numUp k = ups numUp (k + 1) := by
      unfold ups
      rw [if_neg (by omega), if_neg (by omega)]
      omega
    have e2 : outChans numUp k innermost b.lastchan = outChans numUp (k + 1) innermost chan := by
      unfold outChans
      split_ifs <;> first | rfl | (exfalso; omega)
    rw [e1, e2]
  · have hin : outChans numUp k innermost b.lastchan = b.lastchan := by
      unfold outChans
      by_cases e : numUp < 0
      · rw [if_pos e]
      · rw [if_neg e, if_neg (by omega), if_pos (by omega)]
    rw [hin, up_ok l _ _ _ (by rw [hlclip, hclip']; exact decide_eq_false hc) hld.symm, hlo]
    have e1 : ups numUp (k + 1) = ups numUp k + 1 := by
      unfold ups
      by_cases e : numUp < 0
      · rw [if_pos e, if_pos e]
      · rw [if_neg e, if_neg e]; omega
    have e2 : (if (k : ℤ) = numUp - 1 then 64 else chan) = outChans numUp (k + 1) innermost chan := by
      unfold outChans
      split_ifs <;> first | rfl | (exfalso; omega)
    rw [e1, e2]
    congr 2 <;> ring

theorem inv_loop (numUp : ℤ) (innermost : ℕ) (rest : List ℕ) (k : ℕ) (b : Build) (hb : Inv numUp innermost k b) :
    Inv numUp innermost (k + rest.length) (Build.loop numUp b k rest) := by
  induction rest generalizing k b with
  | nil => exact hb
  | cons c rest ih =>
    have := ih (k + 1) (b.step numUp k c) (inv_step numUp innermost k b hb c)
    rw [show k + (c :: rest).length = k + 1 + rest.length by simp; omega]
    exact this

theorem loop_last (numUp : ℤ) (rest : List ℕ) (k : ℕ) (b : Build) :
    (Build.loop numUp b k rest).lastchan = (rest.getLast?).getD b.lastchan := by
  induction rest generalizing k b with
  | nil => rfl
  | cons c rest ih =>
    show (Build.loop numUp (b.step numUp k c) (k + 1) rest).lastchan = _
    rw [ih]
    cases rest with
    | nil => rfl
    | cons d rest => simp [List.getLast?_cons]

/-- Exactly what the discriminator returns for a list of channels `c0, c1, ..., cn` of at least two entries, the
factor `2 ^ d`, and an image of at least `2 ^ n` in each direction with `c0` channels. `c1` and `cn` are the second
and last entries, `n` the number of levels. -/
theorem discriminate_exact (out d c0 : ℕ) (mid : List ℕ) (cn : ℕ) (h w : ℕ)
    (hh : 2 ^ (mid.length + 1) ≤ h) (hw : 2 ^ (mid.length + 1) ≤ w) :
    let n := mid.length + 1
    let c1 := mid.head?.getD cn
    discriminate out (2 ^ d) (c0 :: mid ++ [cn]) ⟨c0, h, w⟩ =
      if d = 0 then .ok ⟨out, h / 2 ^ n * 2 ^ n, w / 2 ^ n * 2 ^ n⟩
      else if n < d then .ok ⟨out, h / 2 ^ n * 2 ^ n, w / 2 ^ n * 2 ^ n⟩
      else if d = 1 then
        if mid = [] ∨ c1 = 64 then .ok ⟨out, h / 2 ^ n * 2 ^ n, w / 2 ^ n * 2 ^ n⟩ else .error .runtime
      else if d = n then if cn = 64 then .ok ⟨out, h / 2 ^ n, w / 2 ^ n⟩ else .error .runtime
      else .ok ⟨out, h / 2 ^ n * 2 ^ (n - d), w / 2 ^ n * 2 ^ (n - d)⟩ := by
  intro n c1
  have hinner : inner (c0 :: mid ++ [cn]) = mid.reverse := by simp [inner]
  have hlast : (c0 :: mid ++ [cn]).getLast?.getD 0 = cn := by simp [List.getLast?_cons]
  have hlog : Nat.log2 (2 ^ d) = d := Nat.log2_two_pow
  have hlen : ((c0 :: mid ++ [cn]).length : ℤ) - 1 - (d : ℤ) = (n : ℤ) - d := by
    simp [n]
  have hpow : 2 ^ d &&& (2 ^ d - 1) = 0 ∧ (2 : ℕ) ^ d ≠ 0 := by
    have h0 : (2 : ℕ) ^ d ≠ 0 := Nat.pos_iff_ne_zero.1 (Nat.two_pow_pos d)
    exact ⟨(Nat.and_sub_one_eq_zero_iff_isPowerOfTwo h0).2 ⟨d, rfl⟩, h0⟩
  set numUp : ℤ := (n : ℤ) - d with hnum
  set b := Build.loop numUp { levels := [], lastchan := cn, clip := false } 0 mid.reverse with hb
  have hinit : init (2 ^ d) (c0 :: mid ++ [cn]) = .ok (Level.make c0 b.lastchan (some 64) b.clip :: b.levels) := by
    unfold init
    rw [if_neg (not_not.2 hpow)]
    dsimp only
    rw [hlog, hlen, hlast, hinner]
    rfl
  have hinv : Inv numUp cn mid.length b := by
    have h0 : Inv numUp cn 0 { levels := [], lastchan := cn, clip := false } := by
      refine ⟨by symm; rw [decide_eq_false_iff_not]; omega, fun _ => rfl, ?_⟩
      intro h w _ _
      have e1 : ups numUp 0 = 0 := by unfold ups; split_ifs <;> simp
      have e2 : outChans numUp 0 cn cn = cn := by
        unfold outChans
        split_ifs <;> first | rfl | (exfalso; omega)
      dsimp only
      rw [e1, e2]
      simp [run]
    have := inv_loop numUp cn mid.reverse 0 _ h0
    rwa [List.length_reverse, Nat.zero_add] at this
  have hlc : b.lastchan = c1 := by
    rw [hb, loop_last]
    simp [c1, List.getLast?_reverse]
  obtain ⟨hclip, -, hrun⟩ := hinv
  obtain ⟨a1, a2, a3⟩ := size_step h mid.length hh
  obtain ⟨b1, b2, b3⟩ := size_step w mid.length hw
  set l := Level.make c0 b.lastchan (some 64) b.clip with hl
  have hld : l.downPlanes = b.lastchan := rfl
  have hlo : l.outPlanes = 64 := rfl
  have hlclip : l.clip = b.clip := rfl
  have hr : run (l :: b.levels) ⟨c0, h, w⟩ = l.up _ :=
    run_cons l b.levels _ _ _ (down_ok l c0 h w rfl a1 b1) (by rw [hld]; exact hrun _ _ a2 b2)
  have hdis : discriminate out (2 ^ d) (c0 :: mid ++ [cn]) ⟨c0, h, w⟩ =
      (run (l :: b.levels) ⟨c0, h, w⟩ >>= fun x => conv 64 out x) := by
    unfold discriminate
    rw [hinit]
    rfl
  rw [hdis, hr, a3, b3]
  have hfin : ∀ a b : ℕ, (Except.ok ⟨64, a, b⟩ >>= fun x => conv 64 out x : Except Err Shape) = .ok ⟨out, a, b⟩ := by
    intro a b
    simp [bind, Except.bind, conv]
  have hn : n = mid.length + 1 := rfl
  by_cases hd0 : d = 0
  · -- all levels upsample
    rw [if_pos hd0]
    have e1 : outChans numUp mid.length cn b.lastchan = b.lastchan := by
      unfold outChans
      rw [if_neg (by omega), if_neg (by omega), if_pos (by omega)]
    have e2 : ups numUp mid.length = mid.length := by
      unfold ups; rw [if_neg (by omega)]; omega
    rw [e1, e2, up_ok l _ _ _ (by rw [hlclip, hclip]; exact decide_eq_false (by omega)) hld.symm, hlo, hfin]
    congr 2 <;> rw [hn] <;> ring
  rw [if_neg hd0]
  by_cases hdn : n < d
  · rw [if_pos hdn]
    have e1 : outChans numUp mid.length cn b.lastchan = b.lastchan := by
      unfold outChans
      rw [if_pos (by omega)]
    have e2 : ups numUp mid.length = mid.length := by
      unfold ups; rw [if_pos (by omega)]
    rw [e1, e2, up_ok l _ _ _ (by rw [hlclip, hclip]; exact decide_eq_false (by omega)) hld.symm, hlo, hfin]
    congr 2 <;> rw [hn] <;> ring
  rw [if_neg hdn]
  by_cases hd1 : d = 1
  · rw [if_pos hd1]
    have hcl : l.clip = false := by rw [hlclip, hclip]; exact decide_eq_false (by omega)
    have e2 : ups numUp mid.length = mid.length := by
      unfold ups; rw [if_neg (by omega)]; omega
    by_cases hm : mid = []
    · rw [if_pos (Or.inl hm)]
      have hm0 : mid.length = 0 := by simp [hm]
      have e1 : outChans numUp mid.length cn b.lastchan = b.lastchan := by
        unfold outChans
        rw [if_neg (by omega), if_pos (by omega), hlc]
        simp [c1, hm]
      rw [e1, e2, up_ok l _ _ _ hcl hld.symm, hlo, hfin]
      congr 2 <;> rw [hn] <;> ring
    · have hm0 : mid.length ≠ 0 := by simpa using hm
      have e1 : outChans numUp mid.length cn b.lastchan = 64 := by
        unfold outChans
        rw [if_neg (by omega), if_neg (by omega), if_neg (by omega)]
      by_cases hc : c1 = 64
      · rw [if_pos (Or.inr hc), e1, e2, up_ok l _ _ _ hcl (by rw [hld, hlc, hc]), hlo, hfin]
        congr 2 <;> rw [hn] <;> ring
      · rw [if_neg (by tauto), e1, e2, up_err l _ _ _ hcl (by rw [hld, hlc]; exact fun h => hc h.symm)]
        rfl
  rw [if_neg hd1]
  have hcl : l.clip = true := by rw [hlclip, hclip]; exact decide_eq_true (by omega)
  rw [up_clip l _ hcl]
  by_cases hdn' : d = n
  · rw [if_pos hdn']
    have e1 : outChans numUp mid.length cn b.lastchan = cn := by
      unfold outChans
      rw [if_neg (by omega), if_pos (by omega)]
    have e2 : ups numUp mid.length = 0 := by
      unfold ups; rw [if_neg (by omega)]; omega
    rw [e1, e2, Nat.pow_zero, Nat.mul_one, Nat.mul_one]
    by_cases hc : cn = 64
    · rw [if_pos hc, hc, hfin]
    · rw [if_neg hc]
      simp [bind, Except.bind, conv, hc]
  · rw [if_neg hdn']
    have e1 : outChans numUp mid.length cn b.lastchan = 64 := by
      unfold outChans
      rw [if_neg (by omega), if_neg (by omega), if_neg (by omega)]
    have e2 : ups numUp mid.length = n - d := by
      unfold ups; rw [if_neg (by omega)]; omega
    rw [e1, e2, hfin]

/-- **C57, accepted factors.** The constructor accepts exactly the powers of two. -/
theorem C57_factors (factor : ℕ) (chans : List ℕ) :
    (∃ levels, init factor chans = .ok levels) ↔ ∃ d, factor = 2 ^ d := by
  unfold init
  by_cases h : factor &&& (factor - 1) = 0 ∧ factor ≠ 0
  · rw [if_neg (not_not.2 h)]
    have := Nat.ne_zero_and_sub_one_eq_zero_iff_isPowerOfTwo.1 ⟨h.2, h.1⟩
    simp only [Except.ok.injEq, exists_eq', true_iff]
    exact this
  · rw [if_pos h]
    constructor
    · rintro ⟨_, h'⟩; cases h'
    · rintro ⟨d, hd⟩
      exact absurd ((Nat.ne_zero_and_sub_one_eq_zero_iff_isPowerOfTwo.2 ⟨d, hd⟩ : _ ∧ _).symm) h

theorem div_mul_pow (n d h : ℕ) (hd : d ≤ n) (hdiv : 2 ^ n ∣ h) : h / 2 ^ n * 2 ^ (n - d) = h / 2 ^ d := by
  obtain ⟨k, rfl⟩ := hdiv
  rw [Nat.mul_div_cancel_left _ (Nat.two_pow_pos n)]
  rw [show 2 ^ n = 2 ^ d * 2 ^ (n - d) by rw [← Nat.pow_add]; congr 1; omega]
  rw [Nat.mul_assoc, Nat.mul_div_cancel_left _ (Nat.two_pow_pos d), Nat.mul_comm]

/-- **C57, what holds.** For every list of `n + 1` channels, every factor `2 ^ d` with `d = 0` or `2 ≤ d < n`, and
every image whose height and width are positive multiples of `2 ^ n`, the output has the requested channels and the
size of the image divided by the factor. Missing: the factors `2` and `2 ^ n`, and larger ones (see
`C57_violated`). -/
theorem C57_partial (out d c0 : ℕ) (mid : List ℕ) (cn : ℕ) (h w : ℕ) (hd : d = 0 ∨ 2 ≤ d ∧ d < mid.length + 1)
    (h0 : 0 < h) (w0 : 0 < w) (hh : 2 ^ (mid.length + 1) ∣ h) (hw : 2 ^ (mid.length + 1) ∣ w) :
    discriminate out (2 ^ d) (c0 :: mid ++ [cn]) ⟨c0, h, w⟩ = .ok ⟨out, h / 2 ^ d, w / 2 ^ d⟩ := by
  rw [discriminate_exact out d c0 mid cn h w (Nat.le_of_dvd h0 hh) (Nat.le_of_dvd w0 hw)]
  rcases hd with hd | ⟨hd2, hdn⟩
  · rw [if_pos hd, hd]
    have e1 := div_mul_pow (mid.length + 1) 0 h (by omega) hh
    have e2 := div_mul_pow (mid.length + 1) 0 w (by omega) hw
    rw [Nat.sub_zero] at e1 e2
    rw [e1, e2]
  · rw [if_neg (by omega), if_neg (by omega), if_neg (by omega), if_neg (by omega)]
    rw [div_mul_pow _ d h (by omega) hh, div_mul_pow _ d w (by omega) hw]

/-- C57_partial is not vacuous: the factor 16 of the paper and the default channels. -/
example : discriminate 257 16 defaultChans ⟨3, 256, 256⟩ = .ok ⟨257, 16, 16⟩ := by decide +kernel

/-- **C57 is violated** for every list of channels. With factor 2 the discriminator raises or returns the full
resolution; with the factor `2 ^ n` of all levels it raises unless the last entry is 64; with any larger factor the
constructor accepts and the full resolution comes back. The default channels show all three. -/
theorem C57_violated :
    (∀ out c0 mid cn h w, 0 < h → 0 < w → 2 ^ (mid.length + 1) ∣ h → 2 ^ (mid.length + 1) ∣ w →
      discriminate out 2 (c0 :: mid ++ [cn]) ⟨c0, h, w⟩ ≠ .ok ⟨out, h / 2, w / 2⟩) ∧
    (∀ out c0 mid cn h w, mid ≠ [] → cn ≠ 64 → 2 ^ (mid.length + 1) ≤ h → 2 ^ (mid.length + 1) ≤ w →
      discriminate out (2 ^ (mid.length + 1)) (c0 :: mid ++ [cn]) ⟨c0, h, w⟩ = .error .runtime) ∧
    (∀ out d c0 mid cn h w, mid.length + 1 < d → 0 < h → 0 < w → 2 ^ (mid.length + 1) ∣ h → 2 ^ (mid.length + 1) ∣ w →
      discriminate out (2 ^ d) (c0 :: mid ++ [cn]) ⟨c0, h, w⟩ = .ok ⟨out, h, w⟩) ∧
    discriminate 257 2 defaultChans ⟨3, 256, 256⟩ = .error .runtime ∧
    discriminate 257 64 defaultChans ⟨3, 256, 256⟩ = .error .runtime ∧
    discriminate 257 128 defaultChans ⟨3, 256, 256⟩ = .ok ⟨257, 256, 256⟩ := by
  refine ⟨?_, ?_, ?_, by decide +kernel, by decide +kernel, by decide +kernel⟩
  · intro out c0 mid cn h w h0 w0 hh hw
    have e := discriminate_exact out 1 c0 mid cn h w (Nat.le_of_dvd h0 hh) (Nat.le_of_dvd w0 hw)
    rw [Nat.pow_one] at e
    rw [e, if_neg (by omega), if_neg (by omega), if_pos rfl, Nat.div_mul_cancel hh, Nat.div_mul_cancel hw]
    split_ifs
    · intro he
      injection he with he
      injection he with _ he _
      omega
    · intro he; cases he
  · intro out c0 mid cn h w hm hc hh hw
    have hm0 : mid.length ≠ 0 := by simpa using hm
    rw [discriminate_exact out _ c0 mid cn h w hh hw, if_neg (by omega), if_neg (by omega), if_neg (by omega),
      if_pos rfl, if_neg hc]
  · intro out d c0 mid cn h w hd h0 w0 hh hw
    rw [discriminate_exact out _ c0 mid cn h w (Nat.le_of_dvd h0 hh) (Nat.le_of_dvd w0 hw), if_neg (by omega),
      if_pos hd, Nat.div_mul_cancel hh, Nat.div_mul_cancel hw]

/-- **C57, conditional discriminator.** With the default channels the conditional discriminator returns the same
shape as the plain one would, for every number of context channels, every context of at least two pixels in each
direction, and the factors of `C57_partial`. -/
theorem C57_conditional_partial (out d contextIn contextOut h w ch cw : ℕ) (hd : d = 0 ∨ 2 ≤ d ∧ d < 6)
    (h0 : 0 < h) (w0 : 0 < w) (hh : 64 ∣ h) (hw : 64 ∣ w) (hch : 2 ≤ ch) (hcw : 2 ≤ cw) :
    discriminateConditional out (2 ^ d) contextIn contextOut none ⟨3, h, w⟩ ⟨contextIn, ch, cw⟩ =
      .ok ⟨out, h / 2 ^ d, w / 2 ^ d⟩ := by
  have key := C57_partial out d (3 + contextOut) [128, 128, 256, 256, 512] 512 h w hd h0 w0 (by simpa using hh)
    (by simpa using hw)
  rw [← key]
  have e1 : (3 + contextOut) :: [128, 128, 256, 256, 512] ++ [512] = [3 + contextOut, 128, 128, 256, 256, 512, 512] := rfl
  rw [e1] at *
  unfold discriminateConditional discriminate
  dsimp only [Option.getD]
  cases init (2 ^ d) [3 + contextOut, 128, 128, 256, 256, 512, 512] with
  | error e => rfl
  | ok levels =>
    have : ¬ (ch < 2 ∨ cw < 2) := by omega
    simp [bind, Except.bind, conv, this]

end Verif.Models.Unet
